import Verif.Lemmas.ThreadsModel
/-
Tensor operations commute with the selection of one sample.
-/
namespace TorchMPS
open Spec Prog
variable {K : Type} {α β : Type}
namespace Threads

/-- `t'` is sample `b` of `t` (the only sample, if there is just one); nothing is said if `t` has fewer samples. -/
def Row (b : ℕ) (t t' : Tensor K) : Prop :=
  ∃ n s, t.shape = n :: s ∧ t'.shape = 1 :: s ∧ ((n = 1 ∨ b < n) → ∀ idx, t'.get (0 :: idx) = t.get ((if n = 1 then 0 else b) :: idx))

/-- operands of an einsum: with batch axis, or the same tensor -/
def OpRow (b : ℕ) (u : List Char) (t t' : Tensor K) : Prop := (∃ v, u = 'b' :: v ∧ 'b' ∉ v ∧ Row b t t') ∨ ('b' ∉ u ∧ t' = t)

theorem letterSize_of (uses : List (Char × ℕ)) (h : ∀ u ∈ uses, ∀ v ∈ uses, u.1 = v.1 → u.2 = 1 ∨ v.2 = 1 ∨ u.2 = v.2) (u : Char × ℕ) (hu : u ∈ uses)
    (h1 : u.2 ≠ 1) : letterSize uses u.1 = u.2 := by
  unfold letterSize
  cases hf : ((uses.filter (fun v => v.1 = u.1)).map Prod.snd).find? (· ≠ 1) with
  | none =>
    rw [List.find?_eq_none] at hf
    have := hf u.2 (List.mem_map.2 ⟨u, List.mem_filter.2 ⟨hu, by simp⟩, rfl⟩)
    simp [h1] at this
  | some n =>
    have hn1 := List.find?_some hf
    obtain ⟨v, hv, rfl⟩ := List.mem_map.1 (List.mem_of_find?_eq_some hf)
    obtain ⟨hv, hc⟩ := List.mem_filter.1 hv
    simp only [decide_eq_true_eq] at hc hn1
    rcases h u hu v hv hc.symm with h | h | h
    · exact absurd h h1
    · exact absurd h hn1
    · exact h.symm

theorem letterSize_congr (uses uses' : List (Char × ℕ)) (c : Char) (h : uses'.filter (fun u => u.1 = c) = uses.filter (fun u => u.1 = c)) :
    letterSize uses' c = letterSize uses c := by
  unfold letterSize
  rw [h]

theorem env_set_comm (env : Env) (c d : Char) (i j : ℕ) (h : c ≠ d) : (env.set c i).set d j = (env.set d j).set c i := by
  funext e
  unfold Env.set
  split <;> split <;> simp_all

theorem sumOver_row [AddCommMonoid K] (sz sz' : Char → ℕ) (cs : List Char) (hb : 'b' ∉ cs) (hs : ∀ c ∈ cs, sz c = sz' c) (β : ℕ) (f f' : Env → K)
    (h : ∀ env : Env, f (env.set 'b' β) = f' (env.set 'b' 0)) (env : Env) :
    sumOver sz cs (env.set 'b' β) f = sumOver sz' cs (env.set 'b' 0) f' := by
  induction cs generalizing env with
  | nil => exact h env
  | cons c cs ih =>
    simp only [List.mem_cons, not_or] at hb
    simp only [sumOver]
    rw [hs c (by simp)]
    refine Finset.sum_congr rfl fun i _ => ?_
    rw [env_set_comm _ 'b' c _ _ hb.1, env_set_comm _ 'b' c _ _ hb.1]
    exact ih hb.2 (fun d hd => hs d (by simp [hd])) (env.set c i)

theorem zip_map_pair {α β γ : Type} (L : List α) (f : α → β) (g : α → γ) : (L.map f).zip (L.map g) = L.map (fun p => (f p, g p)) := by
  induction L with
  | nil => rfl
  | cons a L ih => simp [ih]

theorem einsum_row [CommSemiring K] (b : ℕ) (L : List (List Char × Tensor K × Tensor K)) (hL : ∀ p ∈ L, OpRow b p.1 p.2.1 p.2.2) (o : List Char)
    (t : Tensor K) (h : einsum (L.map (·.1)) ('b' :: o) (L.map (·.2.1)) = .ok t) :
    ∃ t', einsum (L.map (·.1)) ('b' :: o) (L.map (·.2.2)) = .ok t' ∧ Row b t t' := by
  unfold einsum at h ⊢
  simp only [zip_map_pair, List.flatMap_map] at h ⊢
  set uses := L.flatMap (fun p => p.1.zip p.2.1.shape) with huses
  set uses' := L.flatMap (fun p => p.1.zip p.2.2.shape) with huses'
  have hfil : ∀ c, c ≠ 'b' → uses'.filter (fun u => u.1 = c) = uses.filter (fun u => u.1 = c) := by
    intro c hc
    rw [huses, huses', List.filter_flatMap, List.filter_flatMap]
    refine List.flatMap_congr fun p hp => ?_
    rcases hL p hp with ⟨v, h1, h2, n, s, h3, h4, _⟩ | ⟨_, h2⟩
    · rw [h1, h3, h4]
      simp [hc.symm]
    · rw [h2]
  have hone : ∀ u ∈ uses', u.1 = 'b' → u.2 = 1 := by
    intro u hu hub
    obtain ⟨p, hp, hu⟩ := List.mem_flatMap.1 hu
    rcases hL p hp with ⟨v, h1, h2, n, s, h3, h4, _⟩ | ⟨h2, _⟩
    · rw [h1, h4, List.zip_cons_cons, List.mem_cons] at hu
      rcases hu with rfl | hu
      · rfl
      · exact absurd (hub ▸ (List.of_mem_zip hu).1) h2
    · exact absurd (hub ▸ (List.of_mem_zip hu).1) h2
  split at h
  · rename_i hc
    obtain ⟨c1, c2, c3, c4, c5⟩ := hc
    cases h
    have hsz : ∀ c, c ≠ 'b' → letterSize uses' c = letterSize uses c := fun c hc => letterSize_congr _ _ _ (hfil c hc)
    have hszb : letterSize uses' 'b' = 1 := by
      unfold letterSize
      cases hf : ((uses'.filter (fun v => v.1 = 'b')).map Prod.snd).find? (· ≠ 1) with
      | none => rfl
      | some n =>
        have hn1 := List.find?_some hf
        obtain ⟨v, hv, rfl⟩ := List.mem_map.1 (List.mem_of_find?_eq_some hf)
        obtain ⟨hv, hc⟩ := List.mem_filter.1 hv
        simp only [decide_eq_true_eq] at hc hn1
        exact absurd (hone v hv hc) hn1
    have hbo : 'b' ∉ o := (List.nodup_cons.1 c4).1
    rw [if_pos]
    · refine ⟨_, rfl, letterSize uses 'b', o.map (letterSize uses), rfl, ?_, ?_⟩
      · simp only [List.map_cons, hszb, List.cons.injEq, true_and]
        exact List.map_congr_left fun c hc => hsz c (fun h => hbo (h ▸ hc))
      · intro hM idx
        simp only [Env.ofOut]
        symm
        refine sumOver_row _ _ _ ?_ ?_ _ _ _ ?_ _
        · simp
        · intro c hc
          have hc := (List.mem_filter.1 hc).2
          refine (hsz c ?_).symm
          rintro rfl
          simp at hc
        · intro env
          congr 1
          rw [List.map_map, List.map_map]
          refine List.map_congr_left fun q hq => ?_
          simp only [Function.comp_apply]
          rcases hL q hq with ⟨v, h1, h2, n, s, h3, h4, h5⟩ | ⟨h2, h3⟩
          · have hv : ∀ i : ℕ, v.map (env.set 'b' i) = v.map env := by
              intro i
              refine List.map_congr_left fun c hc => ?_
              unfold Env.set
              rw [if_neg]
              rintro rfl
              exact h2 hc
            have hu : ('b', n) ∈ uses := by
              rw [huses]
              refine List.mem_flatMap.2 ⟨q, hq, ?_⟩
              rw [h1, h3]
              simp
            have hnM : n = 1 ∨ letterSize uses 'b' = n := by
              by_cases hn : n = 1
              · exact Or.inl hn
              · exact Or.inr (letterSize_of uses c3 _ hu hn)
            have hset : ∀ i : ℕ, env.set 'b' i 'b' = i := by intro i; simp [Env.set]
            rw [h1, h3, h4]
            simp only [List.map_cons, hv, hset, Tensor.clampIdx, List.zipWith_cons_cons, if_true]
            rw [h5]
            · rcases hnM with h | h
              · simp [h]
              · rw [h]
                by_cases hn : n = 1 <;> simp [hn]
            · rcases hnM with h | h
              · exact Or.inl h
              · rw [← h]; exact hM
          · rw [h3]
            congr 2
            refine List.map_congr_left fun c hc => ?_
            unfold Env.set
            rw [if_neg, if_neg]
            · rintro rfl; exact h2 hc
            · rintro rfl; exact h2 hc
    · refine ⟨by simp, ?_, ?_, c4, c5⟩
      · intro p hp
        obtain ⟨q, hq, rfl⟩ := List.mem_map.1 hp
        have := c2 (q.1, q.2.1) (List.mem_map.2 ⟨q, hq, rfl⟩)
        simp only [Tensor.ndim] at this ⊢
        rw [this]
        rcases hL q hq with ⟨v, h1, h2, n, s, h3, h4, h5⟩ | ⟨h2, h3⟩
        · rw [h3, h4]; simp
        · rw [h3]
      · intro u hu v hv huv
        by_cases hub : u.1 = 'b'
        · exact Or.inl (hone u hu hub)
        · have hm : ∀ w ∈ uses', w.1 = u.1 → w ∈ uses := by
            intro w hw hwu
            have : w ∈ uses'.filter (fun x => x.1 = u.1) := List.mem_filter.2 ⟨hw, by simp [hwu]⟩
            rw [hfil _ hub] at this
            exact (List.mem_filter.1 this).1
          exact c3 u (hm u hu rfl) v (hm v hv huv.symm) huv
  · cases h

theorem einsum_row1 [CommSemiring K] (b : ℕ) (u o : List Char) (x x' t : Tensor K) (hu : 'b' ∉ u) (hx : Row b x x')
    (h : einsum ['b' :: u] ('b' :: o) [x] = .ok t) : ∃ t', einsum ['b' :: u] ('b' :: o) [x'] = .ok t' ∧ Row b t t' :=
  einsum_row b [('b' :: u, x, x')] (by intro p hp; rw [List.mem_singleton.1 hp]; exact Or.inl ⟨u, rfl, hu, hx⟩) o t h

theorem einsum_row2 [CommSemiring K] (b : ℕ) (u v o : List Char) (x x' y y' t : Tensor K) (hx : OpRow b u x x') (hy : OpRow b v y y')
    (h : einsum [u, v] ('b' :: o) [x, y] = .ok t) : ∃ t', einsum [u, v] ('b' :: o) [x', y'] = .ok t' ∧ Row b t t' :=
  einsum_row b [(u, x, x'), (v, y, y')] (by
    intro p hp
    simp only [List.mem_cons, List.not_mem_nil, or_false] at hp
    rcases hp with rfl | rfl
    · exact hx
    · exact hy) o t h

theorem opRow (b : ℕ) (u : List Char) (x x' : Tensor K) (hu : 'b' ∉ u) (h : Row b x x') : OpRow b ('b' :: u) x x' := Or.inl ⟨u, rfl, hu, h⟩

theorem Row.select {b : ℕ} {t t' : Tensor K} (h : Row b t t') (d i : ℕ) : Row b (t.select (d + 1) i) (t'.select (d + 1) i) := by
  obtain ⟨n, s, h1, h2, h3⟩ := h
  refine ⟨n, s.eraseIdx d, by simp [Tensor.select, h1], by simp [Tensor.select, h2], fun hn idx => ?_⟩
  simp only [Tensor.select, List.insertIdx_succ_cons]
  exact h3 hn _

theorem Row.sliceAx {b : ℕ} {t t' : Tensor K} (h : Row b t t') (d i j k : ℕ) : Row b (t.sliceAx (d + 1) i j k) (t'.sliceAx (d + 1) i j k) := by
  obtain ⟨n, s, h1, h2, h3⟩ := h
  refine ⟨n, s.set d k, by simp [Tensor.sliceAx, h1], by simp [Tensor.sliceAx, h2], fun hn idx => ?_⟩
  simp only [Tensor.sliceAx, List.set_cons_succ, List.getD_cons_succ]
  exact h3 hn _

theorem Row.unsqueeze {b : ℕ} {t t' : Tensor K} (h : Row b t t') (d : ℕ) : Row b (t.unsqueeze (d + 1)) (t'.unsqueeze (d + 1)) := by
  obtain ⟨n, s, h1, h2, h3⟩ := h
  refine ⟨n, s.insertIdx d 1, by simp [Tensor.unsqueeze, h1], by simp [Tensor.unsqueeze, h2], fun hn idx => ?_⟩
  simp only [Tensor.unsqueeze, List.eraseIdx_cons_succ]
  exact h3 hn _

theorem Row.squeeze {b : ℕ} {t t' : Tensor K} (h : Row b t t') (d : ℕ) : Row b (t.squeeze (d + 1)) (t'.squeeze (d + 1)) := by
  have h0 := h
  obtain ⟨n, s, h1, h2, h3⟩ := h
  unfold Tensor.squeeze
  rw [h1, h2]
  simp only [List.getD_cons_succ]
  split
  · refine ⟨n, s.eraseIdx d, by simp, by simp, fun hn idx => ?_⟩
    simp only [List.insertIdx_succ_cons]
    exact h3 hn _
  · exact h0

theorem Row.bmm [CommSemiring K] {b : ℕ} {x x' y y' t : Tensor K} (hx : Row b x x') (hy : Row b y y') (h : Tensor.bmm x y = .ok t) :
    ∃ t', Tensor.bmm x' y' = .ok t' ∧ Row b t t' := by
  obtain ⟨n, s, h1, h2, h3⟩ := hx
  obtain ⟨m, r, k1, k2, k3⟩ := hy
  unfold Tensor.bmm at h ⊢
  rw [h1, k1] at h
  rw [h2, k2]
  have hs : ∃ a c c' d, s = [a, c] ∧ r = [c', d] := by
    split at h
    · rename_i e1 e2
      cases e1
      cases e2
      exact ⟨_, _, _, _, rfl, rfl⟩
    · cases h
  obtain ⟨a, c, c', d, rfl, rfl⟩ := hs
  simp only at h ⊢
  split at h
  · rename_i hc
    obtain ⟨rfl, rfl⟩ := hc
    cases h
    rw [if_pos ⟨trivial, rfl⟩]
    refine ⟨_, rfl, n, [a, d], rfl, rfl, fun hn idx => ?_⟩
    simp only [List.getD_cons_zero, List.getD_cons_succ]
    refine Finset.sum_congr rfl fun k _ => ?_
    rw [h3 hn, k3 hn]
  · cases h

theorem Row.cat {b : ℕ} {x x' y y' t : Tensor K} (hx : Row b x x') (hy : Row b y y') (d : ℕ) (h : x.cat y (d + 1) = .ok t) :
    ∃ t', x'.cat y' (d + 1) = .ok t' ∧ Row b t t' := by
  obtain ⟨n, s, h1, h2, h3⟩ := hx
  obtain ⟨m, r, k1, k2, k3⟩ := hy
  unfold Tensor.cat at h ⊢
  rw [h1, k1] at h
  rw [h2, k2]
  simp only [List.eraseIdx_cons_succ, List.cons.injEq, List.length_cons, List.getD_cons_succ, List.set_cons_succ] at h ⊢
  split at h
  · rename_i hc
    obtain ⟨⟨rfl, c1⟩, c2, c3⟩ := hc
    cases h
    rw [if_pos ⟨⟨trivial, c1⟩, c2, c3⟩]
    refine ⟨_, rfl, n, _, rfl, rfl, fun hn idx => ?_⟩
    simp only [List.getD_cons_succ, List.set_cons_succ]
    split
    · exact h3 hn _
    · exact k3 hn _
  · cases h

theorem Row.head {b : ℕ} {t t' : Tensor K} (h : Row b t t') : t'.shape.head? = some 1 := by
  obtain ⟨n, s, h1, h2, h3⟩ := h
  rw [h2]; rfl

theorem Row.len {b : ℕ} {t t' : Tensor K} (h : Row b t t') : t'.shape.length = t.shape.length := by
  obtain ⟨n, s, h1, h2, h3⟩ := h
  rw [h1, h2]; rfl

theorem Row.axis {b : ℕ} {t t' : Tensor K} (h : Row b t t') (d : ℕ) : t'.shape.getD (d + 1) 0 = t.shape.getD (d + 1) 0 := by
  obtain ⟨n, s, h1, h2, h3⟩ := h
  rw [h1, h2]; rfl

theorem Row.regionApply [CommSemiring K] {b : ℕ} {mats mats' : Tensor K} (hm : Row b mats mats') (rmul : Bool) (sites : List ℕ) {vec vec' t : Tensor K}
    (hv : Row b vec vec') (h : regionApply mats rmul sites vec = .ok t) : ∃ t', TorchMPS.regionApply mats' rmul sites vec' = .ok t' ∧ Row b t t' := by
  induction sites generalizing vec vec' with
  | nil =>
    simp only [TorchMPS.regionApply] at h ⊢
    cases h
    exact ⟨_, rfl, hv⟩
  | cons i l ih =>
    simp only [TorchMPS.regionApply] at h ⊢
    split at h
    · rename_i hr
      rw [if_pos hr]
      obtain ⟨w, hw, h⟩ := bind_inv h
      obtain ⟨w', e1, e2⟩ := Row.bmm hv (hm.select 0 i) hw
      have e1 : Tensor.bmm vec' (mats'.select 1 i) = .ok w' := e1
      rw [e1]
      exact ih e2 h
    · rename_i hr
      rw [if_neg hr]
      obtain ⟨w, hw, h⟩ := bind_inv h
      obtain ⟨w', e1, e2⟩ := Row.bmm (hm.select 0 i) hv hw
      have e1 : Tensor.bmm (mats'.select 1 i) vec' = .ok w' := e1
      rw [e1]
      exact ih e2 h

theorem Row.regionRound [CommSemiring K] {b : ℕ} {mats mats' : Tensor K} (hm : Row b mats mats') (size : ℕ) {t : Tensor K}
    (h : regionRound mats size = .ok t) : ∃ t', TorchMPS.regionRound mats' size = .ok t' ∧ Row b t t' := by
  unfold TorchMPS.regionRound at h ⊢
  simp only at h ⊢
  obtain ⟨w, hw, h⟩ := bind_inv h
  obtain ⟨w', e1, e2⟩ := einsum_row2 b _ _ _ _ _ _ _ _ (opRow b ['s', 'l', 'u'] _ _ (by decide) (hm.sliceAx 0 0 2 (size / 2)))
    (opRow b ['s', 'u', 'r'] _ _ (by decide) (hm.sliceAx 0 1 2 (size / 2))) hw
  have e1 : einsum [['b', 's', 'l', 'u'], ['b', 's', 'u', 'r']] ['b', 's', 'l', 'r'] [mats'.sliceAx 1 0 2 (size / 2), mats'.sliceAx 1 1 2 (size / 2)] = .ok w' := e1
  rw [e1, hm.axis 0]
  exact Row.cat e2 (hm.sliceAx 0 _ 1 _) 0 h

theorem Row.regionLoop [CommSemiring K] {b : ℕ} (fuel : ℕ) {mats mats' : Tensor K} (hm : Row b mats mats') (size : ℕ) {t : Tensor K}
    (h : regionLoop fuel mats size = .ok t) : ∃ t', TorchMPS.regionLoop fuel mats' size = .ok t' ∧ Row b t t' := by
  induction fuel generalizing mats mats' size with
  | zero =>
    simp only [TorchMPS.regionLoop] at h ⊢
    cases h
    exact ⟨_, rfl, hm⟩
  | succ fuel ih =>
    simp only [TorchMPS.regionLoop] at h ⊢
    split at h
    · rename_i hs
      rw [if_pos hs]
      obtain ⟨w, hw, h⟩ := bind_inv h
      obtain ⟨w', e1, e2⟩ := hm.regionRound size hw
      rw [e1]
      exact ih e2 _ h
    · rename_i hs
      rw [if_neg hs]
      cases h
      exact ⟨_, rfl, hm⟩

/-- the inner products of edge vectors -/
theorem Row.view1 {b : ℕ} {t t' v : Tensor K} (h : Row b t t') (n : ℕ) (ht : t.shape = [n, 1, 1]) (hv : t.view [n] = .ok v) :
    ∃ v', t'.view [1] = .ok v' ∧ Row b v v' := by
  obtain ⟨n', s, h1, h2, h3⟩ := h
  rw [ht] at h1
  cases h1
  unfold Tensor.view at hv ⊢
  rw [ht] at hv
  simp only [List.prod_cons, List.prod_nil, mul_one, if_true] at hv
  cases hv
  rw [h2]
  simp only [List.prod_cons, List.prod_nil, mul_one, if_true]
  refine ⟨_, rfl, n, [], rfl, rfl, fun hn idx => ?_⟩
  simp only [ravel, unravel, List.prod_cons, List.prod_nil, mul_one, Nat.div_one, Nat.mod_one, add_zero]
  exact h3 hn _

theorem Row.add {b : ℕ} [Add K] {x x' y y' : Tensor K} (hx : Row b x x') (hy : Row b y y') (hs : y.shape = x.shape) : Row b (x.add y) (x'.add y') := by
  obtain ⟨n, s, h1, h2, h3⟩ := hx
  obtain ⟨m, r, k1, k2, k3⟩ := hy
  rw [hs, h1] at k1
  cases k1
  refine ⟨n, s, h1, h2, fun hn idx => ?_⟩
  simp only [Tensor.add]
  rw [h3 hn, k3 hn]

theorem Row.addRegionBias [Add K] {b : ℕ} {x x' t : Tensor K} (hx : Row b x x') (bias : Option (Tensor K)) (h : addRegionBias x bias = .ok t) :
    ∃ t', TorchMPS.addRegionBias x' bias = .ok t' ∧ Row b t t' := by
  cases bias with
  | none =>
    simp only [TorchMPS.addRegionBias] at h ⊢
    cases h
    exact ⟨_, rfl, hx⟩
  | some bm =>
    simp only [TorchMPS.addRegionBias] at h ⊢
    obtain ⟨e, he, h⟩ := bind_inv h
    cases h
    unfold Tensor.expand at he ⊢
    split at he
    · rename_i hf
      cases he
      have hx0 := hx
      obtain ⟨n, s, h1, h2, h3⟩ := hx
      have hb0 : (bm.unsqueeze 0).shape = 1 :: bm.shape := by simp [Tensor.unsqueeze]
      rw [hb0, h1] at hf
      obtain ⟨_, hf⟩ := List.forall₂_cons.1 hf
      rw [if_pos]
      · refine ⟨_, rfl, Row.add hx0 ⟨n, s, h1, h2, fun hn idx => ?_⟩ rfl⟩
        simp only [hb0, Tensor.clampIdx, List.zipWith_cons_cons, if_true]
      · rw [hb0, h2]
        exact .cons (Or.inl rfl) hf
    · cases he

theorem Row.inputRegionMats [CommSemiring K] {b : ℕ} {x x' v : Tensor K} (hx : Row b x x') (t : Tensor K) (bias : Option (Tensor K))
    (h : inputRegionMats t bias x = .ok v) : ∃ v', TorchMPS.inputRegionMats t bias x' = .ok v' ∧ Row b v v' := by
  unfold TorchMPS.inputRegionMats at h ⊢
  obtain ⟨_, h1, h⟩ := bind_inv h
  obtain ⟨_, h2, h⟩ := bind_inv h
  obtain ⟨_, h3, h⟩ := bind_inv h
  obtain ⟨w, hw, h⟩ := bind_inv h
  rw [assert_ok_iff] at h1 h2 h3
  rw [assert_true _ (show x'.ndim = 3 by unfold Tensor.ndim at h1 ⊢; rw [hx.len, h1]), bind_ok_except, assert_true _ (show _ = _ by rw [hx.axis 0]; exact h2), bind_ok_except,
    assert_true _ (show _ = _ by rw [hx.axis 1]; exact h3), bind_ok_except]
  obtain ⟨w', e1, e2⟩ := einsum_row2 b ['s', 'l', 'r', 'i'] _ _ t t _ _ _ (Or.inr ⟨by decide, rfl⟩) (opRow b ['s', 'i'] _ _ (by decide) hx) hw
  rw [e1]
  exact e2.addRegionBias bias h

theorem Row.pickInput {b : ℕ} {x x' : Tensor K} (hx : Row b x x') (i l : ℕ) : Row b (pickInput x i l) (TorchMPS.pickInput x' i l) := by
  unfold TorchMPS.pickInput
  split
  · exact hx.select 0 i
  · exact hx.sliceAx 0 _ _ _

end Threads
end TorchMPS
