import Verif.Lemmas.Modules
/-
LinearRegion.forward for any list of fitting modules.
-/
namespace TorchMPS
open Spec
variable {K : Type}

/-- the contractables made from a list of modules, the first pixel being number `i` -/
inductive MadeAll (D F O B : ℕ) [Semiring K] (x : Tensor K) : ℕ → List (Module K) → List (Contractable K) → Prop where
  | nil (i : ℕ) : MadeAll D F O B x i [] []
  | cons {i : ℕ} {m : Module K} {ms : List (Module K)} {c : Contractable K} {cs : List (Contractable K)}
      (h : Made D F O B x i m c) (hs : MadeAll D F O B x (i + m.len) ms cs) : MadeAll D F O B x i (m :: ms) (c :: cs)

theorem runModules_ok [CommSemiring K] (D F O B N : ℕ) (x : Tensor K) (hx : x.shape = [B, N, F]) (ms : List (Module K))
    (hf : ∀ m ∈ ms, Fits D F O m) (hs : ∀ m ∈ ms, ¬ ShortRegion m) (i : ℕ) (g : Option ℕ)
    (hg : g = some B ∨ ∀ m ∈ ms.head?, ¬ IsOutputSite m) :
    ∃ cs g', runModules x i ms g = (.ok cs, g') ∧ (ms ≠ [] → g' = some B) ∧ MadeAll D F O B x i ms cs := by
  induction ms generalizing i g with
  | nil => exact ⟨[], g, rfl, by simp, .nil i⟩
  | cons m ms ih =>
    obtain ⟨c, c1, c2⟩ := module_forward D F O B N i x hx m (hf m (by simp)) (hs m (by simp)) g (by
      intro h
      rcases hg with hg | hg
      · exact hg
      · exact absurd h (hg m (by simp)))
    obtain ⟨cs, g', d1, d2, d3⟩ := ih (fun a ha => hf a (by simp [ha])) (fun a ha => hs a (by simp [ha])) (i + m.len) (some B) (Or.inl rfl)
    refine ⟨c :: cs, g', ?_, ?_, .cons c2 d3⟩
    · simp only [runModules]
      rw [CM.bind_ok c1, CM.bind_ok d1]
      rfl
    · intro _
      by_cases hm : ms = []
      · subst hm
        cases d3
        simp only [runModules] at d1
        have : (some B : Option ℕ) = g' := (congrArg Prod.snd d1)
        exact this.symm
      · exact d2 hm

theorem MadeAll.pieces [Semiring K] {D F O B : ℕ} {x : Tensor K} {i : ℕ} {ms : List (Module K)} {cs : List (Contractable K)}
    (h : MadeAll D F O B x i ms cs) : ∀ c ∈ cs, Piece B c ∧ axis c 'l' = D ∧ axis c 'r' = D ∧ 'l' ∈ c.bondStr ∧ 'r' ∈ c.bondStr := by
  induction h with
  | nil => simp
  | cons h _ ih =>
    intro c hc
    rcases List.mem_cons.1 hc with rfl | hc
    · exact ⟨h.piece, h.left, h.right, h.hasL, h.hasR⟩
    · exact ih c hc

theorem joined_of_const (D : ℕ) (cs : List (Contractable K)) (h : ∀ c ∈ cs, axis c 'l' = D ∧ axis c 'r' = D) : Joined cs := by
  induction cs with
  | nil => trivial
  | cons a cs ih =>
    cases cs with
    | nil => trivial
    | cons b cs =>
      refine ⟨?_, ih (fun c hc => h c (by simp [hc]))⟩
      rw [(h a (by simp)).2, (h b (by simp)).1]

theorem MadeAll.append_inv [Semiring K] {D F O B : ℕ} {x : Tensor K} (as bs : List (Module K)) {i : ℕ} {cs : List (Contractable K)}
    (h : MadeAll D F O B x i (as ++ bs) cs) : ∃ us vs j, cs = us ++ vs ∧ MadeAll D F O B x i as us ∧ MadeAll D F O B x j bs vs := by
  induction as generalizing i cs with
  | nil => exact ⟨[], cs, i, rfl, .nil i, h⟩
  | cons a as ih =>
    cases h with
    | cons h1 h2 =>
      obtain ⟨us, vs, j, e, h3, h4⟩ := ih h2
      exact ⟨_ :: us, vs, j, by rw [e]; rfl, .cons h1 h3, h4⟩

theorem MadeAll.mids [Semiring K] {D F O B : ℕ} {x : Tensor K} {i : ℕ} {ms : List (Module K)} {cs : List (Contractable K)}
    (h : MadeAll D F O B x i ms cs) (hm : ∀ m ∈ ms, ¬ HasOutput m) : ∀ c ∈ cs, IsMid c := by
  induction h with
  | nil => simp
  | cons h _ ih =>
    intro c hc
    rcases List.mem_cons.1 hc with rfl | hc
    · exact h.mid (hm _ (by simp))
    · exact ih (fun m hm' => hm m (by simp [hm'])) c hc

theorem MadeAll.oneOutput [Semiring K] {D F O B : ℕ} {x : Tensor K} {i : ℕ} {ms : List (Module K)} {cs : List (Contractable K)}
    (h : MadeAll D F O B x i ms cs) (ho : OneOut ms) : OneOutput O cs := by
  obtain ⟨as, m, bs, rfl, h1, h2, h3⟩ := ho
  obtain ⟨us, vs, j, e, h4, h5⟩ := h.append_inv as (m :: bs)
  cases h5 with
  | cons h6 h7 =>
    exact ⟨us, _, _, e, h4.mids h1, h7.mids h3, (h6.out h2).1, (h6.out h2).2⟩

theorem MadeAll.mats [Semiring K] {D F O B : ℕ} {x : Tensor K} {i : ℕ} {ms : List (Module K)} {cs : List (Contractable K)}
    (h : MadeAll D F O B x i ms cs) (b : ℕ) (hb : b < B) (o : ℕ) (ho : o < O) :
    cs.flatMap (fun c => factors c b o) = chainMats D F x b o i ms := by
  induction h with
  | nil => rfl
  | cons h _ ih =>
    rw [List.flatMap_cons, ih, h.mats b hb o ho]
    rfl

theorem MadeAll.length [Semiring K] {D F O B : ℕ} {x : Tensor K} {i : ℕ} {ms : List (Module K)} {cs : List (Contractable K)}
    (h : MadeAll D F O B x i ms cs) : cs.length = ms.length := by
  induction h with
  | nil => rfl
  | cons _ _ ih => simp [ih]

/-! ### sizes of products -/

theorem coreMat_size [Semiring K] (D F : ℕ) (A : ℕ → ℕ → ℕ → K) (v : ℕ → K) (bias : ℕ → ℕ → K) :
    (affMat D F A v bias).r = D ∧ (affMat D F A v bias).c = D := ⟨rfl, rfl⟩

theorem moduleMats_size [Semiring K] (D F : ℕ) (x : Tensor K) (b o i : ℕ) (m : Module K) :
    ∀ A ∈ moduleMats D F x b o i m, A.r = D ∧ A.c = D := by
  cases m with
  | inputRegion t bias =>
    intro A hA
    obtain ⟨s, _, rfl⟩ := List.mem_map.1 hA
    exact ⟨rfl, rfl⟩
  | mergedInput t =>
    intro A hA
    obtain ⟨s, _, rfl⟩ := List.mem_map.1 hA
    exact ⟨rfl, rfl⟩
  | inputSite t => intro A hA; rw [List.mem_singleton.1 hA]; exact ⟨rfl, rfl⟩
  | outputSite t => intro A hA; rw [List.mem_singleton.1 hA]; exact ⟨rfl, rfl⟩
  | mergedOutput t l => intro A hA; rw [List.mem_singleton.1 hA]; exact ⟨rfl, rfl⟩

theorem chainMats_size [Semiring K] (D F : ℕ) (x : Tensor K) (b o i : ℕ) (ms : List (Module K)) :
    ∀ A ∈ chainMats D F x b o i ms, A.r = D ∧ A.c = D := by
  induction ms generalizing i with
  | nil => simp [chainMats]
  | cons m ms ih =>
    intro A hA
    rw [chainMats] at hA
    rcases List.mem_append.1 hA with h | h
    · exact moduleMats_size D F x b o i m A h
    · exact ih _ A h

theorem prodL_size [Semiring K] (D : ℕ) (ms : List (Mat K)) (h : ∀ A ∈ ms, A.r = D ∧ A.c = D) (M : Mat K) (hM : prodL ms = some M) :
    M.r = D ∧ M.c = D := by
  cases ms with
  | nil => simp [prodL] at hM
  | cons a l =>
    simp only [prodL, Option.some.injEq] at hM
    subst hM
    have ha := h a (by simp)
    have hl : ∀ A ∈ l, A.r = D ∧ A.c = D := fun A hA => h A (by simp [hA])
    clear h
    unfold matProd
    induction l generalizing a with
    | nil => exact ha
    | cons b l ih =>
      rw [List.foldl_cons]
      exact ih (a.mul b) ⟨ha.1, (hl b (by simp)).2⟩ (fun A hA => hl A (by simp [hA]))

/-- an edge vector made from an unbatched tensor -/
theorem mkEdgeVec_expand (D : ℕ) (left : Bool) (t : Tensor K) (ht : t.shape = [D]) (B : ℕ) :
    mkEdgeVec t left (some B) =
      (.ok ⟨.edgeVec, ⟨[B, D], fun idx => t.get (idx.drop 1)⟩, ['b', if left then 'r' else 'l']⟩, some B) := by
  unfold mkEdgeVec
  rw [if_neg (by simp [Tensor.ndim, ht]), mkContractable_expand _ _ _ (by simp [ht]) (by simp) (Or.inr ⟨rfl, by simp [Tensor.ndim, ht]⟩)]
  simp [ht]

/-- The (0,0) entry of a product, from the product with the two unit vectors. -/
theorem unit_sandwich [Semiring K] (D : ℕ) (hD : 1 ≤ D) (M : Mat K) (hr : M.r = D) (hc : M.c = D) :
    (((Mat.of 1 D (fun _ j => if j = 0 then (1 : K) else 0)).mul M).mul (Mat.of D 1 (fun i _ => if i = 0 then (1 : K) else 0))).e 0 0 = M.e 0 0 := by
  unfold Mat.mul Mat.of
  simp only [hc]
  rw [Finset.sum_eq_single 0]
  · rw [Finset.sum_eq_single 0]
    · have h0 : 0 < D := hD
      simp [h0]
    · intro k _ hk
      simp [hk]
    · intro h; exfalso; apply h; simp; omega
  · intro k _ hk
    simp [hk]
  · intro h; exfalso; apply h; simp; omega

theorem closeOpen_ok [CommSemiring K] (D F O B : ℕ) (hD : 1 ≤ D) (x : Tensor K) (ms : List (Module K)) (cs : List (Contractable K))
    (h : MadeAll D F O B x 0 ms cs) (ho : OneOut ms) (par : Bool) :
    ∃ y, closeOpen cs par (some B) = (.ok y, some B) ∧ y.shape = [B, O] ∧ ∀ b < B, ∀ o < O, ∃ M,
      orderedProd (chainMats D F x b o 0 ms) = some M ∧ M.r = D ∧ M.c = D ∧ y.get [b, o] = M.e 0 0 := by
  have hne : cs ≠ [] := by
    intro hc
    obtain ⟨as, m, bs, e, _⟩ := ho
    have := h.length
    rw [hc, e] at this
    simp at this
  have hp := h.pieces
  obtain ⟨first, hfirst⟩ : ∃ a, cs.head? = some a := by
    cases cs with
    | nil => exact absurd rfl hne
    | cons a l => exact ⟨a, rfl⟩
  obtain ⟨last, hlast⟩ : ∃ a, cs.getLast? = some a := ⟨cs.getLast hne, List.getLast?_eq_some_getLast hne⟩
  have hfm : first ∈ cs := List.mem_of_mem_head? hfirst
  have hlm : last ∈ cs := List.mem_of_getLast? hlast
  let v : Tensor K := ⟨[D], fun idx => if idx.getD 0 0 = 0 then 1 else 0⟩
  have hv : endVec D = Except.ok v := by unfold endVec; rw [if_neg (by omega)]
  let e : Contractable K := ⟨.edgeVec, ⟨[B, D], fun idx => v.get (idx.drop 1)⟩, ['b', 'r']⟩
  let r : Contractable K := ⟨.edgeVec, ⟨[B, D], fun idx => v.get (idx.drop 1)⟩, ['b', 'l']⟩
  have he : Piece B e := edge_piece B D true _ rfl
  have hr : Piece B r := edge_piece B D false _ rfl
  have hj : Joined (e :: cs ++ [r]) := by
    have h0 : ∀ (l : List (Contractable K)), (∀ c ∈ l, axis c 'l' = D ∧ axis c 'r' = D) → Joined (l ++ [r]) := by
      intro l hl
      induction l with
      | nil => trivial
      | cons a l ih =>
        cases l with
        | nil => exact ⟨by rw [(hl a (by simp)).2]; simp [axis, r], trivial⟩
        | cons b l => exact ⟨by rw [(hl a (by simp)).2, (hl b (by simp)).1], ih (fun c hc => hl c (by simp [hc]))⟩
    obtain _ | ⟨a, l⟩ := cs
    · exact absurd rfl hne
    · exact ⟨by rw [(hp a (by simp)).2.1]; simp [axis, e], h0 (a :: l) (fun c hc => ⟨(hp c hc).2.1, (hp c hc).2.2.1⟩)⟩
  obtain ⟨c, c1, c2, c3, c4⟩ := C48_edges B O e r cs par ⟨he, rfl, rfl⟩ ⟨hr, rfl, rfl⟩ (fun c hc => (hp c hc).1) (h.oneOutput ho) hj (some B)
  refine ⟨c.tensor, ?_, c3, ?_⟩
  · unfold closeOpen
    rw [hfirst, hlast]
    simp only
    have b1 : bondSize first 'l' = .ok D := by
      unfold bondSize
      rw [if_pos (hp first hfm).2.2.2.1]
      exact congrArg _ (hp first hfm).2.1
    have b2 : bondSize last 'r' = .ok D := by
      unfold bondSize
      rw [if_pos (hp last hlm).2.2.2.2]
      exact congrArg _ (hp last hlm).2.2.1
    rw [b1, b2, CM.bind_ok (CM.lift_apply _ _), CM.bind_ok (CM.lift_apply _ _), hv, CM.bind_ok (CM.lift_apply _ _), CM.bind_ok (CM.lift_apply _ _)]
    rw [CM.bind_ok (mkEdgeVec_expand D true v rfl B), CM.bind_ok (mkEdgeVec_expand D false v rfl B)]
    have c1' := c1
    simp only [e, r] at c1'
    simp only [if_true, Bool.false_eq_true, if_false]
    rw [CM.bind_ok c1']
    rfl
  · intro b hb o ho'
    obtain ⟨M', m1, _, _, m4⟩ := c4 b hb o ho'
    have hmats := h.mats b hb o ho'
    have hcne : chainMats D F x b o 0 ms ≠ [] := by
      intro hc
      rw [hc] at hmats
      obtain ⟨as, oc, bs, e1, _, _, e3, _⟩ := h.oneOutput ho
      rw [e1] at hmats
      simp only [List.flatMap_append, List.flatMap_cons, List.append_eq_nil_iff] at hmats
      rw [factors_single oc (by rw [e3]; decide)] at hmats
      simp at hmats
    obtain ⟨M, hM⟩ : ∃ M, prodL (chainMats D F x b o 0 ms) = some M := by
      cases hq : chainMats D F x b o 0 ms with
      | nil => exact absurd hq hcne
      | cons a l => exact ⟨_, rfl⟩
    obtain ⟨s1, s2⟩ := prodL_size D _ (chainMats_size D F x b o 0 ms) M hM
    refine ⟨M, orderedProd_some hM, s1, s2, ?_⟩
    rw [m4]
    have hfe : factors e b o = [Mat.of 1 D (fun _ j => if j = 0 then (1 : K) else 0)] := by
      rw [factors_single e (by simp [e]), edge_mat_left e rfl]
      simp [axis, e, v]
    have hfr : factors r b o = [Mat.of D 1 (fun i _ => if i = 0 then (1 : K) else 0)] := by
      rw [factors_single r (by simp [r]), edge_mat_right r rfl]
      simp [axis, r, v]
    rw [orderedProd_eq, List.flatMap_append, List.flatMap_cons, hmats, hfe] at m1
    simp only [List.flatMap_cons, List.flatMap_nil, List.append_nil] at m1
    rw [hfr, prodL_append _ _ (by simp) (by simp), prodL_append _ _ (by simp) hcne, hM] at m1
    simp only [prodL, matProd, List.foldl_nil, Option.bind_some, Option.map_some, Option.some.injEq] at m1
    rw [← m1]
    exact unit_sandwich D hD M s1 s2

theorem closeRing_ok [CommSemiring K] (D F O B : ℕ) (x : Tensor K) (ms : List (Module K)) (cs : List (Contractable K))
    (h : MadeAll D F O B x 0 ms cs) (ho : OneOut ms) (g : Option ℕ) :
    ∃ y g', closeRing cs g = (.ok y, g') ∧ y.shape = [B, O] ∧ ∀ b < B, ∀ o < O, ∃ M,
      orderedProd (chainMats D F x b o 0 ms) = some M ∧ M.r = D ∧ M.c = D ∧ y.get [b, o] = ∑ i ∈ Finset.range D, M.e i i := by
  have hne : cs ≠ [] := by
    intro hc
    obtain ⟨as, m, bs, e, _⟩ := ho
    have := h.length
    rw [hc, e] at this
    simp at this
  have hp := h.pieces
  obtain ⟨c, g', c1, c2, c3, c4, c5, c6, c7⟩ := C48_ring B O cs (fun c hc => (hp c hc).1) (h.oneOutput ho)
    (joined_of_const D cs (fun c hc => ⟨(hp c hc).2.1, (hp c hc).2.2.1⟩)) g
  have hl : axis c 'l' = D := by
    obtain _ | ⟨a, l⟩ := cs
    · exact absurd rfl hne
    · rw [c4 a (by simp), (hp a (by simp)).2.1]
  have hr : axis c 'r' = D := by
    have hq := List.getLast?_eq_some_getLast hne
    rw [c5 _ hq, (hp _ (List.getLast_mem hne)).2.2.1]
  rw [hl, hr] at c6
  obtain ⟨y, h1, h2, h3⟩ := einsum_ok (K := K) (fun c => if c = 'b' then B else if c = 'o' then O else D)
    [['b', 'o', 'l', 'l']] ['b', 'o'] [c.tensor] rfl (by simp [c6]) (by decide) (by decide)
  refine ⟨y, g', ?_, by rw [h2]; rfl, ?_⟩
  · unfold closeRing
    rw [CM.bind_ok c1]
    simp only
    rw [assert_true _ (by rw [c3]; decide), CM.bind_ok (CM.lift_apply _ _)]
    have t1 : traceIn c.bondStr = ['b', 'o', 'l', 'l'] := by rw [c3]; decide
    have t2 : traceOut c.bondStr = ['b', 'o'] := by rw [c3]; decide
    rw [t1, t2, h1]
    rfl
  · intro b hb o ho'
    obtain ⟨M, m1, m2, m3, m4⟩ := c7 b hb o ho'
    rw [h.mats b hb o ho'] at m1
    rw [hl] at m2
    rw [hr] at m3
    refine ⟨M, m1, m2, m3, ?_⟩
    rw [h3 _ (by simp [hb, ho'])]
    have : ([['b', 'o', 'l', 'l']].flatten.dedup).filter (fun c => c ∉ ['b', 'o']) = ['l'] := by decide
    rw [this]
    simp only [sumOver]
    refine Finset.sum_congr (by simp) ?_
    intro i hi
    have hi : i < D := by simpa using hi
    simp [Env.ofOut, Env.set]
    rw [m4 i (by rw [hl]; exact hi) i (by rw [hr]; exact hi)]

/-- LinearRegion.forward, open boundaries -/
theorem linear_open [CommSemiring K] (D F O B : ℕ) (hD : 1 ≤ D) (ms : List (Module K)) (x : Tensor K) (hx : x.shape = [B, modulesLen ms, F])
    (hf : ∀ m ∈ ms, Fits D F O m) (hs : ∀ m ∈ ms, ¬ ShortRegion m) (ho : OneOut ms) (par : Bool) (g : Option ℕ)
    (hg : g = some B ∨ ∀ m ∈ ms.head?, ¬ IsOutputSite m) :
    ∃ y, linearForward ms false par x g = (.ok y, some B) ∧ y.shape = [B, O] ∧ ∀ b < B, ∀ o < O, ∃ M,
      orderedProd (chainMats D F x b o 0 ms) = some M ∧ M.r = D ∧ M.c = D ∧ y.get [b, o] = M.e 0 0 := by
  obtain ⟨cs, g', c1, c2, c3⟩ := runModules_ok D F O B (modulesLen ms) x hx ms hf hs 0 g hg
  have hne : ms ≠ [] := by rintro rfl; obtain ⟨as, m, bs, e, _⟩ := ho; simp at e
  rw [c2 hne] at c1
  obtain ⟨y, y1, y2, y3⟩ := closeOpen_ok D F O B hD x ms cs c3 ho par
  refine ⟨y, ?_, y2, y3⟩
  unfold linearForward
  rw [assert_true _ (by simp [Tensor.ndim, hx]), assert_true _ (by simp [hx]), CM.bind_ok (CM.lift_apply _ _), CM.bind_ok (CM.lift_apply _ _),
    CM.bind_ok c1]
  exact y1

/-- LinearRegion.forward, periodic boundaries -/
theorem linear_ring [CommSemiring K] (D F O B : ℕ) (ms : List (Module K)) (x : Tensor K) (hx : x.shape = [B, modulesLen ms, F])
    (hf : ∀ m ∈ ms, Fits D F O m) (hs : ∀ m ∈ ms, ¬ ShortRegion m) (ho : OneOut ms) (par : Bool) (g : Option ℕ)
    (hg : g = some B ∨ ∀ m ∈ ms.head?, ¬ IsOutputSite m) :
    ∃ y g', linearForward ms true par x g = (.ok y, g') ∧ y.shape = [B, O] ∧ ∀ b < B, ∀ o < O, ∃ M,
      orderedProd (chainMats D F x b o 0 ms) = some M ∧ M.r = D ∧ M.c = D ∧ y.get [b, o] = ∑ i ∈ Finset.range D, M.e i i := by
  obtain ⟨cs, g', c1, c2, c3⟩ := runModules_ok D F O B (modulesLen ms) x hx ms hf hs 0 g hg
  obtain ⟨y, g2, y1, y2, y3⟩ := closeRing_ok D F O B x ms cs c3 ho g'
  refine ⟨y, g2, ?_, y2, y3⟩
  unfold linearForward
  rw [assert_true _ (by simp [Tensor.ndim, hx]), assert_true _ (by simp [hx]), CM.bind_ok (CM.lift_apply _ _), CM.bind_ok (CM.lift_apply _ _),
    CM.bind_ok c1]
  exact y1

end TorchMPS
