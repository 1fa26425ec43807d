import Verif.Lemmas.MulStrings
/-
`Contractable.__mul__` contracts exactly the common bond.
-/
namespace TorchMPS
open Spec
variable {K : Type}

namespace CM
theorem bind_ok {α β : Type} {x : CM α} {f : α → CM β} {g g' : Option ℕ} {a : α} (h : x g = (.ok a, g')) :
    (x >>= f) g = f a g' := by
  show CM.bind x f g = _
  simp only [CM.bind, h]

theorem bind_err {α β : Type} {x : CM α} {f : α → CM β} {g g' : Option ℕ} {e : Err} (h : x g = (.error e, g')) :
    (x >>= f) g = (.error e, g') := by
  show CM.bind x f g = _
  simp only [CM.bind, h]

@[simp] theorem pure_apply {α : Type} (a : α) (g : Option ℕ) : (Pure.pure a : CM α) g = (.ok a, g) := rfl
@[simp] theorem lift_apply {α : Type} (x : Except Err α) (g : Option ℕ) : CM.lift x g = (x, g) := rfl
@[simp] theorem throw_apply {α : Type} (e : Err) (g : Option ℕ) : (CM.throw e : CM α) g = (.error e, g) := rfl
end CM

/-! ### reading by letters -/

theorem ofOut_eq_getD (s : List Char) (idx : List ℕ) (c : Char) (hc : c ∈ s) (hl : idx.length = s.length) :
    Env.ofOut s idx c = idx.getD (s.idxOf c) 0 := by
  induction s generalizing idx with
  | nil => simp at hc
  | cons d s ih =>
    obtain _ | ⟨i, idx⟩ := idx
    · simp at hl
    · simp only [Env.ofOut, Env.set]
      by_cases h : c = d
      · subst h; simp
      · rw [if_neg h, ih idx ((List.mem_cons.1 hc).resolve_left h) (by simpa using hl),
          List.idxOf_cons_ne _ (Ne.symm h)]
        simp

theorem map_axis (c : Contractable K) (hl : c.tensor.shape.length = c.bondStr.length) (hnd : c.bondStr.Nodup) :
    c.bondStr.map (axis c) = c.tensor.shape := by
  conv_rhs => rw [← Env.map_ofOut c.bondStr hnd c.tensor.shape hl]
  refine List.map_congr_left ?_
  intro d hd
  rw [ofOut_eq_getD _ _ _ hd hl]
  rfl

theorem axis_of_map (c : Contractable K) (sz : Char → ℕ) (h : c.tensor.shape = c.bondStr.map sz) (d : Char)
    (hd : d ∈ c.bondStr) : axis c d = sz d := by
  unfold axis
  rw [h, List.getD_eq_getElem?_getD, List.getElem?_map]
  have hi := List.idxOf_lt_length_iff.2 hd
  rw [List.getElem?_eq_getElem hi, List.getElem_idxOf]
  rfl

theorem place_map (s : List Char) (e : Char → ℕ) :
    place s (e 'b') (e 'l') (e 'r') ((others s).map e) = s.map e := by
  induction s with
  | nil => rfl
  | cons c s ih =>
    simp only [place, List.map_cons]
    by_cases h1 : c = 'b'
    · subst h1
      rw [if_pos rfl]
      congr 1
    · rw [if_neg h1]
      by_cases h2 : c = 'l'
      · subst h2
        rw [if_pos rfl]
        congr 1
      · rw [if_neg h2]
        by_cases h3 : c = 'r'
        · subst h3
          rw [if_pos rfl]
          congr 1
        · rw [if_neg h3]
          have : others (c :: s) = c :: others s := by
            unfold others
            rw [List.filter_cons, if_pos (by simp [h1, h2, h3])]
          rw [this]
          simp only [List.map_cons, List.headD_cons, List.tail_cons, ih]

theorem place_congr (s : List Char) (b l r b' l' r' : ℕ) (x : List ℕ) (hb : 'b' ∈ s → b = b')
    (hl : 'l' ∈ s → l = l') (hr : 'r' ∈ s → r = r') : place s b l r x = place s b' l' r' x := by
  induction s generalizing x with
  | nil => rfl
  | cons c s ih =>
    have ih := fun x => ih x (fun h => hb (by simp [h])) (fun h => hl (by simp [h])) (fun h => hr (by simp [h]))
    simp only [place]
    by_cases h1 : c = 'b'
    · rw [if_pos h1, if_pos h1, ih, hb (by simp [h1])]
    · rw [if_neg h1, if_neg h1]
      by_cases h2 : c = 'l'
      · rw [if_pos h2, if_pos h2, ih, hl (by simp [h2])]
      · rw [if_neg h2, if_neg h2]
        by_cases h3 : c = 'r'
        · rw [if_pos h3, if_pos h3, ih, hr (by simp [h3])]
        · rw [if_neg h3, if_neg h3, ih]

theorem place_map' (s : List Char) (e : Char → ℕ) (b l r : ℕ) (x : List ℕ) (hb : e 'b' = b) (hl : e 'l' = l)
    (hr : 'r' ∈ s → e 'r' = r) (hx : (others s).map e = x) : place s b l r x = s.map e := by
  rw [← place_map s e, hx]
  exact place_congr _ _ _ _ _ _ _ _ (fun _ => hb.symm) (fun _ => hl.symm) (fun h => (hr h).symm)

/-- constructing a contractable from a batched tensor with a complete bond string -/
theorem mkContractable_batched (cls : Cls) (t : Tensor K) (s : List Char) (hb : s.head? = some 'b')
    (hl : t.shape.length = s.length) (g : Option ℕ) :
    mkContractable cls t s g = (.ok ⟨cls, t, s⟩, some (t.shape.getD 0 0)) := by
  have hs : s ≠ [] := by rintro rfl; simp at hb
  have hsh : t.shape ≠ [] := by
    intro h
    rw [h] at hl
    exact hs (List.length_eq_zero_iff.1 hl.symm)
  have hbm : 'b' ∈ s := by
    obtain _ | ⟨c, s⟩ := s
    · simp at hb
    · simp at hb; simp [hb]
  unfold mkContractable
  rw [if_neg (by simp [hs, hsh]), if_neg, if_neg]
  · rfl
  · unfold Tensor.ndim; simp [hb, hl]
  · unfold needsExpand Tensor.ndim
    rintro (⟨h, _⟩ | ⟨_, h⟩)
    · exact h hbm
    · omega

theorem wrapOut_ok (t : Tensor K) (out : List Char) (hb : out.head? = some 'b') (hl : t.shape.length = out.length)
    (g : Option ℕ) : wrapOut t out g = (.ok ⟨classFor out, t, out⟩, some (t.shape.getD 0 0)) := by
  unfold wrapOut classFor
  by_cases h1 : out = ['b', 'r']
  · subst h1
    simp only [if_true, true_or, mkEdgeVec]
    rw [if_neg (by unfold Tensor.ndim; rw [hl]; simp)]
    exact mkContractable_batched _ _ _ rfl hl g
  · by_cases h2 : out = ['b', 'l']
    · subst h2
      simp only [if_neg h1, if_true, or_true, mkEdgeVec]
      rw [if_neg (by unfold Tensor.ndim; rw [hl]; simp)]
      exact mkContractable_batched _ _ _ rfl hl g
    · by_cases h3 : out = ['b', 'l', 'r']
      · subst h3
        simp only [if_neg h1, if_neg h2, if_true, mkSingleMat]
        rw [if_neg (by unfold Tensor.ndim; rw [hl]; simp), if_neg (by simp)]
        exact mkContractable_batched _ _ _ rfl hl g
      · by_cases h4 : out = ['b', 'o', 'l', 'r']
        · subst h4
          simp only [if_neg h1, if_neg h2, if_neg h3, if_true, mkOutputCore]
          rw [if_neg (by unfold Tensor.ndim; rw [hl]; simp), if_neg (by simp)]
          exact mkContractable_batched _ _ _ rfl hl g
        · rw [if_neg h1, if_neg h2, if_neg h3, if_neg h4, if_neg (by simp [h1, h2]), if_neg h3, if_neg h4]
          exact mkContractable_batched _ _ _ hb hl g

theorem checkBonds_ok (s : List Char) (side : Char) (hb : s.head? = some 'b') (hnd : s.Nodup)
    (hlow : ∀ d ∈ s, d ∈ lowercases) (hs : side ∈ s) : checkBonds s side = .ok () := by
  unfold checkBonds
  rw [assert_true _ hb, assert_true _ (by rw [List.dedup_eq_self.2 hnd]), assert_true _ hlow, assert_true _ hs]
  rfl

/-- What the product of `x` and `y` looks like: bond string `out`, tensor `t`. -/
structure IsProduct [CommSemiring K] (x y : Contractable K) (t : Tensor K) (out : List Char) (ρ : Char → Char) : Prop where
  out_eq : out = 'b' :: (others x.bondStr ++ (others y.bondStr).map ρ ++
    (if 'l' ∈ x.bondStr then ['l'] else []) ++ (if 'r' ∈ y.bondStr then ['r'] else []))
  keep : ∀ c ∈ others y.bondStr, c ∉ x.bondStr → ρ c = c
  others_eq : others out = others x.bondStr ++ (others y.bondStr).map ρ
  nodup : out.Nodup
  lower : ∀ c ∈ out, c ∈ lowercases
  order : t.shape.length = out.length
  batch : t.shape.getD 0 0 = axis x 'b'
  left : 'l' ∈ x.bondStr → t.shape.getD (out.idxOf 'l') 0 = axis x 'l'
  right : 'r' ∈ y.bondStr → t.shape.getD (out.idxOf 'r') 0 = axis y 'r'
  sizes : (others out).map (fun d => t.shape.getD (out.idxOf d) 0) = otherSizes x ++ otherSizes y
  entries : ∀ b < axis x 'b', ∀ x1, InRange x1 (otherSizes x) → ∀ x2, InRange x2 (otherSizes y) →
    ∀ i, ('l' ∈ x.bondStr → i < axis x 'l') → ∀ j, ('r' ∈ y.bondStr → j < axis y 'r') →
    t.get (place out b i j (x1 ++ x2)) =
      ∑ k ∈ Finset.range (axis x 'r'), entry x b i k x1 * entry y b k j x2

theorem mul_tensor [CommSemiring K] (x y : Contractable K) (hx : Labelled x) (hy : Labelled y)
    (hr : 'r' ∈ x.bondStr) (hl : 'l' ∈ y.bondStr) (hb : axis x 'b' = axis y 'b') (hbond : axis x 'r' = axis y 'l')
    (hlet : EnoughLetters x.bondStr y.bondStr) :
    ∃ t1 t2 out t ρ, mulStrings x.bondStr y.bondStr = .ok (t1, t2, out) ∧
      einsum [t1, t2] out [x.tensor, y.tensor] = .ok t ∧ IsProduct x y t out ρ := by
  have hbx : 'b' ∈ x.bondStr := List.mem_of_mem_head? hx.batchFirst
  have hby : 'b' ∈ y.bondStr := List.mem_of_mem_head? hy.batchFirst
  obtain ⟨t1, t2, out, ρ, σ, hms, H⟩ := mulStrings_spec x.bondStr y.bondStr hx.distinct hy.distinct hbx hr hl hlet
  have hσr : σ ≠ 'r' := by rintro rfl; exact H.sig1 hr
  have hσb : σ ≠ 'b' := by rintro rfl; exact H.sig1 hbx
  have hσl : σ ≠ 'l' := by
    rintro rfl
    exact H.sig2 'l' hl (H.special 'l' hl (by simp))
  -- sizes of the letters
  let pre : Char → Char := fun d => (y.bondStr.find? (fun c => ρ c = d)).getD 'b'
  have hpre : ∀ c ∈ y.bondStr, pre (ρ c) = c := by
    intro c hc
    show ((y.bondStr.find? (fun c' => ρ c' = ρ c)).getD 'b') = c
    cases hf : y.bondStr.find? (fun c' => decide (ρ c' = ρ c)) with
    | none =>
      rw [List.find?_eq_none] at hf
      exact absurd (decide_eq_true rfl) (hf c hc)
    | some d =>
      have h1 := List.find?_some hf
      have h2 := List.mem_of_find?_eq_some hf
      exact H.inj d h2 c hc (by simpa using h1)
  let sz : Char → ℕ := fun d =>
    if d = σ then axis x 'r' else if d ∈ x.bondStr ∧ d ≠ 'r' then axis x d else axis y (pre d)
  have hsz1 : ∀ c ∈ x.bondStr, sz (if c = 'r' then σ else c) = axis x c := by
    intro c hc
    show (if (if c = 'r' then σ else c) = σ then axis x 'r' else _) = _
    by_cases h : c = 'r'
    · rw [if_pos (by rw [if_pos h]), h]
    · have hcσ : c ≠ σ := by rintro rfl; exact H.sig1 hc
      simp only [if_neg h, if_neg hcσ]
      rw [if_pos ⟨hc, h⟩]
  have hsz2 : ∀ c ∈ y.bondStr, sz (if c = 'l' then σ else ρ c) = axis y c := by
    intro c hc
    show (if (if c = 'l' then σ else ρ c) = σ then axis x 'r' else _) = _
    by_cases h : c = 'l'
    · rw [if_pos (by rw [if_pos h]), h, hbond]
    · simp only [if_neg h, if_neg (H.sig2 c hc)]
      by_cases h2 : c = 'b'
      · subst h2
        rw [H.special 'b' hc (by simp), if_pos ⟨hbx, by decide⟩, hb]
      · rw [if_neg, hpre c hc]
        rintro ⟨h3, h4⟩
        by_cases h5 : c = 'r'
        · subst h5; exact h4 (H.special 'r' hc (by simp))
        · exact H.notin c hc h2 h h5 h3
  have hszρ : ∀ c ∈ others y.bondStr, sz (ρ c) = axis y c := by
    intro c hc
    rw [mem_others] at hc
    have := hsz2 c hc.1
    rwa [if_neg hc.2.2.1] at this
  have hszo : ∀ c ∈ others x.bondStr, sz c = axis x c := by
    intro c hc
    rw [mem_others] at hc
    have := hsz1 c hc.1
    rwa [if_neg hc.2.2.2] at this
  have hszb : sz 'b' = axis x 'b' := by
    have := hsz1 'b' hbx
    rwa [if_neg (by decide)] at this
  have hszσ : sz σ = axis x 'r' := if_pos rfl
  have hszl : 'l' ∈ x.bondStr → sz 'l' = axis x 'l' := by
    intro h
    have := hsz1 'l' h
    rwa [if_neg (by decide)] at this
  have hszr : 'r' ∈ y.bondStr → sz 'r' = axis y 'r' := by
    intro h
    have := hsz2 'r' h
    rwa [if_neg (by decide), H.special 'r' h (by simp)] at this
  have hR1 : x.tensor.Reads sz t1 (fun env => x.tensor.get (t1.map env)) := by
    refine ⟨?_, fun _ _ => rfl⟩
    rw [← map_axis x hx.order hx.distinct, H.t1_eq, List.map_map]
    exact List.map_congr_left (fun c hc => (hsz1 c hc).symm)
  have hR2 : y.tensor.Reads sz t2 (fun env => y.tensor.get (t2.map env)) := by
    refine ⟨?_, fun _ _ => rfl⟩
    rw [← map_axis y hy.order hy.distinct, H.t2_eq, List.map_map]
    exact List.map_congr_left (fun c hc => (hsz2 c hc).symm)
  -- the output letters
  have hoy : ∀ c ∈ others y.bondStr, ρ c ∉ x.bondStr ∧ ρ c ≠ 'b' ∧ ρ c ≠ 'l' ∧ ρ c ≠ 'r' := by
    intro c hc
    rw [mem_others] at hc
    exact ⟨H.notin c hc.1 hc.2.1 hc.2.2.1 hc.2.2.2, H.notspecial c hc.1 hc.2.1 hc.2.2.1 hc.2.2.2⟩
  have hmem : ∀ d, d ∈ out ↔ d = 'b' ∨ d ∈ others x.bondStr ∨ (∃ c ∈ others y.bondStr, ρ c = d) ∨
      ('l' ∈ x.bondStr ∧ d = 'l') ∨ ('r' ∈ y.bondStr ∧ d = 'r') := by
    intro d
    rw [H.out_eq]
    simp only [List.mem_cons, List.mem_append, List.mem_map, or_assoc]
    by_cases hlx : 'l' ∈ x.bondStr <;> by_cases hry : 'r' ∈ y.bondStr <;> simp [hlx, hry]
  have hndo : (others x.bondStr ++ (others y.bondStr).map ρ).Nodup := by
    refine List.Nodup.append (hx.distinct.filter _) ?_ ?_
    · refine List.Nodup.map_on ?_ (hy.distinct.filter _)
      intro c hc d hd h
      exact H.inj c (mem_others.1 hc).1 d (mem_others.1 hd).1 h
    · intro d hd hd2
      obtain ⟨c, hc, rfl⟩ := List.mem_map.1 hd2
      exact (hoy c hc).1 (mem_others.1 hd).1
  have hns : ∀ d ∈ others x.bondStr ++ (others y.bondStr).map ρ, d ≠ 'b' ∧ d ≠ 'l' ∧ d ≠ 'r' := by
    intro d hd
    rcases List.mem_append.1 hd with hd | hd
    · exact (mem_others.1 hd).2
    · obtain ⟨c, hc, rfl⟩ := List.mem_map.1 hd
      exact (hoy c hc).2
  have hnd : out.Nodup := by
    rw [H.out_eq, List.append_assoc, List.nodup_cons]
    constructor
    · intro h
      rcases List.mem_append.1 h with h | h
      · exact (hns _ h).1 rfl
      · revert h
        by_cases hlx : 'l' ∈ x.bondStr <;> by_cases hry : 'r' ∈ y.bondStr <;> simp [hlx, hry]
    · refine List.Nodup.append hndo ?_ ?_
      · by_cases hlx : 'l' ∈ x.bondStr <;> by_cases hry : 'r' ∈ y.bondStr <;> simp [hlx, hry]
      · intro d hd hd2
        have := hns d hd
        revert hd2
        by_cases hlx : 'l' ∈ x.bondStr <;> by_cases hry : 'r' ∈ y.bondStr <;> simp [hlx, hry, this]
  have hoo : others out = others x.bondStr ++ (others y.bondStr).map ρ := by
    rw [H.out_eq, List.append_assoc]
    unfold Spec.others
    rw [List.filter_cons, if_neg (by decide), List.filter_append]
    have e1 : List.filter (fun c => decide (c ≠ 'b' ∧ c ≠ 'l' ∧ c ≠ 'r'))
        ((if 'l' ∈ x.bondStr then ['l'] else []) ++ if 'r' ∈ y.bondStr then ['r'] else []) = [] := by
      by_cases hlx : 'l' ∈ x.bondStr <;> by_cases hry : 'r' ∈ y.bondStr <;> simp [hlx, hry]
    rw [e1, List.append_nil, List.filter_eq_self]
    intro d hd
    exact decide_eq_true (hns d hd)
  have hlow : ∀ c ∈ out, c ∈ lowercases := by
    intro d hd
    rw [hmem] at hd
    rcases hd with rfl | hd | ⟨c, hc, rfl⟩ | ⟨_, rfl⟩ | ⟨_, rfl⟩
    · decide
    · exact hx.lower d (mem_others.1 hd).1
    · exact H.lower c (mem_others.1 hc).1 (hy.lower c (mem_others.1 hc).1)
    · decide
    · decide
  have hsub : ∀ c ∈ out, c ∈ t1 ∨ c ∈ t2 := by
    intro d hd
    rw [hmem] at hd
    rcases hd with rfl | hd | ⟨c, hc, rfl⟩ | ⟨h, rfl⟩ | ⟨h, rfl⟩
    · left; rw [H.t1_eq, List.mem_map]; exact ⟨'b', hbx, by simp⟩
    · left; rw [H.t1_eq, List.mem_map]
      exact ⟨d, (mem_others.1 hd).1, by rw [if_neg (mem_others.1 hd).2.2.2]⟩
    · right; rw [H.t2_eq, List.mem_map]
      exact ⟨c, (mem_others.1 hc).1, by rw [if_neg (mem_others.1 hc).2.2.1]⟩
    · left; rw [H.t1_eq, List.mem_map]; exact ⟨'l', h, by simp⟩
    · right; rw [H.t2_eq, List.mem_map]
      exact ⟨'r', h, by rw [if_neg (by decide), H.special 'r' h (by simp)]⟩
  have hσo : σ ∉ out := by
    rw [hmem]
    rintro (h | h | ⟨c, hc, h⟩ | ⟨_, h⟩ | ⟨_, h⟩)
    · exact hσb h
    · exact H.sig1 (mem_others.1 h).1
    · exact H.sig2 c (mem_others.1 hc).1 h
    · exact hσl h
    · exact hσr h
  obtain ⟨t, het, hRt⟩ := einsum2_reads sz t1 t2 out _ _ _ _ hR1 hR2 hnd hsub
  have hinner : innerLetters [t1, t2] out = [σ] := by
    refine innerLetters_singleton σ ?_ hσo ?_
    · simp only [List.flatten_cons, List.flatten_nil, List.append_nil, List.mem_append]
      left; rw [H.t1_eq, List.mem_map]; exact ⟨'r', hr, by simp⟩
    · intro d hd
      simp only [List.flatten_cons, List.flatten_nil, List.append_nil, List.mem_append] at hd
      rw [hmem]
      rcases hd with hd | hd
      · rw [H.t1_eq, List.mem_map] at hd
        obtain ⟨c, hc, rfl⟩ := hd
        by_cases h1 : c = 'r'
        · left; rw [if_pos h1]
        · rw [if_neg h1]
          by_cases h2 : c = 'b'
          · right; left; exact h2
          · by_cases h3 : c = 'l'
            · right; right; right; right; left; exact ⟨h3 ▸ hc, h3⟩
            · right; right; left; exact mem_others.2 ⟨hc, h2, h3, h1⟩
      · rw [H.t2_eq, List.mem_map] at hd
        obtain ⟨c, hc, rfl⟩ := hd
        by_cases h1 : c = 'l'
        · left; rw [if_pos h1]
        · rw [if_neg h1]
          by_cases h2 : c = 'b'
          · right; left; rw [H.special c hc (by tauto)]; exact h2
          · by_cases h3 : c = 'r'
            · right; right; right; right; right
              rw [H.special c hc (by tauto)]; exact ⟨h3 ▸ hc, h3⟩
            · right; right; right; left; exact ⟨c, mem_others.2 ⟨hc, h2, h1, h3⟩, rfl⟩
  refine ⟨t1, t2, out, t, ρ, hms, het, ?_⟩
  have hax : ∀ d ∈ out, t.shape.getD (out.idxOf d) 0 = sz d := by
    intro d hd
    exact axis_of_map ⟨.contractable, t, out⟩ sz hRt.1 d hd
  refine ⟨H.out_eq, fun c hc h => H.keep c (mem_others.1 hc).1 h, hoo, hnd, hlow, by rw [hRt.1, List.length_map],
    ?_, ?_, ?_, ?_, ?_⟩
  · have := hax 'b' ((hmem _).2 (Or.inl rfl))
    rw [← hszb, ← this, H.out_eq]
    simp
  · intro h
    rw [hax 'l' ((hmem _).2 (by tauto)), hszl h]
  · intro h
    rw [hax 'r' ((hmem _).2 (by tauto)), hszr h]
  · have : (others out).map (fun d => t.shape.getD (out.idxOf d) 0) = (others out).map sz := by
      refine List.map_congr_left ?_
      intro d hd
      exact hax d (mem_others.1 hd).1
    rw [this, hoo, List.map_append, List.map_map]
    unfold otherSizes
    congr 1
    · exact List.map_congr_left hszo
    · exact List.map_congr_left hszρ
  · intro b hbB x1 hx1 x2 hx2 i hi j hj
    have hl1 : x1.length = (others x.bondStr).length := by rw [hx1.length_eq]; simp [otherSizes]
    have hl2 : x2.length = (others y.bondStr).length := by rw [hx2.length_eq]; simp [otherSizes]
    let e0 : Env := Env.ofOut (others x.bondStr ++ (others y.bondStr).map ρ) (x1 ++ x2)
    let env : Env := fun d => if d = 'b' then b else if d = 'l' then i else if d = 'r' then j else e0 d
    have henv : ∀ d ∈ others x.bondStr ++ (others y.bondStr).map ρ, env d = e0 d := by
      intro d hd
      have := hns d hd
      simp only [env, if_neg this.1, if_neg this.2.1, if_neg this.2.2]
    have hmap : (others x.bondStr ++ (others y.bondStr).map ρ).map env = x1 ++ x2 := by
      rw [List.map_congr_left henv]
      exact Env.map_ofOut _ hndo _ (by simp [hl1, hl2])
    rw [List.map_append] at hmap
    have hm := List.append_inj hmap (by simp [hl1])
    have hm1 := hm.1
    have hm2 := hm.2
    rw [List.map_map] at hm2
    have hin1 : ∀ c ∈ others x.bondStr, env c < axis x c := by
      rw [← inRange_map, hm1]; exact hx1
    have hin2 : ∀ c ∈ others y.bondStr, env (ρ c) < axis y c := by
      have := (inRange_map (axis y) (others y.bondStr) (env ∘ ρ)).1 (by rw [hm2]; exact hx2)
      exact this
    rw [place_map' out env b i j (x1 ++ x2) (by simp [env]) (by simp [env]) (fun _ => by simp [env])
      (by rw [hoo, List.map_append, List.map_map, hm1, hm2])]
    rw [hRt.2 env]
    · rw [hinner]
      simp only [sumOver, hszσ]
      refine Finset.sum_congr rfl ?_
      intro k _
      unfold entry
      have hset : ∀ d, d ≠ σ → (env.set σ k) d = env d := fun d hd => by simp [Env.set, hd]
      have hsetσ : (env.set σ k) σ = k := by simp [Env.set]
      congr 2
      · rw [H.t1_eq, List.map_map]
        refine (place_map' x.bondStr _ b i k x1 ?_ ?_ ?_ ?_).symm
        · simp only [Function.comp]
          rw [if_neg (by decide), hset _ hσb.symm]; simp [env]
        · simp only [Function.comp]
          rw [if_neg (by decide), hset _ hσl.symm]; simp [env]
        · intro _; simp only [Function.comp, if_true, hsetσ]
        · rw [← hm1]
          refine List.map_congr_left ?_
          intro c hc
          have hc' := mem_others.1 hc
          simp only [Function.comp]
          rw [if_neg hc'.2.2.2, hset]
          rintro rfl; exact H.sig1 hc'.1
      · rw [H.t2_eq, List.map_map]
        refine (place_map' y.bondStr _ b k j x2 ?_ ?_ ?_ ?_).symm
        · simp only [Function.comp]
          rw [if_neg (by decide), H.special 'b' hby (by simp), hset _ hσb.symm]; simp [env]
        · simp only [Function.comp, if_true, hsetσ]
        · intro hry
          simp only [Function.comp]
          rw [if_neg (by decide), H.special 'r' hry (by simp), hset _ hσr.symm]; simp [env]
        · rw [← hm2]
          refine List.map_congr_left ?_
          intro c hc
          have hc' := mem_others.1 hc
          simp only [Function.comp]
          rw [if_neg hc'.2.2.1, hset _ (H.sig2 c hc'.1)]
    · intro d hd
      rw [hmem] at hd
      rcases hd with rfl | hd | ⟨c, hc, rfl⟩ | ⟨h, rfl⟩ | ⟨h, rfl⟩
      · rw [hszb]; simpa [env] using hbB
      · rw [hszo d hd]; exact hin1 d hd
      · rw [hszρ c hc]; exact hin2 c hc
      · rw [hszl h]; simpa [env] using hi h
      · rw [hszr h]; simpa [env] using hj h

end TorchMPS
