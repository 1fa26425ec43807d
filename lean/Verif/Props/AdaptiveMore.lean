import Verif.Lemmas.SvNorm
import Verif.Props.AdaptiveFlip
/-
C62, C64: consecutive flips, flips of models whose cores have not been changed; concrete cases for C59-C65.
-/
namespace TorchMPS
open Spec

/-! ### C62: two consecutive flips -/

/-- Without a flip nothing is recorded. -/
theorem quiet_history (svd : Mat ℝ → SVD) (hsvd : ∀ A, IsSVD A (svd A)) (pop : List Char → Char) (hpop : ∀ x xs, pop (x :: xs) ∈ x :: xs)
    (k : ℕ) (m m' : AdMps) (g g' : Option ℕ) (Bs : List ℕ) (fs : List Bool) (h : IsAdMps k m) (hD : 1 ≤ m.mps.bondDim)
    (hh : History svd pop m g Bs fs m' g') (hq : true ∉ fs) :
    m'.region.offset = m.region.offset ∧ m'.bondList = m.bondList ∧ m'.svList = m.svList := by
  induction hh with
  | nil m g => exact ⟨rfl, rfl, rfl⟩
  | @call m g x e y m' g' Bs fs m'' g'' he hf hh ih =>
    rw [List.mem_cons, not_or] at hq
    rcases call_cases svd hsvd pop hpop k m m' h hD x e y g g' he hf with ⟨_, rfl⟩ | ⟨_, _, l, bs, a, rfl, h2, _, _⟩
    · exact ih (count_wf k m h _) hD hq.2
    · have hoff := h.offset
      refine absurd ?_ hq.1
      show true = decide (1 - m.region.offset ≠ m.region.offset)
      symm
      rw [decide_eq_true_eq]
      omega
  | @failed m g x e er m' g' Bs fs m'' g'' he hc hf hh ih =>
    rw [List.mem_cons, not_or] at hq
    have hm' := ad_failed svd pop m m' x e er g g' he hc hf
    subst hm'
    exact ih (count_wf k m h _) hD hq.2
  | @rejected m g x er m' g' Bs fs m'' g'' he hf hh ih =>
    have hm' := ad_rejected svd pop m m' x er g g' he hf
    subst hm'
    exact ih h hD hq
  | @train m g m' Bs fs m'' g'' ht hh ih =>
    have hw := train_wf k m m' h ht
    obtain ⟨l0, l1, rfl, t0, t1⟩ := ht
    exact ih hw hD hq
  | other hh ih => exact ih h hD hq
  | @register m g φ mps' Bs fs m'' g'' hr hh ih =>
    obtain ⟨f, rfl⟩ := register_same m.mps φ mps' hr
    exact ih ⟨h.size, h.label, h.offset, h.stray, h.list0, h.list1, h.bonds, h.svs⟩ hD hq

/-- C62: after a call that flips, any history without a flip, and a second call that flips, every internal bond holds the number kept and
the singular values found by one of these two flips: the first one for the bonds `p+1, p+3, ...`, the second one for the others. -/
theorem C62_two_flips (svd : Mat ℝ → SVD) (hsvd : ∀ A, IsSVD A (svd A)) (pop : List Char → Char) (hpop : ∀ x xs, pop (x :: xs) ∈ x :: xs)
    (k : ℕ) (m m1 m2 m3 : AdMps) (h : IsAdMps k m) (hD : 1 ≤ m.mps.bondDim)
    (x e y : Tensor ℝ) (g g1 : Option ℕ) (he : Embedded m.mps x e) (hf : m.forward svd pop x g = (.ok y, m1, g1))
    (hdue : m.region.threshold ≤ m.region.counter)
    (g2 : Option ℕ) (Bs : List ℕ) (fs : List Bool) (hh : History svd pop m1 g1 Bs fs m2 g2) (hq : true ∉ fs)
    (x' e' y' : Tensor ℝ) (g3 : Option ℕ) (he' : Embedded m2.mps x' e') (hf' : m2.forward svd pop x' g2 = (.ok y', m3, g3))
    (hdue' : m2.region.threshold ≤ m2.region.counter) (j : ℕ) (hj : 1 ≤ j ∧ j ≤ m.mps.inputDim) (d : Tensor ℝ) :
    ∃ sv, (((if j % 2 ≠ m.region.offset then m else m2).region.listAt (if j % 2 ≠ m.region.offset then m else m2).region.offset).flatMap
        (bondPlan svd)).getD (j - 1) none = some sv ∧
      m3.bondList.getD j 0 = kept m.mps.bondDim m.region.cutoff sv ∧ (m3.svList.getD j d).shape = [m.mps.bondDim] ∧
      ∀ i < m.mps.bondDim, (m3.svList.getD j d).get [i] = sv.getD i 0 := by
  have hoff := h.offset
  obtain ⟨w1, w2, w3, w4⟩ : IsAdMps k m1 ∧ m1.mps = m.mps ∧ m1.region.offset = 1 - m.region.offset ∧ m1.region.cutoff = m.region.cutoff := by
    rcases call_cases svd hsvd pop hpop k m m1 h hD x e y g g1 he hf with ⟨hc, rfl⟩ | ⟨_, _, l, bs, a, rfl, h2, _, _⟩
    · omega
    · exact ⟨after_wf k m h _ l bs (merged_shape h2), rfl, rfl, (setList_rest m.region (1 - m.region.offset) l).2⟩
  have hD1 : 1 ≤ m1.mps.bondDim := by rw [w2]; exact hD
  obtain ⟨v1, ⟨f, v2⟩, v3, v4⟩ := C61_structure svd hsvd pop hpop k m1 m2 g1 g2 Bs fs w1 hD1 hh
  obtain ⟨q1, q2, q3⟩ := quiet_history svd hsvd pop hpop k m1 m2 g1 g2 Bs fs w1 hD1 hh hq
  have hD2 : m2.mps.bondDim = m.mps.bondDim := by rw [v2, w2]
  have hn2 : m2.mps.inputDim = m.mps.inputDim := by rw [v2, w2]
  have c1 := (C62_call svd hsvd pop hpop k m m1 h hD x e y g g1 he hf).2 hdue j d
  have c2 := (C62_call svd hsvd pop hpop k m2 m3 v1 (by rw [hD2]; exact hD) x' e' y' g2 g3 he' hf').2 hdue' j d
  rw [hD2, hn2, v3, w4] at c2
  by_cases hp : j % 2 ≠ m.region.offset
  · simp only [if_pos hp]
    rw [if_pos ⟨hj.1, hj.2, hp⟩] at c1
    rw [if_neg (by rw [q1, w3]; omega)] at c2
    obtain ⟨sv, s1, s2, s3, s4, s5, s6⟩ := c1
    rw [c2.1, c2.2, q2, q3]
    exact ⟨sv, s1, s2, s5, s6⟩
  · simp only [if_neg hp]
    rw [if_pos ⟨hj.1, hj.2, by rw [q1, w3]; omega⟩] at c2
    obtain ⟨sv, s1, s2, s3, s4, s5, s6⟩ := c2
    exact ⟨sv, s1, s2, s5, s6⟩

/-! ### C64 for models whose merged cores come from single cores -/

/-- Splitting merged cores that are contractions of single ones drops nothing but singular values below the cutoff: there are no more than
`bond_dim` non-zero ones. -/
theorem lossless_of_cores (svd : Mat ℝ → SVD) (hsvd : ∀ A, IsSVD A (svd A)) (D F O p k n : ℕ) (cutoff : ℝ) (a : Cores ℝ) (ms : List (Module ℝ))
    (h : MergedChain D F O p k n a ms)
    (hs : ∀ u ∈ ms, ∀ sv, some sv ∈ bondPlan svd u → ∀ i < D, sv.getD i 0 = 0 ∨ cutoff ≤ sv.getD i 0) :
    Lossless svd D cutoff ms := by
  intro u hu sv hsv i
  obtain ⟨κ, _, hκ⟩ := forall2_mem h u hu
  by_cases hi : i < D
  · rcases hs u hu sv hsv i hi with h0 | h0
    · exact Or.inr h0
    · exact Or.inl ⟨hi, h0⟩
  · exact Or.inr (merged_rank svd hsvd D F O a κ u hκ.1 hκ.2 sv hsv i (by omega))

/-- C64: a model whose active list holds cores `a` (a new model, or one not trained since the last flip) computes the value of these cores
also in the call that flips, if no singular value of a merged core is non-zero and below the cutoff. -/
theorem C64_untrained (svd : Mat ℝ → SVD) (hsvd : ∀ A, IsSVD A (svd A)) (pop : List Char → Char) (hpop : ∀ x xs, pop (x :: xs) ∈ x :: xs)
    (k : ℕ) (m : AdMps) (h : IsAdMps k m) (hD : 1 ≤ m.mps.bondDim) (a : Cores ℝ) (ha : HoldsCores k a m)
    (hdue : m.region.threshold ≤ m.region.counter) (hstuck : ¬ Stuck m.region.offset k m.mps.inputDim)
    (hcut : 0 < m.region.cutoff)
    (hs : ∀ u ∈ m.region.listAt m.region.offset, ∀ sv, some sv ∈ bondPlan svd u →
      ∀ i < m.mps.bondDim, sv.getD i 0 = 0 ∨ m.region.cutoff ≤ sv.getD i 0)
    (hv : ¬ Vanishing svd m.mps.bondDim m.region.cutoff (m.region.listAt m.region.offset))
    (hz : ∀ u ∈ m.region.listAt m.region.offset, ¬ LoneZero u)
    (x e : Tensor ℝ) (he : Embedded m.mps x e) (g : Option ℕ) (hg : BatchKnown k (e.shape.getD 0 0) g) :
    ∃ y, (m.forward svd pop x g).1 = .ok y ∧ (m.forward svd pop x g).2.1.region.offset = 1 - m.region.offset ∧
      y.shape = [e.shape.getD 0 0, m.mps.outputDim] ∧ ∀ b < e.shape.getD 0 0, ∀ o < m.mps.outputDim,
        y.get [b, o] = chainValue m.mps.bondDim m.mps.featureDim k m.mps.inputDim m.mps.periodic a e b o := by
  obtain ⟨y, y', h1, h2, h3, h4, h5⟩ := C64_lossless svd hsvd pop hpop k m h hD hdue hstuck hcut hv hz
    (lossless_of_cores svd hsvd _ _ _ _ _ _ _ a _ ha hs) x e he g hg
  obtain ⟨y2, w1, w2, w3⟩ := C59_forward svd pop k a { m with region := { m.region with threshold := m.region.counter + 1 } }
    ⟨h.size, h.label, h.offset, h.stray, h.list0, h.list1, h.bonds, h.svs⟩ ha (Nat.lt_succ_self _) (Or.inr hD) x e he g (Or.inl hg)
  rw [h3] at w1
  cases w1
  refine ⟨y, h1, h2, h4.trans w2, ?_⟩
  intro b hb o ho
  rw [h5 [b, o] (by rw [h4.trans w2]; exact .cons hb (.cons ho .nil)), w3 b hb o ho]

/-! ### a concrete model -/

/-- input_dim 4, output_dim 2, bond_dim 1, feature_dim 2, label_site 1 -/
def exAdArgs : MpsArgs := ⟨4, 2, 1, 2, false, true, some 1, .none, 0, false⟩

theorem sv_first (A : Mat ℝ) (d : SVD) (h : IsSVD A d) (hr : 1 ≤ A.r) (hc : 1 ≤ A.c) (hz : ∀ k, 1 ≤ k → d.s.getD k 0 = 0) :
    |A.e 0 0| ≤ d.s.getD 0 0 := by
  have h1 := sv_norm A d h
  have h2 : ∑ k ∈ Finset.range (min A.r A.c), d.s.getD k 0 ^ 2 = d.s.getD 0 0 ^ 2 := by
    refine Finset.sum_eq_single 0 (fun k _ hk => by rw [hz k (by omega)]; ring) (fun hk => absurd (Finset.mem_range.2 (by omega)) hk)
  rw [h2] at h1
  have h3 : A.e 0 0 ^ 2 ≤ ∑ i ∈ Finset.range A.r, ∑ j ∈ Finset.range A.c, A.e i j ^ 2 :=
    (Finset.single_le_sum (f := fun j => A.e 0 j ^ 2) (fun j _ => sq_nonneg _) (Finset.mem_range.2 hc)).trans
      (Finset.single_le_sum (f := fun i => ∑ j ∈ Finset.range A.c, A.e i j ^ 2) (fun i _ => Finset.sum_nonneg fun j _ => sq_nonneg _)
        (Finset.mem_range.2 hr))
  have h4 : 0 ≤ d.s.getD 0 0 := by
    by_cases hl : 0 < d.s.length
    · rw [List.getD_eq_getElem _ _ hl]
      exact h.nonneg _ (List.getElem_mem _)
    · rw [List.getD_eq_default _ _ (by omega)]
  refine abs_le_of_sq_le_sq ?_ h4
  rw [← h1]
  exact h3

/-- Cores of ones with bond dimension 1: the largest singular value of every merged core is at least 1, the others are 0. -/
theorem ones_sv (svd : Mat ℝ → SVD) (hsvd : ∀ A, IsSVD A (svd A)) (F O : ℕ) (hF : 1 ≤ F) (hO : 1 ≤ O) (a : Cores ℝ)
    (hA : ∀ i f, a.A i 0 0 f = 1) (hC : ∀ o, a.C o 0 0 = 1) (κ : Kind) (m : Module ℝ) (hs : κ.Shaped 1 F O m) (hh : κ.Holds 1 F O a m)
    (sv : List ℝ) (hsv : some sv ∈ bondPlan svd m) : 1 ≤ sv.getD 0 0 := by
  have hz := merged_rank svd hsvd 1 F O a κ m hs hh sv hsv
  cases κ <;> cases m <;> first | exact hs.elim | skip
  · simp [bondPlan] at hsv
  · rename_i i c t
    simp only [Kind.Shaped] at hs
    simp only [bondPlan, hs, List.getD_cons_zero, List.mem_flatMap, List.mem_range, List.mem_cons, List.not_mem_nil, or_false, Option.some.injEq,
      reduceCtorEq] at hsv
    obtain ⟨s, hs1, rfl⟩ := hsv
    have := sv_first _ _ (hsvd _) (by simp [flattening, Tensor.select, hs, Mat.of, Env.ofOut, Env.set]; omega) (by simp [flattening, Tensor.select, hs, Mat.of, Env.ofOut, Env.set]; omega) hz
    refine le_trans (le_of_eq ?_) this
    have e : (flattening (t.select 0 s) ['l', 'r', 'i', 'j'] (['l', 'u', 'i'].filter (· ≠ 'u')) (['u', 'r', 'j'].filter (· ≠ 'u'))).e 0 0 = t.get [s, 0, 0, 0, 0] := by
      simp [flattening, Tensor.select, hs, Mat.of, Env.ofOut, Env.set, unravel]
      omega
    rw [e, hh s hs1 0 (by omega) 0 (by omega) 0 (by omega) 0 (by omega)]
    simp [hA]
  · simp [bondPlan] at hsv
  · rename_i i b t b'
    obtain ⟨rfl, hs⟩ := hs
    cases b
    · simp only [bondPlan, List.mem_cons, List.not_mem_nil, or_false, Option.some.injEq, reduceCtorEq] at hsv
      subst hsv
      have := sv_first _ _ (hsvd _) (by simp [flattening, hs, Mat.of, Env.ofOut, Env.set]; omega) (by simp [flattening, hs, Mat.of, Env.ofOut, Env.set]; omega) hz
      refine le_trans (le_of_eq ?_) this
      have e : (flattening t ['o', 'l', 'r', 'i'] (['o', 'u', 'r'].filter (· ≠ 'u')) (['l', 'u', 'i'].filter (· ≠ 'u'))).e 0 0 = t.get [0, 0, 0, 0] := by
        simp [flattening, hs, Mat.of, Env.ofOut, Env.set, unravel]
        omega
      rw [e, hh 0 (by omega) 0 (by omega) 0 (by omega) 0 (by omega)]
      simp [hA, hC]
    · simp only [bondPlan, List.mem_cons, List.not_mem_nil, or_false, Option.some.injEq, reduceCtorEq] at hsv
      subst hsv
      have := sv_first _ _ (hsvd _) (by simp [flattening, hs, Mat.of, Env.ofOut, Env.set]; omega) (by simp [flattening, hs, Mat.of, Env.ofOut, Env.set]; omega) hz
      refine le_trans (le_of_eq ?_) this
      have e : (flattening t ['o', 'l', 'r', 'i'] (['o', 'l', 'u'].filter (· ≠ 'u')) (['u', 'r', 'i'].filter (· ≠ 'u'))).e 0 0 = t.get [0, 0, 0, 0] := by
        simp [flattening, hs, Mat.of, Env.ofOut, Env.set, unravel]
        omega
      rw [e, hh 0 (by omega) 0 (by omega) 0 (by omega) 0 (by omega)]
      simp [hA, hC]

theorem ones_lone (F O : ℕ) (hF : 1 ≤ F) (hO : 1 ≤ O) (a : Cores ℝ) (hA : ∀ i f, a.A i 0 0 f = 1) (hC : ∀ o, a.C o 0 0 = 1) (κ : Kind) (m : Module ℝ)
    (hs : κ.Shaped 1 F O m) (hh : κ.Holds 1 F O a m) : ¬ LoneZero m := by
  cases κ <;> cases m <;> first | exact hs.elim | exact fun h => h | skip
  · rename_i t
    intro hz
    simp only [Kind.Shaped] at hs
    have := hz [0, 0, 0] (by rw [hs]; simp [InRange]; omega)
    rw [hh 0 (by omega) 0 (by omega) 0 (by omega), hA] at this
    simp at this
  · rename_i t
    intro hz
    simp only [Kind.Shaped] at hs
    have := hz [0, 0, 0] (by rw [hs]; simp [InRange]; omega)
    rw [hh 0 (by omega) 0 (by omega) 0 (by omega), hC] at this
    simp at this

/-- The constructor makes a model to which all theorems on flips apply, with a flip due at the first call if the threshold is 0. -/
theorem exAd_facts (svd : Mat ℝ → SVD) (hsvd : ∀ A, IsSVD A (svd A)) (d : Draws) (cutoff : ℝ) (hc : cutoff ≤ 1) (threshold : ℕ) :
    ∃ m, AdMps.init d exAdArgs cutoff threshold = .ok m ∧ IsAdMps 1 m ∧ m.mps.bondDim = 1 ∧ m.mps.periodic = false ∧ m.mps.inputDim = 4 ∧
      m.mps.path = none ∧ m.mps.featureDim = 2 ∧ m.mps.featureMap = none ∧
      m.region.threshold = threshold ∧ m.region.counter = 0 ∧ m.region.cutoff = cutoff ∧
      HoldsCores 1 (initCores d 1 2 0) m ∧ ¬ Stuck m.region.offset 1 m.mps.inputDim ∧
      ¬ Vanishing svd m.mps.bondDim m.region.cutoff (m.region.listAt m.region.offset) ∧
      (∀ u ∈ m.region.listAt m.region.offset, ¬ LoneZero u) ∧
      (∀ u ∈ m.region.listAt m.region.offset, ∀ sv, some sv ∈ bondPlan svd u →
        ∀ i < m.mps.bondDim, sv.getD i 0 = 0 ∨ m.region.cutoff ≤ sv.getD i 0) := by
  obtain ⟨m, h1, h2, h3, h4, h5, h6, h7, h8, h9, h10, h11, h12, h13, h14, h15, _⟩ :=
    C59_construction d exAdArgs cutoff threshold 1 (by decide) (by decide) (Or.inl rfl) none rfl
  have hA : ∀ i f, (initCores d 1 2 0).A i 0 0 f = 1 := by simp [initCores]
  have hC : ∀ o, (initCores d 1 2 0).C o 0 0 = 1 := by simp [initCores]
  have hl : m.region.listAt m.region.offset = m.region.list0 := by rw [h11]; rfl
  have hch : MergedChain 1 2 2 0 1 4 (initCores d 1 2 0) m.region.list0 := h15
  refine ⟨m, h1, h2, h5, h7, h3, h9, h6, h10, h13, h12, h14, ?_, ?_, ?_, ?_, ?_⟩
  · unfold HoldsCores
    rw [hl, h5, h6, h4, h3, h11]
    exact hch
  · rw [h3, h11]
    unfold Stuck
    decide
  · rw [hl, h5, h14]
    rintro ⟨u, hu, sv, hsv, hx⟩
    obtain ⟨κ, _, q1, q2⟩ := forall2_mem hch u hu
    have := ones_sv svd hsvd 2 2 (by omega) (by omega) _ hA hC κ u q1 q2 sv hsv
    have := hx 0 (by decide)
    linarith
  · rw [hl]
    intro u hu
    obtain ⟨κ, _, q1, q2⟩ := forall2_mem hch u hu
    exact ones_lone 2 2 (by omega) (by omega) _ hA hC κ u q1 q2
  · rw [hl, h5, h14]
    intro u hu sv hsv i hi
    obtain ⟨κ, _, q1, q2⟩ := forall2_mem hch u hu
    have := ones_sv svd hsvd 2 2 (by omega) (by omega) _ hA hC κ u q1 q2 sv hsv
    have hi0 : i = 0 := by
      have : i < 1 := hi
      omega
    subst hi0
    right
    linarith

/-- The hypotheses of C64_untrained (so those of C64_lossless, C61_flips_iff and C62_call) are met by a new model with label_site 1, input_dim 4
and threshold 0, for every batch: the first call flips, succeeds, and returns the value of the initial cores. -/
example (d : Draws) (x : Tensor ℝ) (hx : x.shape = [3, 4, 2]) (g : Option ℕ) : ∃ m, AdMps.init d exAdArgs (1 / 10) 0 = .ok m ∧
    ∃ y, (m.forward someSvd popHead x g).1 = .ok y ∧ (m.forward someSvd popHead x g).2.1.region.offset = 1 - m.region.offset ∧
      y.shape = [3, m.mps.outputDim] ∧ ∀ b < 3, ∀ o < m.mps.outputDim, y.get [b, o] = chainValue 1 2 1 4 false (initCores d 1 2 0) x b o := by
  obtain ⟨m, h1, h2, h3, hper, h4, h5, h6, hfm, h7, h8, h9, h10, h11, h12, h13, h14⟩ := exAd_facts someSvd someSvd_spec d (1 / 10) (by norm_num) 0
  have he : Embedded m.mps x x := by
    refine ⟨x, by rw [h5]; rfl, ?_⟩
    unfold MPS.embedInput
    rw [assert_true _ (Or.inr (by simp [Tensor.ndim, hx])), assert_true _ (by simp [hx, h4])]
    simp [Tensor.ndim, hx, h6]
    rfl
  obtain ⟨y, y1, y2, y3, y4⟩ := C64_untrained someSvd someSvd_spec popHead popHead_mem 1 m h2 (by rw [h3]) _ h10 (by rw [h7]; omega) h11 (by rw [h9]; norm_num) h14 h12 h13
    x x he g (Or.inl le_rfl)
  rw [hx] at y3 y4
  rw [h3, hper, h4, h6] at y4
  exact ⟨m, h1, y, y1, y2, y3, y4⟩

/-- The hypotheses of C61_two_sites are met by the default label_site for input_dim 4: the very first flip raises an exception. -/
example (d : Draws) (D O : ℕ) (hD : 1 ≤ D) (periodic parallel : Bool) (std cutoff : ℝ) (bias : Bool) (x : Tensor ℝ) (hx : x.shape = [3, 4, 2]) (g : Option ℕ) :
    ∃ m er, AdMps.init d ⟨4, O, D, 2, periodic, parallel, none, .none, std, bias⟩ cutoff 0 = .ok m ∧ (m.forward someSvd popHead x g).1 = .error er := by
  obtain ⟨m, h1, h2, h3, h4, h5, h6, h7, h8, h9, h10, h11, h12, h13, h14, h15, _⟩ :=
    C59_construction d ⟨4, O, D, 2, periodic, parallel, none, .none, std, bias⟩ cutoff 0 2 (show 2 ≤ 4 by omega) (show 2 ≤ 4 by omega)
      (Or.inr ⟨rfl, show 2 = 4 / 2 by norm_num⟩) none rfl
  have he : Embedded m.mps x x := by
    refine ⟨x, by rw [h9]; rfl, ?_⟩
    unfold MPS.embedInput
    rw [assert_true _ (Or.inr (by simp [Tensor.ndim, hx])), assert_true _ (by simp [hx, h3])]
    simp [Tensor.ndim, hx, h6]
    rfl
  obtain ⟨er, m', g', e1, _⟩ := stuck_call someSvd someSvd_spec popHead popHead_mem 2 m h2 (by rw [h5]; exact hD) (by rw [h12, h13])
    (Or.inr ⟨by rw [h11], by rw [show m.mps.inputDim = 4 from h3]⟩) x x he g
  exact ⟨m, er, h1, by rw [e1]⟩

end TorchMPS
