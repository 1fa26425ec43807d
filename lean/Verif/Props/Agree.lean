import Verif.Props.TiExpress
import Verif.Props.UnifExpress
import Verif.Props.Identify
import Mathlib.LinearAlgebra.Matrix.Block
import Mathlib.LinearAlgebra.Matrix.Charpoly.Coeff
/-
C113: translation-invariant models which agree on short sequences agree on all; outputs for repeated symbols.
-/
namespace TorchMPS
open Spec Matrix
variable {K A : Type}

/-- A function of words which factorises over a set of indices and vanishes on the nonempty words no longer than the number of the indices vanishes on all nonempty words. -/
theorem short_words [Field K] {ι : Type} [Fintype ι] (f : List A → K) (x y : List A → ι → K) (hf : ∀ u s, f (u ++ s) = ∑ i, x u i * y s i)
    (h : ∀ w, w ≠ [] → w.length ≤ Fintype.card ι → f w = 0) : ∀ w, w ≠ [] → f w = 0 := by
  intro w
  induction hl : w.length using Nat.strong_induction_on generalizing w with
  | _ L ih =>
    intro hw
    by_cases hL : L ≤ Fintype.card ι
    · exact h w hw (by omega)
    by_contra hne
    have hLp : 1 ≤ L := by rw [← hl]; exact List.length_pos_iff.2 hw
    let U : Matrix (Fin L) ι K := Matrix.of fun i => x (w.take (i.val + 1))
    let V : Matrix ι (Fin L) K := Matrix.of fun l j => y (w.drop (j.val + 1)) l
    have hM : ∀ i j, (U * V) i j = f (w.take (i.val + 1) ++ w.drop (j.val + 1)) := fun i j => (hf _ _).symm
    have htri : (U * V).BlockTriangular OrderDual.toDual := by
      intro i j hij
      have hij : i < j := hij
      have h1 := i.2
      have h2 := j.2
      have h3 : i.val < j.val := hij
      rw [hM]
      refine ih (w.take (i.val + 1) ++ w.drop (j.val + 1)).length ?_ _ rfl ?_
      · rw [List.length_append, List.length_take, List.length_drop]
        omega
      · intro h0
        have := congrArg List.length h0
        rw [List.length_append, List.length_take, List.length_drop, List.length_nil] at this
        omega
    have hdet : (U * V).det ≠ 0 := by
      rw [Matrix.det_of_lowerTriangular _ htri]
      refine Finset.prod_ne_zero_iff.2 fun i _ => ?_
      rw [hM, List.take_append_drop]
      exact hne
    have hr : (U * V).rank = L := by
      rw [Matrix.rank_of_isUnit _ ((Matrix.isUnit_iff_isUnit_det _).2 (isUnit_iff_ne_zero.2 hdet)), Fintype.card_fin]
    have := (Matrix.rank_mul_le_left U V).trans (Matrix.rank_le_card_width U)
    omega

/-- C113, TI_MPS. Two TI_MPS of any bond dimensions `D` and `D'`, settings and parameters, which return the outputs `c` and `c'`: if these agree for all nonempty words of at most `D + D'` symbols,
they agree for all words. -/
theorem C113_agree [Field K] {M : ℕ} (m m' : TiMps K) (h : IsTi m) (h' : IsTi m') (hO : m'.outputDim = m.outputDim) (v v' : Fin M → ℕ → K)
    (c c' : List (Fin M) → Fin m.outputDim → K) (hc : TiReturns m v c) (hc' : TiReturns m' v' c')
    (hs : ∀ w, w ≠ [] → w.length ≤ m.bondDim + m'.bondDim → ∀ o, c w o = c' w o) : ∀ w, w ≠ [] → ∀ o, c w o = c' w o := by
  obtain ⟨O', D', F', par', ub', fb', φ', core', init', term', bias'⟩ := m'
  obtain rfl : O' = m.outputDim := hO
  have e := (ti_returns_iff m h v c).1 hc
  have e' := (ti_returns_iff _ h' v' c').1 hc'
  intro w hw o
  rw [← e w hw o, ← e' w hw o, ← sub_eq_zero]
  set α := (fun l : Fin m.bondDim => m.initVec.get [l.val])
  set T := (fun a => stepMat m (v a))
  set Ω := (fun (o : Fin m.outputDim) (l : Fin m.bondDim) => m.termMat.get [l.val, o.val])
  generalize hα' : (fun l : Fin D' => init'.get [l.val]) = α' at *
  generalize hT' : (fun a => stepMat _ (v' a)) = T' at *
  generalize hΩ' : (fun (o : Fin m.outputDim) (l : Fin D') => term'.get [l.val, o.val]) = Ω' at *
  refine short_words (ι := Fin m.bondDim ⊕ Fin D') (fun w => wordVal α T Ω w o - wordVal α' T' Ω' w o)
    (fun u => Sum.elim (α ᵥ* (u.map T).prod) (fun i => - (α' ᵥ* (u.map T').prod) i)) (fun s => Sum.elim ((s.map T).prod *ᵥ Ω o) ((s.map T').prod *ᵥ Ω' o)) ?_ ?_ w hw
  · intro u s
    rw [wordVal_append, wordVal_append, Fintype.sum_sum_type]
    simp only [Sum.elim_inl, Sum.elim_inr, neg_mul, Finset.sum_neg_distrib, dotProduct]
    ring
  · intro w hw hl
    rw [Fintype.card_sum, Fintype.card_fin, Fintype.card_fin] at hl
    show wordVal α T Ω w o - wordVal α' T' Ω' w o = 0
    rw [e w hw o, e' w hw o, hs w hw hl o, sub_self]

/-- C113, repetitions. For every TI_MPS and symbol there are coefficients, as many as the bond dimension, such that inside any word the outputs for repetitions of the symbol satisfy the linear recurrence with these
coefficients. -/
theorem C113_recurrence [Field K] {M : ℕ} (m : TiMps K) (h : IsTi m) (v : Fin M → ℕ → K) (c : List (Fin M) → Fin m.outputDim → K) (hc : TiReturns m v c) (a : Fin M) :
    ∃ r : Fin m.bondDim → K, ∀ (u s : List (Fin M)) (o : Fin m.outputDim), u ++ s ≠ [] →
      c (u ++ List.replicate m.bondDim a ++ s) o = ∑ i, r i * c (u ++ List.replicate i.val a ++ s) o := by
  have e := (ti_returns_iff m h v c).1 hc
  set α := (fun l : Fin m.bondDim => m.initVec.get [l.val])
  set T := (fun a => stepMat m (v a))
  set Ω := (fun (o : Fin m.outputDim) (l : Fin m.bondDim) => m.termMat.get [l.val, o.val])
  refine ⟨fun i => - (T a).charpoly.coeff i, fun u s o hne => ?_⟩
  have hval : ∀ k, c (u ++ List.replicate k a ++ s) o = (α ᵥ* (u.map T).prod) ⬝ᵥ ((T a ^ k) *ᵥ ((s.map T).prod *ᵥ Ω o)) := by
    intro k
    rw [← e _ (by
      intro h0
      simp only [List.append_eq_nil_iff] at h0
      exact hne (by rw [h0.1.1, h0.2]; rfl)), List.append_assoc, wordVal_append, List.map_append, List.prod_append, List.map_replicate, List.prod_replicate, ← Matrix.mulVec_mulVec]
  have hcp := Matrix.aeval_self_charpoly (T a)
  rw [Polynomial.aeval_eq_sum_range, Matrix.charpoly_natDegree_eq_dim, Fintype.card_fin, Finset.sum_range_succ] at hcp
  have hlead : (T a).charpoly.coeff m.bondDim = 1 := by
    have := Matrix.charpoly_monic (T a)
    rw [Polynomial.Monic, Polynomial.leadingCoeff, Matrix.charpoly_natDegree_eq_dim, Fintype.card_fin] at this
    exact this
  rw [hlead, one_smul] at hcp
  have hpow : T a ^ m.bondDim = ∑ i : Fin m.bondDim, (- (T a).charpoly.coeff i) • T a ^ i.val := by
    rw [Fin.sum_univ_eq_sum_range (fun i => (- (T a).charpoly.coeff i) • T a ^ i)]
    simp only [neg_smul, Finset.sum_neg_distrib]
    exact eq_neg_of_add_eq_zero_right hcp
  rw [hval, hpow, Matrix.sum_mulVec, dotProduct_sum]
  refine Finset.sum_congr rfl fun i _ => ?_
  rw [hval, Matrix.smul_mulVec, dotProduct_smul, smul_eq_mul]

/-! ### uniform probabilistic models -/

/-- The products of the values of a vector and their conjugates. -/
noncomputable def sq1 {ι : Type} [RCLike K] (x : List A → ι → K) (u : List A) (p : ι × ι) : K := x u p.1 * starRingEnd K (x u p.2)

theorem sq_append {ι : Type} [Fintype ι] [RCLike K] (Ψ : List A → K) (x y : List A → ι → K) (h : ∀ u s, Ψ (u ++ s) = ∑ i, x u i * y s i) (u s : List A) :
    ((‖Ψ (u ++ s)‖ ^ 2 : ℝ) : K) = ∑ p : ι × ι, sq1 x u p * sq1 y s p := by
  rw [h, RCLike.ofReal_pow, ← RCLike.mul_conj, map_sum, Finset.sum_mul_sum, Fintype.sum_prod_type]
  refine Finset.sum_congr rfl fun i _ => Finset.sum_congr rfl fun j _ => ?_
  rw [map_mul]
  unfold sq1
  ring

theorem mass_append {ι : Type} [Fintype ι] [RCLike K] {d : ℕ} (Ψ : List (Fin d) → K) (x y : List (Fin d) → ι → K) (h : ∀ u s, Ψ (u ++ s) = ∑ i, x u i * y s i) (n k : ℕ) :
    ((wordMass Ψ (n + k) : ℝ) : K) = ∑ p : ι × ι, (∑ u : Fin n → Fin d, sq1 x (List.ofFn u) p) * (∑ s : Fin k → Fin d, sq1 y (List.ofFn s) p) := by
  unfold wordMass
  rw [← (Fin.appendEquiv n k).sum_comp, Fintype.sum_prod_type]
  simp only [map_sum]
  have e1 : ∀ (u : Fin n → Fin d) (s : Fin k → Fin d), ((‖Ψ (List.ofFn (Fin.appendEquiv n k (u, s)))‖ ^ 2 : ℝ) : K) = ∑ p : ι × ι, sq1 x (List.ofFn u) p * sq1 y (List.ofFn s) p := by
    intro u s
    rw [show Fin.appendEquiv n k (u, s) = Fin.append u s from rfl, List.ofFn_fin_append, sq_append Ψ x y h]
  simp only [e1]
  rw [Finset.sum_congr rfl fun u _ => Finset.sum_comm, Finset.sum_comm]
  refine Finset.sum_congr rfl fun p _ => ?_
  rw [Finset.sum_mul_sum]

/-- C113, ProbUnifMPS. Two uniform models of bond dimensions `D` and `D'` (with or without bias) which give some sequence of each length `n ≥ 1` a positive probability: if they give all sequences of length at most
`2 D² D'²` the same probabilities, they give all sequences of all lengths the same. -/
theorem C113_uniform [RCLike K] (m m' : ProbMPS K) (d D D' : ℕ) (hm : ∀ n, ValidModel m n d D) (hm' : ∀ n, ValidModel m' n d D') (hu : m.uniform = true) (hu' : m'.uniform = true)
    (he : m.embedding = none) (he' : m'.embedding = none) (slim par slim' par' : Bool) (hs : slim = true → m.bias = none) (hs' : slim' = true → m'.bias = none)
    (hp : ∀ n, 1 ≤ n → ∃ x : Fin n → Fin d, probSeq m slim par x ≠ 0) (hp' : ∀ n, 1 ≤ n → ∃ x : Fin n → Fin d, probSeq m' slim' par' x ≠ 0)
    (h : ∀ n, 1 ≤ n → n ≤ 2 * (D * D * (D' * D')) → ∀ x : Fin n → Fin d, probSeq m slim par x = probSeq m' slim' par' x) :
    ∀ n, 1 ≤ n → ∀ x : Fin n → Fin d, probSeq m slim par x = probSeq m' slim' par' x := by
  obtain ⟨Ψ, r1, r2⟩ := C100_rank_bound m d D hm hu he
  obtain ⟨Ψ', r1', r2'⟩ := C100_rank_bound m' d D' hm' hu' he'
  obtain ⟨α, T, Ω, hw⟩ := (hankel_iff _).2 r1
  obtain ⟨α', T', Ω', hw'⟩ := (hankel_iff _).2 r1'
  have f1 : ∀ u s, Ψ (u ++ s) = ∑ i, (α ᵥ* (u.map T).prod) i * ((s.map T).prod *ᵥ Ω ()) i := fun u s => by rw [← hw (u ++ s) (), wordVal_append]; rfl
  have f1' : ∀ u s, Ψ' (u ++ s) = ∑ i, (α' ᵥ* (u.map T').prod) i * ((s.map T').prod *ᵥ Ω' ()) i := fun u s => by rw [← hw' (u ++ s) (), wordVal_append]; rfl
  have g := sq_append Ψ (fun u => α ᵥ* (u.map T).prod) (fun s => (s.map T).prod *ᵥ Ω ()) f1
  have g' := sq_append Ψ' (fun u => α' ᵥ* (u.map T').prod) (fun s => (s.map T').prod *ᵥ Ω' ()) f1'
  have k := mass_append Ψ (fun u => α ᵥ* (u.map T).prod) (fun s => (s.map T).prod *ᵥ Ω ()) f1
  have k' := mass_append Ψ' (fun u => α' ᵥ* (u.map T').prod) (fun s => (s.map T').prod *ᵥ Ω' ()) f1'
  let f : List (Fin d) → K := fun w => ((‖Ψ w‖ ^ 2 : ℝ) : K) * ((wordMass Ψ' w.length : ℝ) : K) - ((‖Ψ' w‖ ^ 2 : ℝ) : K) * ((wordMass Ψ w.length : ℝ) : K)
  have hiff : ∀ n, 1 ≤ n → ∀ x : Fin n → Fin d, f (List.ofFn x) = 0 ↔ probSeq m slim par x = probSeq m' slim' par' x := by
    intro n hn x
    obtain ⟨z, q⟩ := r2 n slim par hs (hp n hn)
    obtain ⟨z', q'⟩ := r2' n slim' par' hs' (hp' n hn)
    rw [q, q', div_eq_div_iff z z', sub_eq_zero, List.length_ofFn, ← RCLike.ofReal_mul, ← RCLike.ofReal_mul, RCLike.ofReal_inj]
  obtain ⟨x1, y1, hxy⟩ : ∃ x1 y1 : List (Fin d) → (((Fin D × Fin D) × (Fin D' × Fin D')) ⊕ ((Fin D × Fin D) × (Fin D' × Fin D'))) → K, ∀ u s, f (u ++ s) = ∑ i, x1 u i * y1 s i := by
    refine ⟨fun u => Sum.elim
        (fun p => sq1 (fun u => α ᵥ* (u.map T).prod) u p.1 * ∑ w : Fin u.length → Fin d, sq1 (fun u => α' ᵥ* (u.map T').prod) (List.ofFn w) p.2)
        (fun p => - ((∑ w : Fin u.length → Fin d, sq1 (fun u => α ᵥ* (u.map T).prod) (List.ofFn w) p.1) * sq1 (fun u => α' ᵥ* (u.map T').prod) u p.2)),
      fun s => Sum.elim
        (fun p => sq1 (fun s => (s.map T).prod *ᵥ Ω ()) s p.1 * ∑ w : Fin s.length → Fin d, sq1 (fun s => (s.map T').prod *ᵥ Ω' ()) (List.ofFn w) p.2)
        (fun p => (∑ w : Fin s.length → Fin d, sq1 (fun s => (s.map T).prod *ᵥ Ω ()) (List.ofFn w) p.1) * sq1 (fun s => (s.map T').prod *ᵥ Ω' ()) s p.2), fun u s => ?_⟩
    have e : f (u ++ s) = ((‖Ψ (u ++ s)‖ ^ 2 : ℝ) : K) * ((wordMass Ψ' (u.length + s.length) : ℝ) : K) - ((‖Ψ' (u ++ s)‖ ^ 2 : ℝ) : K) * ((wordMass Ψ (u.length + s.length) : ℝ) : K) := by
      show _ * ((wordMass Ψ' (u ++ s).length : ℝ) : K) - _ * ((wordMass Ψ (u ++ s).length : ℝ) : K) = _
      rw [List.length_append]
    rw [e, g, g', k, k', Fintype.sum_sum_type]
    simp only [Sum.elim_inl, Sum.elim_inr]
    rw [Finset.sum_mul_sum, Finset.sum_mul_sum, sub_eq_add_neg]
    congr 1
    · refine Eq.trans ?_ (Fintype.sum_prod_type _).symm
      refine Finset.sum_congr rfl fun p _ => Finset.sum_congr rfl fun q _ => ?_
      ring
    · refine Eq.trans ?_ (Fintype.sum_prod_type _).symm
      rw [Finset.sum_comm, ← Finset.sum_neg_distrib]
      refine Finset.sum_congr rfl fun p _ => ?_
      rw [← Finset.sum_neg_distrib]
      refine Finset.sum_congr rfl fun q _ => ?_
      ring
  have hz := short_words f x1 y1 hxy (by
    intro w hw hl
    have hc : Fintype.card (((Fin D × Fin D) × (Fin D' × Fin D')) ⊕ ((Fin D × Fin D) × (Fin D' × Fin D'))) = 2 * (D * D * (D' * D')) := by
      simp only [Fintype.card_sum, Fintype.card_prod, Fintype.card_fin]
      ring
    rw [hc] at hl
    have h1 : 1 ≤ w.length := List.length_pos_iff.2 hw
    have := (hiff w.length h1 w.get).2 (h _ h1 hl _)
    rwa [List.ofFn_get] at this)
  intro n hn x
  refine (hiff n hn x).1 (hz _ fun h0 => ?_)
  have := congrArg List.length h0
  rw [List.length_ofFn, List.length_nil] at this
  omega

/-! ### examples -/

/-- A TI_MPS with bond dimension 3 which counts the ones in all sequences of at most 5 zeros and ones counts the ones in all sequences. -/
example (m : TiMps ℝ) (h : IsTi m) (hD : m.bondDim = 3) (hO : m.outputDim = 1) (c : List (Fin 2) → Fin m.outputDim → ℝ) (hc : TiReturns m (bitFeature (K := ℝ)) c)
    (hs : ∀ w, w ≠ [] → w.length ≤ 5 → ∀ o, c w o = (onesIn w : ℝ)) : ∀ w, w ≠ [] → ∀ o, c w o = (onesIn w : ℝ) := by
  obtain ⟨m', h1, h2, _, h4, _, _, _, h8⟩ := ones_model
  refine C113_agree m m' h h1 (h4.trans hO.symm) (bitFeature (K := ℝ)) (bitFeature (K := ℝ)) c (fun w _ => (onesIn w : ℝ)) hc ?_ (fun w hw hl => hs w hw (by omega))
  obtain ⟨O', D', F', par', ub', fb', φ', core', init', term', bias'⟩ := m'
  obtain rfl : O' = m.outputDim := h4.trans hO.symm
  exact h8

/-- The bound `D + D'` cannot be improved for bond dimensions 1 and 1: two models agree on all sequences of one symbol and differ on all those of two. -/
example : ∃ m m' : TiMps ℝ, IsTi m ∧ IsTi m' ∧ m.bondDim = 1 ∧ m'.bondDim = 1 ∧ m.outputDim = 1 ∧ m'.outputDim = 1 ∧
    TiReturns m (bitFeature (K := ℝ)) (fun _ (_ : Fin m.outputDim) => 1) ∧ TiReturns m' (bitFeature (K := ℝ)) (fun w (_ : Fin m'.outputDim) => 2 ^ w.length / 2) ∧
    (∀ w : List (Fin 2), w.length = 1 → (1 : ℝ) = 2 ^ w.length / 2) ∧ ∀ w : List (Fin 2), w.length = 2 → (1 : ℝ) ≠ 2 ^ w.length / 2 := by
  have hT : ∀ w : List (Fin 2), (w.map (fun _ => (!![2] : Matrix (Fin 1) (Fin 1) ℝ))).prod = !![2 ^ w.length] := by
    intro w
    induction w with
    | nil => ext i j; fin_cases i; fin_cases j; simp
    | cons a w ih =>
      rw [List.map_cons, List.prod_cons, ih]
      ext i j
      fin_cases i; fin_cases j
      simp [Matrix.mul_apply, pow_succ, mul_comm]
  have e1 : withEmpty (fun (_ : List (Fin 2)) (_ : Fin 1) => (1 : ℝ)) (fun _ => 1) = fun _ _ => 1 := by
    funext w o
    cases w <;> rfl
  have e2 : withEmpty (fun (w : List (Fin 2)) (_ : Fin 1) => (2 ^ w.length / 2 : ℝ)) (fun _ => 1 / 2) = fun w _ => 2 ^ w.length / 2 := by
    funext w o
    cases w with
    | nil => simp [withEmpty]
    | cons a w => rfl
  have k1 : HankelLe (withEmpty (fun (_ : List (Fin 2)) (_ : Fin 1) => (1 : ℝ)) (fun _ => 1)) 1 := by
    rw [e1]
    refine (hankel_iff _).1 ⟨![1], fun _ => 1, fun _ => ![1], fun w o => ?_⟩
    simp [wordVal, dotProduct]
  have k2 : HankelLe (withEmpty (fun (w : List (Fin 2)) (_ : Fin 1) => (2 ^ w.length / 2 : ℝ)) (fun _ => 1 / 2)) 1 := by
    rw [e2]
    refine (hankel_iff _).1 ⟨![1 / 2], fun _ => !![2], fun _ => ![1], fun w o => ?_⟩
    rw [wordVal, hT]
    simp [Matrix.vecMul, dotProduct]
    ring
  obtain ⟨m, h1, h2, _, h4, _, _, _, _, h9⟩ := (C99_exactly 1 2 (bitFeature (K := ℝ)) bitFeature_independent true true false none _).2 ⟨_, k1⟩
  obtain ⟨m', h1', h2', _, h4', _, _, _, _, h9'⟩ := (C99_exactly 1 2 (bitFeature (K := ℝ)) bitFeature_independent true true false none _).2 ⟨_, k2⟩
  refine ⟨m, m', h1, h1', h2, h2', h4, h4', ?_, ?_, fun w hw => by rw [hw]; norm_num, fun w hw => by rw [hw]; norm_num⟩
  · obtain ⟨O', D', F', par', ub', fb', φ', core', init', term', bias'⟩ := m
    obtain rfl : O' = 1 := h4
    exact h9
  · obtain ⟨O', D', F', par', ub', fb', φ', core', init', term', bias'⟩ := m'
    obtain rfl : O' = 1 := h4'
    exact h9'

/-- A uniform probabilistic model with bond dimension 2 which is uniform on the sequences with an even number of ones for all lengths up to 32 is so for all lengths (its sequences of zeros having positive
probability). -/
example (m : ProbMPS ℝ) (hm : ∀ n, ValidModel m n 2 2) (hu : m.uniform = true) (he : m.embedding = none) (hp : ∀ n, 1 ≤ n → ∃ x : Fin n → Fin 2, probSeq m false false x ≠ 0)
    (h : ∀ n, 1 ≤ n → n ≤ 32 → ∀ x : Fin n → Fin 2, probSeq m false false x = (if (List.ofFn x).count 1 % 2 = 0 then 1 else 0) / wordMass evenOnes n) :
    ∀ n, 1 ≤ n → ∀ x : Fin n → Fin 2, probSeq m false false x = (if (List.ofFn x).count 1 % 2 = 0 then 1 else 0) / wordMass evenOnes n := by
  obtain ⟨m', h1, h2, h3, h4, h5⟩ := (C100_exactly (K := ℝ) 2 2 (by norm_num) (fun w => ‖evenOnes w‖ ^ 2 / wordMass evenOnes w.length) (fun n _ => by
    simp only [List.length_ofFn]
    rw [← Finset.sum_div]
    exact div_self (evenOnes_mass n))).2 ⟨evenOnes, evenOnes_hankel, fun n _ x => by simp only [List.length_ofFn]⟩
  have h6 : ∀ n, 1 ≤ n → ∀ x : Fin n → Fin 2, probSeq m' false false x = (if (List.ofFn x).count 1 % 2 = 0 then 1 else 0) / wordMass evenOnes n := fun n hn x => by
    rw [h5 n hn false false x]
    simp only [List.length_ofFn, evenOnes]
    split <;> simp
  intro n hn x
  rw [← h6 n hn x]
  refine C113_uniform m m' 2 2 2 hm h1 hu h2 he h3 false false false false (by simp) (by simp) hp (fun n hn => ⟨fun _ => 0, ?_⟩) (fun n hn hl x => by rw [h n hn hl x, h6 n hn x]) n hn x
  rw [h6 n hn, List.ofFn_const, List.count_replicate]
  simpa using evenOnes_mass n

end TorchMPS
