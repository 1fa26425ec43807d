import Verif.Spec.TotalMass
import Verif.Lemmas.Embeddings
import Mathlib.Algebra.Order.Chebyshev
/-
Lemmas for Props/TotalMass.lean.
-/
namespace TorchMPS
open Spec
variable {K : Type}

theorem gram_diag [RCLike K] {ι : Type} [Fintype ι] (w : ι → ℝ) (v : ι → ℕ → K) (i : ℕ) :
    gram w v i i = (diagEntry w v i : K) := by
  unfold gram diagEntry
  push_cast
  refine Finset.sum_congr rfl fun a _ => ?_
  rw [mul_star_self_eq]
  push_cast
  rfl

theorem diagEntry_nonneg [RCLike K] {ι : Type} [Fintype ι] (w : ι → ℝ) (hw : ∀ a, 0 ≤ w a) (v : ι → ℕ → K) (i : ℕ) :
    0 ≤ diagEntry w v i := Finset.sum_nonneg fun a _ => mul_nonneg (hw a) (sq_nonneg _)

theorem meanEntry_nonneg [RCLike K] {ι : Type} [Fintype ι] (w : ι → ℝ) (hw : ∀ a, 0 ≤ w a) (v : ι → ℕ → K) (d : ℕ) :
    0 ≤ meanEntry w v d :=
  div_nonneg (Finset.sum_nonneg fun i _ => diagEntry_nonneg w hw v i) (Nat.cast_nonneg _)

/-- the basis vectors -/
def basisVec [RCLike K] (d : ℕ) (k : Fin d) (i : ℕ) : K := if i = k then 1 else 0

theorem gram_basis [RCLike K] (d : ℕ) (g : ℕ → ℝ) (i j : ℕ) (hi : i < d) :
    gram (fun k : Fin d => g k) (basisVec (K := K) d) i j = if i = j then (g i : K) else 0 := by
  unfold gram basisVec
  rw [Finset.sum_eq_single ⟨i, hi⟩]
  · by_cases h : i = j
    · subst h; simp
    · have : ¬ j = i := fun h' => h h'.symm
      simp [h, this]
  · intro b _ hb
    have : ¬ i = (b : ℕ) := fun h => hb (by ext; exact h.symm)
    simp [this]
  · simp

theorem featMat_basis [RCLike K] (core : Tensor K) (d D s : ℕ) (k : Fin d) :
    featMat core d D s (basisVec d k) = coreMat core D s k := by
  unfold featMat basisVec
  rw [Finset.sum_eq_single (k : ℕ)]
  · simp
  · intro b _ hb; simp [hb]
  · intro h; exact absurd (Finset.mem_range.2 k.2) h

theorem weighted_basis [RCLike K] (m : ProbMPS K) (n d D : ℕ) (hm : ValidModel m n d D) (g : ℕ → ℝ) :
    weightedNormSq (addBias m.core m.bias) m.edge n d D (fun k : Fin d => g k) (basisVec d) =
      ∑ k : Fin n → Fin d, (∏ s, g (k s)) * ‖psiSeq m n d D k‖ ^ 2 := by
  unfold weightedNormSq psiSeq
  refine Finset.sum_congr rfl fun k _ => ?_
  congr 5
  funext s
  rw [featMat_basis, coreMat_addBias m n d D hm]

theorem weighted_full [RCLike K] {ι : Type} [Fintype ι] (m : ProbMPS K) (n d D : ℕ) (hm : ValidModel m n d D) (w : ι → ℝ)
    (v : ι → ℕ → K) : weightedNormSq (addBias m.core m.bias) m.edge n d D w v =
      ∑ x : Fin n → ι, (∏ s, w (x s)) * ‖amplitude (boundVec m.edge D 0) (boundVec m.edge D 1)
        (List.ofFn fun s : Fin n => featMat m.core d D s (v (x s)) + (∑ k ∈ Finset.range d, v (x s) k) • biasMat m D)‖ ^ 2 := by
  unfold weightedNormSq
  refine Finset.sum_congr rfl fun x _ => ?_
  congr 5
  funext s
  unfold featMat
  simp only [coreMat_addBias m n d D hm, smul_add, Finset.sum_add_distrib, ← Finset.sum_smul]

theorem closeTo_ofReal [RCLike K] (a b : ℝ) (hb : 0 ≤ b) : closeTo (a : K) (b : K) ↔ |a - b| ≤ 1e-8 + 1e-5 * b := by
  unfold closeTo
  rw [← RCLike.ofReal_sub, RCLike.norm_ofReal, RCLike.norm_ofReal, abs_of_nonneg hb]

/-- every stored lambda matrix is a Gram matrix, with the stated total -/
theorem stored_family [RCLike K] {ι : Type} [Fintype ι] (m : ProbMPS K) (n d D : ℕ) (hm : ValidModel m n d D) (w : ι → ℝ)
    (hw : ∀ a, 0 ≤ w a) (v : ι → ℕ → K) (t : Tensor K) (hs : t.shape = [d, d])
    (ht : ∀ i < d, ∀ j < d, t.get [i, j] = gram w v i j) :
    ∃ (ι' : Type) (_ : Fintype ι') (w' : ι' → ℝ) (v' : ι' → ℕ → K), (∀ a, 0 ≤ w' a) ∧
      LambdaIs (some (compressLambda t)) d (gram w' v') ∧
      weightedNormSq (addBias m.core m.bias) m.edge n d D w' v' = usedZ m n d D w v := by
  classical
  have hmean : diagMean t d = (meanEntry w v d : K) := by
    unfold diagMean meanEntry
    push_cast
    congr 1
    refine Finset.sum_congr rfl fun k hk => ?_
    rw [ht k (Finset.mem_range.1 hk) k (Finset.mem_range.1 hk), gram_diag]
  have hd : t.shape.getD 0 0 = d := by simp [hs]
  have hA : (∀ i < d, ∀ j < d, closeTo (if i = j then t.get [i, i] else 0) (t.get [i, j])) ↔ NearDiagonal w v d := by
    unfold NearDiagonal
    constructor
    · intro h i hi j hj hij
      have := h i hi j hj
      rw [if_neg hij, ht i hi j hj] at this
      simpa [closeTo] using this
    · intro h i hi j hj
      by_cases hij : i = j
      · subst hij
        rw [if_pos rfl]
        unfold closeTo
        rw [sub_self, norm_zero]
        positivity
      · rw [if_neg hij, ht i hi j hj]
        simpa [closeTo] using h i hi j hj hij
  have hB : (∀ i < d, closeTo (diagMean t d) (t.get [i, i])) ↔ NearScalar w v d := by
    unfold NearScalar
    refine forall_congr' fun i => forall_congr' fun hi => ?_
    rw [hmean, ht i hi i hi, gram_diag, closeTo_ofReal _ _ (diagEntry_nonneg w hw v i)]
  unfold compressLambda usedZ
  simp only [hd]
  by_cases h1 : NearDiagonal w v d
  · rw [if_pos (hA.2 h1), if_pos h1]
    by_cases h2 : NearScalar w v d
    · rw [if_pos (hB.2 h2), if_pos h2]
      refine ⟨Fin d, inferInstance, fun k => (fun _ : ℕ => meanEntry w v d) k, basisVec d, fun _ => meanEntry_nonneg w hw v d, ?_, ?_⟩
      · left
        refine ⟨rfl, fun i hi j hj => ?_⟩
        rw [gram_basis d (fun _ => meanEntry w v d) i j hi, hmean]
      · rw [weighted_basis m n d D hm (fun _ => meanEntry w v d)]
        unfold modelZ
        rw [Finset.mul_sum]
        simp
    · rw [if_neg (fun h => h2 (hB.1 h)), if_neg h2]
      refine ⟨Fin d, inferInstance, fun k => diagEntry w v k, basisVec d, fun _ => diagEntry_nonneg w hw v _, ?_, ?_⟩
      · right; left
        refine ⟨rfl, fun i hi j hj => ?_⟩
        rw [gram_basis d (fun i => diagEntry w v i) i j hi]
        simp only [List.getD_cons_zero]
        rw [ht i hi i hi, gram_diag]
      · exact weighted_basis m n d D hm fun i => diagEntry w v i
  · rw [if_neg (fun h => h1 (hA.1 h)), if_neg h1]
    refine ⟨ι, inferInstance, w, v, hw, ?_, weighted_full m n d D hm w v⟩
    right; right
    exact ⟨hs, fun i hi j hj => (ht i hi j hj).symm⟩

/-! ### Comparison of two families -/

theorem totM_family_le [RCLike K] {D : ℕ} {ι ι' κ : Type} [Fintype ι] [Fintype ι'] [Fintype κ] (ω : κ → ℝ) (hω : ∀ c, 0 ≤ ω c)
    (r : Fin D → K) (Ms : List (κ → Matrix (Fin D) (Fin D) K)) (C : ℝ) (w : ι → ℝ) (w' : ι' → ℝ) :
    ∀ (l : ι → Fin D → K) (l' : ι' → Fin D → K),
    (∀ u : Fin D → K, ∑ a, w a * ‖dotProduct (l a) u‖ ^ 2 ≤ C * ∑ b, w' b * ‖dotProduct (l' b) u‖ ^ 2) →
    ∑ a, w a * totM ω r Ms (l a) ≤ C * ∑ b, w' b * totM ω r Ms (l' b) := by
  induction Ms with
  | nil => intro l l' h; exact h r
  | cons M Ms ih =>
    intro l l' h
    simp only [totM, Finset.mul_sum]
    rw [Finset.sum_comm, Finset.sum_comm (s := (Finset.univ : Finset ι'))]
    refine Finset.sum_le_sum fun c _ => ?_
    have := ih (fun a => Matrix.vecMul (l a) (M c)) (fun b => Matrix.vecMul (l' b) (M c)) (fun u => by
      simp only [← Matrix.dotProduct_mulVec]
      exact h _)
    calc ∑ a, w a * (ω c * totM ω r Ms (Matrix.vecMul (l a) (M c)))
        = ω c * ∑ a, w a * totM ω r Ms (Matrix.vecMul (l a) (M c)) := by
          rw [Finset.mul_sum]; exact Finset.sum_congr rfl fun a _ => by ring
      _ ≤ ω c * (C * ∑ b, w' b * totM ω r Ms (Matrix.vecMul (l' b) (M c))) := mul_le_mul_of_nonneg_left this (hω c)
      _ = _ := by
          rw [Finset.mul_sum, Finset.mul_sum]
          exact Finset.sum_congr rfl fun a _ => by ring

/-- a quadratic inequality between two families of feature vectors -/
def QuadLe [RCLike K] {ι ι' : Type} [Fintype ι] [Fintype ι'] (d : ℕ) (C : ℝ) (w : ι → ℝ) (v : ι → ℕ → K) (w' : ι' → ℝ)
    (v' : ι' → ℕ → K) : Prop :=
  ∀ c : ℕ → K, ∑ a, w a * ‖∑ k ∈ Finset.range d, v a k * c k‖ ^ 2 ≤ C * ∑ b, w' b * ‖∑ k ∈ Finset.range d, v' b k * c k‖ ^ 2

theorem dot_feat [RCLike K] {D d : ℕ} (l u : Fin D → K) (F : ℕ → Matrix (Fin D) (Fin D) K) (v : ℕ → K) :
    dotProduct (Matrix.vecMul l (∑ k ∈ Finset.range d, v k • F k)) u =
      ∑ k ∈ Finset.range d, v k * dotProduct (Matrix.vecMul l (F k)) u := by
  rw [← Matrix.dotProduct_mulVec, Matrix.sum_mulVec, dotProduct_sum]
  refine Finset.sum_congr rfl fun k _ => ?_
  rw [Matrix.smul_mulVec, dotProduct_smul, smul_eq_mul, Matrix.dotProduct_mulVec]

theorem totM_le [RCLike K] {D d : ℕ} {ι ι' : Type} [Fintype ι] [Fintype ι'] (C : ℝ) (hC : 0 ≤ C) (w : ι → ℝ) (hw : ∀ a, 0 ≤ w a)
    (v : ι → ℕ → K) (w' : ι' → ℝ) (hw' : ∀ a, 0 ≤ w' a) (v' : ι' → ℕ → K) (hQ : QuadLe d C w v w' v') (r : Fin D → K)
    (Fs : List (ℕ → Matrix (Fin D) (Fin D) K)) : ∀ l : Fin D → K,
    totM w r (Fs.map fun F a => ∑ k ∈ Finset.range d, v a k • F k) l ≤
      C ^ Fs.length * totM w' r (Fs.map fun F b => ∑ k ∈ Finset.range d, v' b k • F k) l := by
  induction Fs with
  | nil => intro l; simp [totM]
  | cons F Fs ih =>
    intro l
    simp only [List.map_cons, totM, List.length_cons]
    calc ∑ a, w a * totM w r (Fs.map fun F a => ∑ k ∈ Finset.range d, v a k • F k) (Matrix.vecMul l (∑ k ∈ Finset.range d, v a k • F k))
        ≤ ∑ a, w a * (C ^ Fs.length * totM w' r (Fs.map fun F b => ∑ k ∈ Finset.range d, v' b k • F k)
            (Matrix.vecMul l (∑ k ∈ Finset.range d, v a k • F k))) :=
          Finset.sum_le_sum fun a _ => mul_le_mul_of_nonneg_left (ih _) (hw a)
      _ = C ^ Fs.length * ∑ a, w a * totM w' r (Fs.map fun F b => ∑ k ∈ Finset.range d, v' b k • F k)
            (Matrix.vecMul l (∑ k ∈ Finset.range d, v a k • F k)) := by
          rw [Finset.mul_sum]; exact Finset.sum_congr rfl fun a _ => by ring
      _ ≤ C ^ Fs.length * (C * ∑ b, w' b * totM w' r (Fs.map fun F b => ∑ k ∈ Finset.range d, v' b k • F k)
            (Matrix.vecMul l (∑ k ∈ Finset.range d, v' b k • F k))) := by
          refine mul_le_mul_of_nonneg_left ?_ (pow_nonneg hC _)
          refine totM_family_le w' hw' r _ C w w' _ _ fun u => ?_
          simp only [dot_feat]
          exact hQ _
      _ = _ := by rw [pow_succ]; ring

theorem weightedNormSq_le [RCLike K] {d : ℕ} {ι ι' : Type} [Fintype ι] [Fintype ι'] (core bound : Tensor K) (n D : ℕ) (C : ℝ)
    (hC : 0 ≤ C) (w : ι → ℝ) (hw : ∀ a, 0 ≤ w a) (v : ι → ℕ → K) (w' : ι' → ℝ) (hw' : ∀ a, 0 ≤ w' a) (v' : ι' → ℕ → K)
    (hQ : QuadLe d C w v w' v') :
    weightedNormSq core bound n d D w v ≤ C ^ n * weightedNormSq core bound n d D w' v' := by
  have h := totM_le C hC w hw v w' hw' v' hQ (boundVec bound D 1) (List.ofFn fun s : Fin n => coreMat core D s) (boundVec bound D 0)
  rw [List.map_ofFn, List.map_ofFn, totM_ofFn, totM_ofFn, List.length_ofFn] at h
  exact h

/-! ### The error of the compression -/

theorem quad_gram [RCLike K] {ι : Type} [Fintype ι] (d : ℕ) (w : ι → ℝ) (v : ι → ℕ → K) (c : ℕ → K) :
    ((∑ a, w a * ‖∑ k ∈ Finset.range d, v a k * c k‖ ^ 2 : ℝ) : K) =
      ∑ k ∈ Finset.range d, ∑ l ∈ Finset.range d, gram w v k l * (c k * star (c l)) := by
  push_cast
  have : ∀ a, (w a : K) * ((‖∑ k ∈ Finset.range d, v a k * c k‖ : ℝ) : K) ^ 2 =
      ∑ k ∈ Finset.range d, ∑ l ∈ Finset.range d, (w a : K) * (v a k * star (v a l)) * (c k * star (c l)) := by
    intro a
    have h := mul_star_self_eq (∑ k ∈ Finset.range d, v a k * c k)
    push_cast at h
    rw [← h]
    simp only [star_sum, star_mul', Finset.sum_mul, Finset.mul_sum]
    rw [Finset.sum_comm]
    refine Finset.sum_congr rfl fun k _ => Finset.sum_congr rfl fun l _ => ?_
    ring
  rw [Finset.sum_congr rfl fun a _ => this a, Finset.sum_comm]
  refine Finset.sum_congr rfl fun k _ => ?_
  rw [Finset.sum_comm]
  refine Finset.sum_congr rfl fun l _ => ?_
  unfold gram
  rw [Finset.sum_mul]

theorem quad_basis [RCLike K] (d : ℕ) (g : ℕ → ℝ) (c : ℕ → K) :
    ∑ b : Fin d, g b * ‖∑ k ∈ Finset.range d, basisVec d b k * c k‖ ^ 2 = ∑ k ∈ Finset.range d, g k * ‖c k‖ ^ 2 := by
  rw [← Fin.sum_univ_eq_sum_range (fun k => g k * ‖c k‖ ^ 2)]
  refine Finset.sum_congr rfl fun b _ => ?_
  congr 3
  unfold basisVec
  rw [Finset.sum_eq_single (b : ℕ)]
  · simp
  · intro k _ hk; simp [hk]
  · intro h; exact absurd (Finset.mem_range.2 b.2) h

theorem quad_near [RCLike K] {ι : Type} [Fintype ι] (d : ℕ) (w : ι → ℝ) (v : ι → ℕ → K) (η : ℝ) (hη : 0 ≤ η)
    (h : ∀ i < d, ∀ j < d, i ≠ j → ‖gram w v i j‖ ≤ η) (c : ℕ → K) :
    |∑ a, w a * ‖∑ k ∈ Finset.range d, v a k * c k‖ ^ 2 - ∑ k ∈ Finset.range d, diagEntry w v k * ‖c k‖ ^ 2| ≤
      η * ((d - 1) * ∑ k ∈ Finset.range d, ‖c k‖ ^ 2) := by
  rw [← RCLike.norm_ofReal (K := K), RCLike.ofReal_sub, quad_gram]
  have hdiag : ((∑ k ∈ Finset.range d, diagEntry w v k * ‖c k‖ ^ 2 : ℝ) : K) =
      ∑ k ∈ Finset.range d, ∑ l ∈ Finset.range d, if k = l then gram w v k l * (c k * star (c l)) else 0 := by
    push_cast
    refine Finset.sum_congr rfl fun k hk => ?_
    rw [Finset.sum_ite_eq, if_pos hk, gram_diag, mul_star_self_eq]
    push_cast
    rfl
  rw [hdiag, ← Finset.sum_sub_distrib]
  have hb : ∀ k ∈ Finset.range d, ‖∑ l ∈ Finset.range d, gram w v k l * (c k * star (c l)) -
      ∑ l ∈ Finset.range d, (if k = l then gram w v k l * (c k * star (c l)) else 0)‖ ≤
      η * (‖c k‖ * (∑ l ∈ Finset.range d, ‖c l‖ - ‖c k‖)) := by
    intro k hk
    rw [← Finset.sum_sub_distrib]
    have hs : ‖c k‖ * (∑ l ∈ Finset.range d, ‖c l‖ - ‖c k‖) =
        ∑ l ∈ Finset.range d, if k = l then 0 else ‖c k‖ * ‖c l‖ := by
      have e : ∀ l ∈ Finset.range d, (if k = l then (0 : ℝ) else ‖c k‖ * ‖c l‖) =
          ‖c k‖ * ‖c l‖ - if k = l then ‖c k‖ * ‖c l‖ else 0 := by
        intro l _
        split <;> simp
      rw [Finset.sum_congr rfl e, Finset.sum_sub_distrib, Finset.sum_ite_eq, if_pos hk, ← Finset.mul_sum]
      ring
    rw [hs, Finset.mul_sum]
    refine (norm_sum_le _ _).trans (Finset.sum_le_sum fun l hl => ?_)
    by_cases hkl : k = l
    · simp [hkl]
    · rw [if_neg hkl, if_neg hkl, sub_zero, norm_mul, norm_mul, norm_star]
      exact mul_le_mul_of_nonneg_right (h k (Finset.mem_range.1 hk) l (Finset.mem_range.1 hl) hkl) (by positivity)
  refine (norm_sum_le _ _).trans ((Finset.sum_le_sum hb).trans ?_)
  rw [← Finset.mul_sum]
  refine mul_le_mul_of_nonneg_left ?_ hη
  have h2 : ∑ k ∈ Finset.range d, ‖c k‖ * (∑ l ∈ Finset.range d, ‖c l‖ - ‖c k‖) =
      (∑ k ∈ Finset.range d, ‖c k‖) ^ 2 - ∑ k ∈ Finset.range d, ‖c k‖ ^ 2 := by
    simp only [mul_sub, Finset.sum_sub_distrib, ← Finset.sum_mul]
    congr 1
    · ring
    · exact Finset.sum_congr rfl fun k _ => by ring
  rw [h2]
  have h3 := sq_sum_le_card_mul_sum_sq (s := Finset.range d) (f := fun k => ‖c k‖)
  rw [Finset.card_range] at h3
  linarith

theorem quadLe_of_abs [RCLike K] {ι ι' : Type} [Fintype ι] [Fintype ι'] (d : ℕ) (ε : ℝ) (w : ι → ℝ) (v : ι → ℕ → K) (w' : ι' → ℝ)
    (v' : ι' → ℕ → K)
    (h : ∀ c : ℕ → K, |∑ a, w a * ‖∑ k ∈ Finset.range d, v a k * c k‖ ^ 2 - ∑ b, w' b * ‖∑ k ∈ Finset.range d, v' b k * c k‖ ^ 2| ≤
      ε * ∑ b, w' b * ‖∑ k ∈ Finset.range d, v' b k * c k‖ ^ 2) :
    QuadLe d (1 + ε) w v w' v' ∧ (ε < 1 → QuadLe d (1 - ε)⁻¹ w' v' w v) := by
  refine ⟨fun c => ?_, fun hε c => ?_⟩
  · have := (abs_le.1 (h c)).2
    linarith
  · have := (abs_le.1 (h c)).1
    rw [inv_mul_eq_div, le_div_iff₀ (by linarith)]
    linarith

theorem bounds_of_abs [RCLike K] {ι ι' : Type} [Fintype ι] [Fintype ι'] (core bound : Tensor K) (n d D : ℕ) (ε : ℝ) (hε : 0 ≤ ε)
    (w : ι → ℝ) (hw : ∀ a, 0 ≤ w a) (v : ι → ℕ → K) (w' : ι' → ℝ) (hw' : ∀ a, 0 ≤ w' a) (v' : ι' → ℕ → K)
    (h : ∀ c : ℕ → K, |∑ a, w a * ‖∑ k ∈ Finset.range d, v a k * c k‖ ^ 2 - ∑ b, w' b * ‖∑ k ∈ Finset.range d, v' b k * c k‖ ^ 2| ≤
      ε * ∑ b, w' b * ‖∑ k ∈ Finset.range d, v' b k * c k‖ ^ 2) :
    weightedNormSq core bound n d D w v ≤ (1 + ε) ^ n * weightedNormSq core bound n d D w' v' ∧
    (ε < 1 → (1 - ε) ^ n * weightedNormSq core bound n d D w' v' ≤ weightedNormSq core bound n d D w v) := by
  obtain ⟨h1, h2⟩ := quadLe_of_abs d ε w v w' v' h
  refine ⟨weightedNormSq_le core bound n D _ (by linarith) w hw v w' hw' v' h1, fun hε1 => ?_⟩
  have hp : 0 < 1 - ε := by linarith
  have := weightedNormSq_le core bound n D _ (by positivity) w' hw' v' w hw v (h2 hε1)
  rw [inv_pow, inv_mul_eq_div, le_div_iff₀ (by positivity)] at this
  linarith

/-- the total used by `forward` is within the stated factor of the true one -/
theorem usedZ_bounds [RCLike K] {ι : Type} [Fintype ι] (m : ProbMPS K) (n d D : ℕ) (hm : ValidModel m n d D) (hb : m.bias = none)
    (w : ι → ℝ) (hw : ∀ a, 0 ≤ w a) (v : ι → ℕ → K) (hd : 0 < d) (μ : ℝ) (hμ : 0 < μ) (hdiag : ∀ i < d, μ ≤ diagEntry w v i) :
    embZ m n d D w v ≤ (1 + siteError d μ) ^ n * usedZ m n d D w v ∧
    (siteError d μ < 1 → (1 - siteError d μ) ^ n * usedZ m n d D w v ≤ embZ m n d D w v) := by
  classical
  have hε : 0 ≤ siteError d μ := by unfold siteError; exact div_nonneg (by positivity) (by norm_num)
  have hemb := weightedNormSq_addBias m n d D hm w v (Or.inl hb)
  have hd1 : (1 : ℝ) ≤ d := by exact_mod_cast hd
  by_cases h1 : NearDiagonal w v d
  · have hη : ∀ i < d, ∀ j < d, i ≠ j → ‖gram w v i j‖ ≤ 1e-8 / (1 - 1e-5) := by
      intro i hi j hj hij
      have := h1 i hi j hj hij
      rw [le_div_iff₀ (by norm_num)]
      linarith
    have hq := quad_near d w v (1e-8 / (1 - 1e-5)) (by norm_num) hη
    by_cases h2 : NearScalar w v d
    · have hu : usedZ m n d D w v = weightedNormSq (addBias m.core m.bias) m.edge n d D
          (fun k : Fin d => (fun _ : ℕ => meanEntry w v d) k) (basisVec d) := by
        rw [weighted_basis m n d D hm (fun _ => meanEntry w v d)]
        unfold usedZ
        rw [if_pos h1, if_pos h2]
        unfold modelZ
        rw [Finset.mul_sum]
        simp
      have hμm : μ ≤ meanEntry w v d := by
        unfold meanEntry
        rw [le_div_iff₀ (by linarith)]
        have := Finset.card_nsmul_le_sum (Finset.range d) (diagEntry w v) μ (fun i hi => hdiag i (Finset.mem_range.1 hi))
        rw [Finset.card_range, nsmul_eq_mul] at this
        linarith
      rw [hu, ← hemb]
      refine bounds_of_abs _ _ n d D _ hε w hw v _ (fun _ => meanEntry_nonneg w hw v d) _ fun c => ?_
      rw [quad_basis d (fun _ => meanEntry w v d) c, ← Finset.mul_sum]
      have hS : 0 ≤ ∑ k ∈ Finset.range d, ‖c k‖ ^ 2 := Finset.sum_nonneg fun k _ => sq_nonneg _
      have h3 : |∑ k ∈ Finset.range d, diagEntry w v k * ‖c k‖ ^ 2 - meanEntry w v d * ∑ k ∈ Finset.range d, ‖c k‖ ^ 2| ≤
          (1e-8 + 1e-5 * ((meanEntry w v d + 1e-8) / (1 - 1e-5))) * ∑ k ∈ Finset.range d, ‖c k‖ ^ 2 := by
        rw [Finset.mul_sum, ← Finset.sum_sub_distrib, Finset.mul_sum]
        refine (Finset.abs_sum_le_sum_abs _ _).trans (Finset.sum_le_sum fun k hk => ?_)
        rw [← sub_mul, abs_mul, abs_of_nonneg (sq_nonneg ‖c k‖)]
        refine mul_le_mul_of_nonneg_right ?_ (sq_nonneg _)
        have h4 := h2 k (Finset.mem_range.1 hk)
        rw [abs_sub_comm]
        refine h4.trans ?_
        have h5 : diagEntry w v k ≤ (meanEntry w v d + 1e-8) / (1 - 1e-5) := by
          rw [le_div_iff₀ (by norm_num)]
          have := (abs_le.1 h4).1
          linarith
        linarith
      refine (abs_sub_le _ (∑ k ∈ Finset.range d, diagEntry w v k * ‖c k‖ ^ 2) _).trans ?_
      refine (add_le_add (hq c) h3).trans ?_
      rw [← mul_assoc, ← add_mul, ← mul_assoc]
      refine mul_le_mul_of_nonneg_right ?_ hS
      unfold siteError
      rw [div_mul_eq_mul_div, div_mul_eq_mul_div, mul_div_assoc', ← sub_nonneg]
      have hmm : 1e-8 * (d : ℝ) ≤ 1e-8 * d / μ * meanEntry w v d := by
        rw [div_mul_eq_mul_div, le_div_iff₀ hμ]
        exact mul_le_mul_of_nonneg_left hμm (by positivity)
      have : (1e-5 + 1e-8 * (d : ℝ) / μ) * meanEntry w v d / (1 - 1e-5) -
          (1e-8 * ((d : ℝ) - 1) / (1 - 1e-5) + (1e-8 + 1e-5 * (meanEntry w v d + 1e-8) / (1 - 1e-5))) =
          (1e-8 * (d : ℝ) / μ * meanEntry w v d - 1e-8 * d) / (1 - 1e-5) := by ring
      rw [this]
      exact div_nonneg (by linarith) (by norm_num)
    · have hu : usedZ m n d D w v = weightedNormSq (addBias m.core m.bias) m.edge n d D
          (fun k : Fin d => diagEntry w v k) (basisVec d) := by
        rw [weighted_basis m n d D hm (diagEntry w v)]
        unfold usedZ
        rw [if_pos h1, if_neg h2]
      rw [hu, ← hemb]
      refine bounds_of_abs _ _ n d D _ hε w hw v _ (fun _ => diagEntry_nonneg w hw v _) _ fun c => ?_
      rw [quad_basis d (diagEntry w v) c]
      refine (hq c).trans ?_
      have h3 : μ * ∑ k ∈ Finset.range d, ‖c k‖ ^ 2 ≤ ∑ k ∈ Finset.range d, diagEntry w v k * ‖c k‖ ^ 2 := by
        rw [Finset.mul_sum]
        exact Finset.sum_le_sum fun k hk => mul_le_mul_of_nonneg_right (hdiag k (Finset.mem_range.1 hk)) (sq_nonneg _)
      refine le_trans ?_ (mul_le_mul_of_nonneg_left h3 hε)
      rw [← mul_assoc, ← mul_assoc]
      refine mul_le_mul_of_nonneg_right ?_ (Finset.sum_nonneg fun k _ => sq_nonneg _)
      unfold siteError
      rw [div_mul_eq_mul_div, div_mul_eq_mul_div]
      refine div_le_div_of_nonneg_right ?_ (by norm_num)
      have : (1e-5 + 1e-8 * (d : ℝ) / μ) * μ = 1e-5 * μ + 1e-8 * d := by field_simp
      rw [this]
      have := mul_pos (show (0 : ℝ) < 1e-5 by norm_num) hμ
      linarith
  · have hu : usedZ m n d D w v = embZ m n d D w v := by
      rw [← hemb, weighted_full m n d D hm]
      unfold usedZ
      rw [if_neg h1]
    have hnn := embZ_nonneg m n d D w hw v
    rw [hu]
    refine ⟨le_mul_of_one_le_left hnn (one_le_pow₀ (by linarith)), fun h => mul_le_of_le_one_left hnn (pow_le_one₀ (by linarith) (by linarith))⟩

end TorchMPS
