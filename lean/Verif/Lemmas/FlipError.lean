import Verif.Spec.FlipError
import Verif.Lemmas.AdForward
import Mathlib.Analysis.Matrix.Normed
import Mathlib.Algebra.Order.BigOperators.Ring.Finset
/-
Perturbation of products of matrices in the Frobenius norm.
-/
namespace TorchMPS
open Spec
open scoped Matrix.Norms.Frobenius

theorem frob_eq (D : ℕ) (A : Matrix (Fin D) (Fin D) ℝ) : ‖A‖ = Real.sqrt (∑ i, ∑ j, A i j ^ 2) := by
  rw [Matrix.frobenius_norm_def, Real.sqrt_eq_rpow]
  simp

theorem frob_toMatrix (D : ℕ) (f : ℕ → ℕ → ℝ) :
    ‖toMatrix D D (Mat.of D D f)‖ = Real.sqrt (∑ l ∈ Finset.range D, ∑ r ∈ Finset.range D, f l r ^ 2) := by
  rw [frob_eq]
  congr 1
  rw [← Fin.sum_univ_eq_sum_range (fun l => ∑ r ∈ Finset.range D, f l r ^ 2)]
  refine Finset.sum_congr rfl fun i _ => ?_
  rw [← Fin.sum_univ_eq_sum_range (fun r => f i r ^ 2)]
  simp [toMatrix, Mat.of]

theorem entry_le_frob (D : ℕ) (A : Matrix (Fin D) (Fin D) ℝ) (i j : Fin D) : |A i j| ≤ ‖A‖ := by
  rw [frob_eq, ← Real.sqrt_sq_eq_abs]
  refine Real.sqrt_le_sqrt ?_
  calc A i j ^ 2 ≤ ∑ j, A i j ^ 2 := Finset.single_le_sum (f := fun j => A i j ^ 2) (fun _ _ => sq_nonneg _) (Finset.mem_univ j)
    _ ≤ _ := Finset.single_le_sum (f := fun i => ∑ j, A i j ^ 2) (fun _ _ => Finset.sum_nonneg fun _ _ => sq_nonneg _) (Finset.mem_univ i)

theorem trace_le_frob (D : ℕ) (A : Matrix (Fin D) (Fin D) ℝ) : |∑ i, A i i| ≤ Real.sqrt D * ‖A‖ := by
  rw [frob_eq, ← Real.sqrt_sq_eq_abs, ← Real.sqrt_mul (Nat.cast_nonneg D)]
  refine Real.sqrt_le_sqrt ?_
  have h := Finset.sum_mul_sq_le_sq_mul_sq Finset.univ (fun _ : Fin D => (1 : ℝ)) (fun i => A i i)
  simp only [one_mul, one_pow, Finset.sum_const, Finset.card_univ, Fintype.card_fin, nsmul_eq_mul, mul_one] at h
  refine h.trans (mul_le_mul_of_nonneg_left ?_ (Nat.cast_nonneg D))
  exact Finset.sum_le_sum fun i _ => Finset.single_le_sum (f := fun j => A i j ^ 2) (fun _ _ => sq_nonneg _) (Finset.mem_univ i)

/-- the matrices of two chains, the sizes of the first and of the differences, up to factors of product `W` -/
inductive NearProd (D : ℕ) : List (Mat ℝ) → List (Mat ℝ) → List ℝ → List ℝ → ℝ → Prop
  | nil : NearProd D [] [] [] [] 1
  | cons {A A' : Mat ℝ} {l l' N δ} {a d w W : ℝ} (hA : A.r = D ∧ A.c = D) (hA' : A'.r = D ∧ A'.c = D) (ha : 0 ≤ a) (hd : 0 ≤ d) (hw : 0 ≤ w)
      (h1 : ‖toMatrix D D A‖ ≤ a * w) (h2 : ‖toMatrix D D A' - toMatrix D D A‖ ≤ d * w) (h : NearProd D l l' N δ W) :
      NearProd D (A :: l) (A' :: l') (a :: N) (d :: δ) (w * W)

theorem nearP_append {D : ℕ} {l l' l2 l2' : List (Mat ℝ)} {N δ N2 δ2 : List ℝ} {W W2 : ℝ} (h : NearProd D l l' N δ W) (h2 : NearProd D l2 l2' N2 δ2 W2) :
    NearProd D (l ++ l2) (l' ++ l2') (N ++ N2) (δ ++ δ2) (W * W2) := by
  induction h with
  | nil => simpa using h2
  | cons hA hA' ha hd hw h1 h3 _ ih =>
    rw [mul_assoc]
    exact .cons hA hA' ha hd hw h1 h3 ih

theorem nearP_size {D : ℕ} {l l' : List (Mat ℝ)} {N δ : List ℝ} {W : ℝ} (h : NearProd D l l' N δ W) :
    (∀ A ∈ l, A.r = D ∧ A.c = D) ∧ (∀ A ∈ l', A.r = D ∧ A.c = D) ∧ 0 ≤ W ∧ 0 ≤ N.prod ∧ 0 ≤ (List.zipWith (· + ·) N δ).prod ∧
      N.prod ≤ (List.zipWith (· + ·) N δ).prod := by
  induction h with
  | nil => simp
  | @cons A A' l l' N δ a d w W hA hA' ha hd hw h1 h3 _ ih =>
    obtain ⟨i1, i2, i3, i4, i5, i6⟩ := ih
    refine ⟨?_, ?_, mul_nonneg hw i3, ?_, ?_, ?_⟩
    · simpa using ⟨hA, i1⟩
    · simpa using ⟨hA', i2⟩
    · simpa using mul_nonneg ha i4
    · simpa using mul_nonneg (by linarith) i5
    · simpa using mul_le_mul (by linarith) i6 i4 (by linarith)

theorem nearP_bound {D : ℕ} {l l' : List (Mat ℝ)} {N δ : List ℝ} {W : ℝ} (h : NearProd D l l' N δ W) (X : Matrix (Fin D) (Fin D) ℝ) :
    ‖X * (l'.map (toMatrix D D)).prod‖ ≤ ‖X‖ * (W * (List.zipWith (· + ·) N δ).prod) ∧
    ‖X * ((l'.map (toMatrix D D)).prod - (l.map (toMatrix D D)).prod)‖ ≤ ‖X‖ * (W * productChange N δ) := by
  induction h generalizing X with
  | nil => simp [productChange]
  | @cons A A' l l' N δ a d w W hA hA' ha hd hw h1 h2 hn ih =>
    obtain ⟨s1, s2, s3, s4, s5, s6⟩ := nearP_size hn
    have h3 : ‖toMatrix D D A'‖ ≤ (a + d) * w := by
      have : toMatrix D D A' = toMatrix D D A + (toMatrix D D A' - toMatrix D D A) := by abel
      rw [this]
      exact (norm_add_le _ _).trans (by linarith)
    have hX := norm_nonneg X
    simp only [List.map_cons, List.prod_cons, List.zipWith_cons_cons]
    set P := (l.map (toMatrix D D)).prod
    set Q := (l'.map (toMatrix D D)).prod
    set z := (List.zipWith (· + ·) N δ).prod
    constructor
    · rw [← Matrix.mul_assoc]
      refine (ih (X * toMatrix D D A')).1.trans ?_
      have : ‖X * toMatrix D D A'‖ ≤ ‖X‖ * ((a + d) * w) := (Matrix.frobenius_norm_mul _ _).trans (mul_le_mul_of_nonneg_left h3 hX)
      calc _ ≤ ‖X‖ * ((a + d) * w) * (W * z) := mul_le_mul_of_nonneg_right this (mul_nonneg s3 s5)
        _ = _ := by ring
    · have e : X * (toMatrix D D A' * Q - toMatrix D D A * P) = X * (toMatrix D D A' - toMatrix D D A) * Q + X * toMatrix D D A * (Q - P) := by
        simp only [Matrix.mul_sub, Matrix.sub_mul, Matrix.mul_assoc]
        abel
      rw [e]
      refine (norm_add_le _ _).trans ?_
      have b1 := (ih (X * (toMatrix D D A' - toMatrix D D A))).1
      have b2 := (ih (X * toMatrix D D A)).2
      have c1 : ‖X * (toMatrix D D A' - toMatrix D D A)‖ ≤ ‖X‖ * (d * w) := (Matrix.frobenius_norm_mul _ _).trans (mul_le_mul_of_nonneg_left h2 hX)
      have c2 : ‖X * toMatrix D D A‖ ≤ ‖X‖ * (a * w) := (Matrix.frobenius_norm_mul _ _).trans (mul_le_mul_of_nonneg_left h1 hX)
      have pc : 0 ≤ productChange N δ := sub_nonneg.2 s6
      calc _ ≤ ‖X‖ * (d * w) * (W * z) + ‖X‖ * (a * w) * (W * productChange N δ) :=
            add_le_add (b1.trans (mul_le_mul_of_nonneg_right c1 (mul_nonneg s3 s5))) (b2.trans (mul_le_mul_of_nonneg_right c2 (mul_nonneg s3 pc)))
        _ = _ := by
          simp only [productChange, List.zipWith_cons_cons, List.prod_cons]
          ring

/-- the products of two non-empty chains -/
theorem nearP_prod {D : ℕ} {l l' : List (Mat ℝ)} {N δ : List ℝ} {W : ℝ} (h : NearProd D l l' N δ W) (hl : l ≠ []) :
    ‖(l'.map (toMatrix D D)).prod - (l.map (toMatrix D D)).prod‖ ≤ W * productChange N δ := by
  cases h with
  | nil => exact absurd rfl hl
  | @cons A A' l l' N δ a d w W hA hA' ha hd hw h1 h2 hn =>
    obtain ⟨s1, s2, s3, s4, s5, s6⟩ := nearP_size hn
    simp only [List.map_cons, List.prod_cons]
    set P := (l.map (toMatrix D D)).prod with hP
    set Q := (l'.map (toMatrix D D)).prod with hQ
    set z := (List.zipWith (· + ·) N δ).prod with hz
    have e : toMatrix D D A' * Q - toMatrix D D A * P = (toMatrix D D A' - toMatrix D D A) * Q + toMatrix D D A * (Q - P) := by
      simp only [Matrix.mul_sub, Matrix.sub_mul]
      abel
    rw [e]
    refine (norm_add_le _ _).trans ?_
    have b1 := (nearP_bound hn (toMatrix D D A' - toMatrix D D A)).1
    have b2 := (nearP_bound hn (toMatrix D D A)).2
    have pc : 0 ≤ productChange N δ := sub_nonneg.2 s6
    calc _ ≤ (d * w) * (W * z) + (a * w) * (W * productChange N δ) :=
          add_le_add (b1.trans (mul_le_mul_of_nonneg_right h2 (mul_nonneg s3 s5))) (b2.trans (mul_le_mul_of_nonneg_right h1 (mul_nonneg s3 pc)))
      _ = _ := by
        simp only [productChange, List.zipWith_cons_cons, List.prod_cons]
        rw [← hz]
        ring

/-! ### contraction with feature vectors -/

theorem contract_le (F : ℕ) (A : ℕ → ℝ) (v : ℕ → ℝ) : (∑ f ∈ Finset.range F, A f * v f) ^ 2 ≤ (∑ f ∈ Finset.range F, A f ^ 2) * ∑ f ∈ Finset.range F, v f ^ 2 :=
  Finset.sum_mul_sq_le_sq_mul_sq _ _ _

theorem contract2_le (F : ℕ) (A : ℕ → ℕ → ℝ) (v w : ℕ → ℝ) : (∑ f ∈ Finset.range F, ∑ f' ∈ Finset.range F, A f f' * v f * w f') ^ 2 ≤
    (∑ f ∈ Finset.range F, ∑ f' ∈ Finset.range F, A f f' ^ 2) * ((∑ f ∈ Finset.range F, v f ^ 2) * ∑ f ∈ Finset.range F, w f ^ 2) := by
  have e : ∑ f ∈ Finset.range F, ∑ f' ∈ Finset.range F, A f f' * v f * w f' = ∑ f ∈ Finset.range F, (∑ f' ∈ Finset.range F, A f f' * w f') * v f := by
    refine Finset.sum_congr rfl fun f _ => ?_
    rw [Finset.sum_mul]
    exact Finset.sum_congr rfl fun f' _ => by ring
  rw [e]
  refine (contract_le F _ v).trans ?_
  have h : ∑ f ∈ Finset.range F, (∑ f' ∈ Finset.range F, A f f' * w f') ^ 2 ≤ (∑ f ∈ Finset.range F, ∑ f' ∈ Finset.range F, A f f' ^ 2) * ∑ f ∈ Finset.range F, w f ^ 2 := by
    rw [Finset.sum_mul]
    exact Finset.sum_le_sum fun f _ => contract_le F _ w
  calc _ ≤ (∑ f ∈ Finset.range F, ∑ f' ∈ Finset.range F, A f f' ^ 2) * (∑ f ∈ Finset.range F, w f ^ 2) * ∑ f ∈ Finset.range F, v f ^ 2 :=
        mul_le_mul_of_nonneg_right h (Finset.sum_nonneg fun _ _ => sq_nonneg _)
    _ = _ := by ring

theorem aff_norm (D F : ℕ) (A : ℕ → ℕ → ℕ → ℝ) (v : ℕ → ℝ) : ‖toMatrix D D (affMat D F A v (fun _ _ => 0))‖ ≤
    Real.sqrt (∑ l ∈ Finset.range D, ∑ r ∈ Finset.range D, ∑ f ∈ Finset.range F, A l r f ^ 2) * Real.sqrt (∑ f ∈ Finset.range F, v f ^ 2) := by
  unfold affMat
  rw [frob_toMatrix, ← Real.sqrt_mul (Finset.sum_nonneg fun _ _ => Finset.sum_nonneg fun _ _ => Finset.sum_nonneg fun _ _ => sq_nonneg _)]
  refine Real.sqrt_le_sqrt ?_
  rw [Finset.sum_mul]
  refine Finset.sum_le_sum fun l _ => ?_
  rw [Finset.sum_mul]
  refine Finset.sum_le_sum fun r _ => ?_
  rw [add_zero]
  exact contract_le F _ v

theorem aff_sub (D F : ℕ) (A A' : ℕ → ℕ → ℕ → ℝ) (v : ℕ → ℝ) : toMatrix D D (affMat D F A' v (fun _ _ => 0)) - toMatrix D D (affMat D F A v (fun _ _ => 0)) =
    toMatrix D D (affMat D F (fun l r f => A' l r f - A l r f) v (fun _ _ => 0)) := by
  ext i j
  simp [toMatrix, affMat, Mat.of, sub_mul, Finset.sum_sub_distrib]

theorem pair_norm (D F : ℕ) (A : ℕ → ℕ → ℕ → ℕ → ℝ) (v w : ℕ → ℝ) : ‖toMatrix D D (pairMat D F A v w)‖ ≤
    Real.sqrt (∑ l ∈ Finset.range D, ∑ r ∈ Finset.range D, ∑ f ∈ Finset.range F, ∑ f' ∈ Finset.range F, A l r f f' ^ 2) *
      (Real.sqrt (∑ f ∈ Finset.range F, v f ^ 2) * Real.sqrt (∑ f ∈ Finset.range F, w f ^ 2)) := by
  unfold pairMat
  rw [frob_toMatrix, ← Real.sqrt_mul (Finset.sum_nonneg fun _ _ => sq_nonneg _),
    ← Real.sqrt_mul (Finset.sum_nonneg fun _ _ => Finset.sum_nonneg fun _ _ => Finset.sum_nonneg fun _ _ => Finset.sum_nonneg fun _ _ => sq_nonneg _)]
  refine Real.sqrt_le_sqrt ?_
  rw [Finset.sum_mul]
  refine Finset.sum_le_sum fun l _ => ?_
  rw [Finset.sum_mul]
  exact Finset.sum_le_sum fun r _ => contract2_le F _ v w

theorem pair_sub (D F : ℕ) (A A' : ℕ → ℕ → ℕ → ℕ → ℝ) (v w : ℕ → ℝ) : toMatrix D D (pairMat D F A' v w) - toMatrix D D (pairMat D F A v w) =
    toMatrix D D (pairMat D F (fun l r f f' => A' l r f f' - A l r f f') v w) := by
  ext i j
  simp [toMatrix, pairMat, Mat.of, sub_mul, Finset.sum_sub_distrib]

end TorchMPS
