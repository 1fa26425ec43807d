import Verif.Props.Slices
import Verif.Lemmas.Mat
/-
From chains of matrices of the model to the amplitude of the specification; `slim_eval_fun`.
-/
namespace TorchMPS
open Spec
variable {K : Type}

/-- a row vector -/
def rowMat [Zero K] {D : ℕ} (l : Fin D → K) : Mat K := ofMatrix (Matrix.of fun (_ : Fin 1) j => l j)

/-- a column vector -/
def colMat [Zero K] {D : ℕ} (r : Fin D → K) : Mat K := ofMatrix (Matrix.of fun i (_ : Fin 1) => r i)

theorem ofMatrix_mul [Semiring K] {n k m : ℕ} (A : Matrix (Fin n) (Fin k) K) (B : Matrix (Fin k) (Fin m) K) :
    (ofMatrix A).mul (ofMatrix B) = ofMatrix (A * B) := by
  have : ∀ i j, ((ofMatrix A).mul (ofMatrix B)).e i j = (ofMatrix (A * B)).e i j := by
    intro i j
    simp only [Mat.mul, ofMatrix]
    by_cases h : i < n ∧ j < m
    · rw [dif_pos h, Matrix.mul_apply, ← Fin.sum_univ_eq_sum_range
        (fun k' => (if h : i < n ∧ k' < k then A ⟨i, h.1⟩ ⟨k', h.2⟩ else 0) *
          (if h : k' < k ∧ j < m then B ⟨k', h.1⟩ ⟨j, h.2⟩ else 0)) k]
      refine Finset.sum_congr rfl fun x _ => ?_
      rw [dif_pos ⟨h.1, x.2⟩, dif_pos ⟨x.2, h.2⟩]
    · rw [dif_neg h]
      refine Finset.sum_eq_zero fun x hx => ?_
      by_cases hi : i < n
      · have : ¬ j < m := fun hj => h ⟨hi, hj⟩
        rw [dif_neg (fun hh : x < k ∧ j < m => this hh.2), mul_zero]
      · rw [dif_neg (fun hh : i < n ∧ x < k => hi hh.1), zero_mul]
  show Mat.mk _ _ _ = Mat.mk _ _ _
  congr 1
  funext i j
  exact this i j

theorem matProd_rowMat [CommSemiring K] {D : ℕ} (l : Fin D → K) (Ms : List (Matrix (Fin D) (Fin D) K)) :
    matProd (rowMat l) (Ms.map ofMatrix) = rowMat (Matrix.vecMul l Ms.prod) := by
  induction Ms generalizing l with
  | nil => simp [matProd]
  | cons A Ms ih =>
    simp only [List.map_cons, matProd_cons]
    have : (rowMat l).mul (ofMatrix A) = rowMat (Matrix.vecMul l A) := by
      unfold rowMat
      rw [ofMatrix_mul]; rfl
    rw [this, ih, Matrix.vecMul_vecMul, List.prod_cons]

theorem matProd_amplitude [CommSemiring K] {D : ℕ} (l r : Fin D → K) (Ms : List (Matrix (Fin D) (Fin D) K)) :
    ((matProd (rowMat l) (Ms.map ofMatrix)).mul (colMat r)).e 0 0 = amplitude l r Ms := by
  rw [matProd_rowMat]
  unfold rowMat colMat
  rw [ofMatrix_mul]
  simp only [ofMatrix, Nat.lt_one_iff, true_and, and_self, dite_true]
  rw [amplitude, Matrix.dotProduct_mulVec]
  rfl

theorem isZero_rowMat [Semiring K] {D : ℕ} (l : Fin D → K) : IsZero (rowMat l) ↔ l = 0 := by
  constructor
  · intro h
    funext j
    have := h 0 (by simp [rowMat, ofMatrix]) j j.2
    simpa [rowMat, ofMatrix] using this
  · rintro rfl i hi j hj
    simp [rowMat, ofMatrix]

theorem slimStep_none [RCLike K] (D : ℕ) (ms : List (Mat K)) :
    ms.foldl (slimStep D) (none : Option (Mat K × ℝ)) = none := by
  induction ms with
  | nil => rfl
  | cons a ms ih => exact ih

theorem slim_loop [RCLike K] (D : ℕ) (hD : D ≠ 0) (p : Mat K) (l : ℝ) (ms : List (Mat K)) :
    (ms.foldl (slimStep D) (some (p, l)) = none ↔ ms ≠ [] ∧ IsZero (matProd p ms)) ∧
    ∀ P s, ms.foldl (slimStep D) (some (p, l)) = some (P, s) →
      P.smul (Real.exp s : K) = (matProd p ms).smul (Real.exp l : K) := by
  have hD' : (D : ℝ) ≠ 0 := by exact_mod_cast hD
  have hiff : ∀ A : Mat K, A.absSum / (D : ℝ) = 0 ↔ IsZero A := by
    intro A
    rw [← Mat.absSum_eq_zero_iff, div_eq_zero_iff]
    exact ⟨fun h => h.resolve_right hD', Or.inl⟩
  induction ms generalizing p l with
  | nil =>
    refine ⟨by simp, ?_⟩
    intro P s h
    simp only [List.foldl_nil, Option.some.injEq, Prod.mk.injEq] at h
    rw [h.1, h.2]; rfl
  | cons a ms ih =>
    simp only [List.foldl_cons, slimStep]
    by_cases hz : IsZero (p.mul a)
    · rw [if_pos ((hiff _).2 hz), slimStep_none]
      refine ⟨by simp [matProd_cons, hz.matProd], fun P s h => absurd h (by simp)⟩
    · have hr : (p.mul a).absSum / (D : ℝ) ≠ 0 := fun h => hz ((hiff _).1 h)
      rw [if_neg hr]
      set r := (p.mul a).absSum / (D : ℝ) with hrd
      have hpos : 0 < r := lt_of_le_of_ne
        (div_nonneg (Mat.absSum_nonneg _) (Nat.cast_nonneg D)) (Ne.symm hr)
      have hrK : ((r : K))⁻¹ ≠ 0 := inv_ne_zero (by exact_mod_cast hr)
      obtain ⟨h1, h2⟩ := ih ((p.mul a).divReal r) (l + Real.log r)
      rw [Mat.divReal_eq_smul, matProd_smul] at h1 h2
      refine ⟨?_, ?_⟩
      · rw [Mat.divReal_eq_smul, h1, isZero_smul_iff _ hrK, matProd_cons]
        constructor
        · rintro ⟨-, h⟩; exact ⟨by simp, h⟩
        · rintro ⟨-, h⟩
          refine ⟨?_, h⟩
          rintro rfl
          exact hz h
      · intro P s h
        rw [Mat.divReal_eq_smul] at h
        rw [h2 P s h, Mat.smul_smul, matProd_cons]
        congr 1
        rw [Real.exp_add, Real.exp_log hpos]
        have : (r : K) ≠ 0 := by exact_mod_cast hr
        push_cast
        field_simp

end TorchMPS
