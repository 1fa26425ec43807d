import Mathlib.LinearAlgebra.Vandermonde
import Mathlib.LinearAlgebra.Matrix.Diagonal
import Verif.Props.Closure
/-
C115: the bond dimensions of the sum and of the product of two translation-invariant models cannot be lowered in general.
-/
namespace TorchMPS
open Spec Matrix
variable {K : Type}

/-- a sum of exponentials of the length of a word -/
def expSum [Field K] {D : ℕ} (a : Fin D → ℕ) {M : ℕ} (w : List (Fin M)) (_ : Fin 1) : K := ∑ k, ((2 : K) ^ a k) ^ w.length

theorem expSum_hankel [Field K] {D M : ℕ} (a : Fin D → ℕ) : HankelLe (expSum (K := K) (M := M) a) D := by
  refine hankel_of_factor _ _ (Fintype.card_fin D) (fun u k => ((2 : K) ^ a k) ^ u.length) (fun v _ k => ((2 : K) ^ a k) ^ v.length) (fun u v o => ?_)
  simp only [expSum, List.length_append, pow_add]

theorem expSum_least [Field K] [CharZero K] {D M : ℕ} (hM : 1 ≤ M) (a : Fin D → ℕ) (ha : Function.Injective a) (m : TiMps K) (h : IsTi m) (v : Fin M → ℕ → K) (e : m.outputDim = 1)
    (hr : TiReturns m v (expSum (K := K) a)) : D ≤ m.bondDim := by
  have key : ∀ O (_ : m.outputDim = O) (c : List (Fin M) → Fin O → K), TiReturns m v c → ∀ o, (Matrix.of fun i j : Fin D => c (List.replicate i (⟨0, hM⟩ : Fin M) ++ List.replicate (j + 1) ⟨0, hM⟩) o).rank ≤ m.bondDim := by
    rintro _ rfl c hc o
    exact (C99_rank_bound m h v c hc).2 (Fin D) (Fin D) (fun i => List.replicate i ⟨0, hM⟩) (fun j => List.replicate (j + 1) ⟨0, hM⟩) (fun _ => o) (fun i j h0 => by
      have := congrArg List.length h0
      simp at this)
  have h1 := key 1 e _ hr 0
  set x : Fin D → K := fun k => (2 : K) ^ a k with hx
  have hinj : Function.Injective x := by
    intro i j hij
    refine ha ?_
    have h2 : ((2 ^ a i : ℕ) : K) = ((2 ^ a j : ℕ) : K) := by push_cast; exact hij
    exact Nat.pow_right_injective le_rfl (Nat.cast_injective h2)
  have hm : (Matrix.of fun i j : Fin D => expSum (K := K) a (List.replicate i (⟨0, hM⟩ : Fin M) ++ List.replicate (j + 1) ⟨0, hM⟩) 0) = (vandermonde x)ᵀ * (diagonal x * vandermonde x) := by
    ext i j
    rw [Matrix.of_apply, Matrix.mul_apply, expSum]
    refine Finset.sum_congr rfl fun k _ => ?_
    rw [Matrix.transpose_apply, Matrix.diagonal_mul, vandermonde_apply, vandermonde_apply]
    simp only [List.length_append, List.length_replicate, hx]
    ring
  have hu : IsUnit ((vandermonde x)ᵀ * (diagonal x * vandermonde x)) := by
    rw [Matrix.isUnit_iff_isUnit_det, Matrix.det_mul, Matrix.det_mul, Matrix.det_transpose, Matrix.det_diagonal, isUnit_iff_ne_zero]
    have hv := det_vandermonde_ne_zero_iff.2 hinj
    refine mul_ne_zero hv (mul_ne_zero (Finset.prod_ne_zero_iff.2 fun k _ => pow_ne_zero _ two_ne_zero) hv)
  rw [hm, Matrix.rank_of_isUnit _ hu, Fintype.card_fin] at h1
  exact h1

theorem expSum_model [Field K] {D M : ℕ} (a : Fin D → ℕ) (F : ℕ) (v : Fin M → ℕ → K) (hv : LinearIndependent K (fun a (f : Fin F) => v a f)) :
    ∃ m : TiMps K, IsTi m ∧ m.bondDim = D ∧ m.outputDim = 1 ∧ TiReturns m v (expSum (K := K) (M := M) a) := by
  obtain ⟨m, h1, h2, _, h4, _, _, _, _, h9⟩ := (C99_exactly D F v hv true true true none (expSum (K := K) (M := M) a)).2 ⟨expSum (M := M) a [], by
    have : withEmpty (expSum (K := K) (M := M) a) (expSum (M := M) a []) = expSum a := by
      funext w o
      cases w <;> rfl
    rw [this]
    exact expSum_hankel a⟩
  exact ⟨m, h1, h2, h4, h9⟩

/-- C115: sharpness. For all `D` and `D'` there are two models of these bond dimensions such that no model of a bond dimension below `D + D'` returns the sum of their outputs, and two such that none of a
bond dimension below `D * D'` returns the product (over fields of characteristic 0, such as the reals). -/
theorem C115_ti_sharp [Field K] [CharZero K] {M : ℕ} (hM : 1 ≤ M) (D D' F : ℕ) (v : Fin M → ℕ → K) (hv : LinearIndependent K (fun a (f : Fin F) => v a f)) :
    (∃ (m m' : TiMps K) (c c' : List (Fin M) → Fin 1 → K), IsTi m ∧ IsTi m' ∧ m.bondDim = D ∧ m'.bondDim = D' ∧ m.outputDim = 1 ∧ m'.outputDim = 1 ∧ TiReturns m v c ∧ TiReturns m' v c' ∧
      ∀ (s : TiMps K) (u : Fin M → ℕ → K), IsTi s → s.outputDim = 1 → TiReturns s u (fun w o => c w o + c' w o) → D + D' ≤ s.bondDim) ∧
    (∃ (m m' : TiMps K) (c c' : List (Fin M) → Fin 1 → K), IsTi m ∧ IsTi m' ∧ m.bondDim = D ∧ m'.bondDim = D' ∧ m.outputDim = 1 ∧ m'.outputDim = 1 ∧ TiReturns m v c ∧ TiReturns m' v c' ∧
      ∀ (s : TiMps K) (u : Fin M → ℕ → K), IsTi s → s.outputDim = 1 → TiReturns s u (fun w o => c w o * c' w o) → D * D' ≤ s.bondDim) := by
  constructor
  · obtain ⟨m, h1, h2, h3, h4⟩ := expSum_model (fun k : Fin D => k.val) F v hv
    obtain ⟨m', k1, k2, k3, k4⟩ := expSum_model (fun k : Fin D' => D + k.val) F v hv
    refine ⟨m, m', _, _, h1, k1, h2, k2, h3, k3, h4, k4, fun s u hs hO hr => ?_⟩
    refine expSum_least hM (fun k : Fin (D + D') => k.val) Fin.val_injective s hs u hO ?_
    convert hr using 3 with w o
    simp only [expSum, Fin.sum_univ_add, Fin.val_castAdd, Fin.val_natAdd]
  · obtain ⟨m, h1, h2, h3, h4⟩ := expSum_model (fun k : Fin D => D' * k.val) F v hv
    obtain ⟨m', k1, k2, k3, k4⟩ := expSum_model (fun k : Fin D' => k.val) F v hv
    refine ⟨m, m', _, _, h1, k1, h2, k2, h3, k3, h4, k4, fun s u hs hO hr => ?_⟩
    refine expSum_least hM (fun k : Fin (D * D') => k.val) Fin.val_injective s hs u hO ?_
    convert hr using 3 with w o
    simp only [expSum]
    rw [Finset.sum_mul_sum, ← Fintype.sum_prod_type', ← finProdFinEquiv.sum_comp]
    refine Finset.sum_congr rfl fun k _ => ?_
    rw [← mul_pow, ← pow_add, finProdFinEquiv_apply_val, add_comm]

/-- with sequences of zeros and ones and the default feature map: a sum of models of bond dimensions 2 and 3 which needs 5, and a product which needs 6 -/
example := C115_ti_sharp (K := ℝ) (M := 2) (by norm_num) 2 3 2 bitFeature bitFeature_independent

end TorchMPS
