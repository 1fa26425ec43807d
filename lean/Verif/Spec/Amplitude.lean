import Verif.Base.Tensor
import Mathlib.Analysis.RCLike.Basic
import Mathlib.Data.Matrix.Mul
/-
Specification of the amplitude of a matrix product state and of the sums of its squared modulus.
-/
namespace TorchMPS.Spec
variable {K : Type}

/-- Slice `k` of the core of site `s`: cores of rank 3 are shared by all sites, cores of rank 4 have one
rank-3 core per site. -/
def coreMat (core : Tensor K) (D : ℕ) (s k : ℕ) : Matrix (Fin D) (Fin D) K := Matrix.of fun i j =>
  if core.shape.length = 3 then core.get [k, i, j] else core.get [s, k, i, j]

/-- The transition matrix of site `s` for the feature vector `v`: `∑ k, v k * core_s[k]`. -/
def featMat [CommSemiring K] (core : Tensor K) (d D : ℕ) (s : ℕ) (v : ℕ → K) :
    Matrix (Fin D) (Fin D) K := ∑ k ∈ Finset.range d, v k • coreMat core D s k

/-- `lᵀ M₁ M₂ ... Mₙ r` (no conjugation) -/
def amplitude [CommSemiring K] {D : ℕ} (l r : Fin D → K) (Ms : List (Matrix (Fin D) (Fin D) K)) : K :=
  dotProduct l (Ms.prod.mulVec r)

/-- row `i` of the matrix of boundary vectors -/
def boundVec (bound : Tensor K) (D i : ℕ) : Fin D → K := fun j => bound.get [i, j]

/-- a core tensor for sequences of length `n` (any length for rank 3), input dimension `d`, bond dimension `D` -/
def CoreShape (core : Tensor K) (n d D : ℕ) : Prop := core.shape = [d, D, D] ∨ core.shape = [n, d, D, D]

/-- the squared L2 norm of the amplitude tensor: the sum over all `d ^ n` index sequences -/
noncomputable def normSq [RCLike K] (core bound : Tensor K) (n d D : ℕ) : ℝ :=
  ∑ x : Fin n → Fin d, ‖amplitude (boundVec bound D 0) (boundVec bound D 1)
    (List.ofFn fun s : Fin n => coreMat core D s (x s))‖ ^ 2

/-- the weighted sum of the squared modulus over all sequences of feature vectors from a finite family -/
noncomputable def weightedNormSq [RCLike K] {ι : Type} [Fintype ι] (core bound : Tensor K) (n d D : ℕ)
    (w : ι → ℝ) (v : ι → ℕ → K) : ℝ :=
  ∑ x : Fin n → ι, (∏ s, w (x s)) * ‖amplitude (boundVec bound D 0) (boundVec bound D 1)
    (List.ofFn fun s : Fin n => featMat core d D s (v (x s)))‖ ^ 2

/-- the matrix `Λ` denoted by the three accepted formats of `lamb_mat` (identity when absent) -/
def LambdaIs [RCLike K] (lamb : Option (Tensor K)) (d : ℕ) (Λ : ℕ → ℕ → K) : Prop :=
  match lamb with
  | none => ∀ i < d, ∀ j < d, Λ i j = if i = j then 1 else 0
  | some t => (t.shape = [] ∧ ∀ i < d, ∀ j < d, Λ i j = if i = j then t.get [] else 0) ∨
    (t.shape = [d] ∧ ∀ i < d, ∀ j < d, Λ i j = if i = j then t.get [i] else 0) ∨
    (t.shape = [d, d] ∧ ∀ i < d, ∀ j < d, Λ i j = t.get [i, j])

/-- the admissible `length` arguments of `get_log_norm` for sequences of length `n`: required for a shared
core (rank 3), optional for cores with a site axis -/
def LengthArg (core : Tensor K) (n : ℕ) (length : Option ℤ) : Prop :=
  (core.shape.length = 3 ∧ length = some n) ∨ (core.shape.length = 4 ∧ (length = none ∨ length = some n))

end TorchMPS.Spec
