import Verif.Base.Tensor
import Mathlib.Analysis.RCLike.Basic
import Mathlib.Data.Matrix.Mul
import Mathlib.Analysis.SpecialFunctions.Log.Basic
/-
Matrices as they appear in one element of a batch.
-/
namespace TorchMPS
variable {K : Type}

/-- One matrix (the last two axes of a batched tensor at a fixed batch index). -/
structure Mat (K : Type) where
  r : ℕ
  c : ℕ
  e : ℕ → ℕ → K

namespace Mat

/-- Same size and same in-range entries. -/
def Eqv (A B : Mat K) : Prop :=
  A.r = B.r ∧ A.c = B.c ∧ ∀ i < A.r, ∀ j < A.c, A.e i j = B.e i j

/-- one matrix product of `torch.matmul`; only meaningful when `A.c = B.r` (torch raises RuntimeError
otherwise, see the callers) -/
def mul [Semiring K] (A B : Mat K) : Mat K :=
  ⟨A.r, B.c, fun i j => ∑ k ∈ Finset.range A.c, A.e i k * B.e k j⟩

/-- `m.transpose(-2, -1)` -/
def transpose (A : Mat K) : Mat K := ⟨A.c, A.r, fun i j => A.e j i⟩

/-- `torch.eye(n)` -/
def eye [Semiring K] (n : ℕ) : Mat K := ⟨n, n, fun i j => if i = j then 1 else 0⟩

/-- `m.abs().sum(dim=(-2, -1))` -/
noncomputable def absSum [RCLike K] (A : Mat K) : ℝ :=
  ∑ i ∈ Finset.range A.r, ∑ j ∈ Finset.range A.c, ‖A.e i j‖

/-- `m / s` for a real `s` -/
noncomputable def divReal [RCLike K] (A : Mat K) (s : ℝ) : Mat K :=
  ⟨A.r, A.c, fun i j => A.e i j / (s : K)⟩

/-- `m * s` for a scalar `s` -/
def smul [Semiring K] (s : K) (A : Mat K) : Mat K := ⟨A.r, A.c, fun i j => s * A.e i j⟩

/-- A matrix from its entries. Out-of-range entries do not exist in torch; they are set to 0, so that matrices
with the same size and entries are equal. -/
def of [Zero K] (r c : ℕ) (f : ℕ → ℕ → K) : Mat K :=
  ⟨r, c, fun i j => if i < r ∧ j < c then f i j else 0⟩

end Mat

/-- A tensor seen as a batch of matrices: the sizes of the last two axes, and the entries at
every batch index. -/
structure BMat (K : Type) where
  r : ℕ
  c : ℕ
  e : List ℕ → ℕ → ℕ → K

/-- The matrix at batch index `b`. -/
def BMat.at [Zero K] (A : BMat K) (b : List ℕ) : Mat K := Mat.of A.r A.c (A.e b)

end TorchMPS
