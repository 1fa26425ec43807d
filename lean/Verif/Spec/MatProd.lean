import Verif.Base.Mat
/-
Specification: ordered products of matrices.
-/
namespace TorchMPS.Spec
variable {K : Type}

/-- All entries vanish. -/
def IsZero [Semiring K] (A : Mat K) : Prop := ∀ i < A.r, ∀ j < A.c, A.e i j = 0

/-- The ordered product `m * m₁ * m₂ * ...` of a non-empty list of matrices. -/
def matProd [Semiring K] (m : Mat K) (ms : List (Mat K)) : Mat K := ms.foldl Mat.mul m

/-- consecutive sizes agree: the product of the chain is defined -/
def ChainOK : List (Mat K) → Prop
  | [] => True
  | [_] => True
  | a :: b :: l => a.c = b.r ∧ ChainOK (b :: l)

/-- A matrix of the model as a Mathlib matrix. -/
def toMatrix (n m : ℕ) (A : Mat K) : Matrix (Fin n) (Fin m) K := fun i j => A.e i j

/-- A Mathlib matrix as a matrix of the model. -/
def ofMatrix [Zero K] {n m : ℕ} (A : Matrix (Fin n) (Fin m) K) : Mat K :=
  ⟨n, m, fun i j => if h : i < n ∧ j < m then A ⟨i, h.1⟩ ⟨j, h.2⟩ else 0⟩

end TorchMPS.Spec
