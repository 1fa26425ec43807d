import Verif.Model.Cost
import Verif.Spec.Contract
import Mathlib.Data.Nat.Log
/-
How many multiplications the products of chains of matrices take.
-/
namespace TorchMPS.Spec

/-- multiplications for an `r × a₀` matrix times an `a₀ × a₁` matrix, the result times an `a₁ × a₂` matrix and so on; the list is `[a₀, a₁, ...]` -/
def rowCost (r : ℕ) : List ℕ → ℕ
  | a :: b :: ds => r * a * b + rowCost r (b :: ds)
  | _ => 0

/-- multiplications for the product of matrices of sizes `d₀ × d₁`, `d₁ × d₂`, ... from left to right -/
def leftCost : List ℕ → ℕ
  | [] => 0
  | d :: ds => rowCost d ds

/-- multiplications for the same product from right to left -/
def rightCost (ds : List ℕ) : ℕ := leftCost ds.reverse

/-- the sizes `d₀, d₁, ...` of a chain of matrices -/
def chainSizes {K : Type} (m : Mat K) (ms : List (Mat K)) : List ℕ := m.r :: (m :: ms).map Mat.c

/-- a tensor into which no work went yet -/
def NoWork (t : Tensor Work) : Prop := ∀ idx, t.get idx = 0

/-- the same for the matrices given to `contract_matseq` -/
def NoWorkSeq : TensorSeq Work → Prop
  | .single t => NoWork t
  | .seq ts => ∀ t ∈ ts, NoWork t

/-- multiplications for applying boundary vectors to a `D × D` matrix: `D²` for the first vector, `D` for the second -/
def vecCost {K : Type} (D : ℕ) : Option (Tensor K) → Option (Tensor K) → ℕ
  | none, none => 0
  | some _, some _ => D ^ 2 + D
  | _, _ => D ^ 2

/-- the number of boundary vectors -/
def vecCount {K : Type} (lv rv : Option (Tensor K)) : ℕ := lv.toList.length + rv.toList.length

end TorchMPS.Spec
