import Verif.Model.Cost
import Mathlib.Data.Nat.Log
/-
What an evaluation of a TI_MPS should take: (multiplications, contractions one after the other), for batch size `B`, `O` outputs, bond dimension `D`, longest sequence `n`.
-/
namespace TorchMPS.Spec

/-- serially: a vector is carried through the sequence (D² multiplications for each element), then meets the terminal matrix -/
def tiSerialWork (B O D n : ℕ) : Work := (n * (B * D ^ 2) + B * (O * D), n + 1)

/-- in parallel: `n - 1` products of matrices in a tree, its product with the terminal matrix, and the initial vector -/
def tiParallelWork (B O D n : ℕ) : Work := ((n - 1) * (B * D ^ 3) + B * (O * D ^ 2) + B * (O * D), Nat.clog 2 n + 2)

end TorchMPS.Spec
