import Verif.Model.Cost
import Mathlib.Data.Nat.Log
/-
How much work an evaluation of an MPS takes: formulas in the number `n` of pixels, the label site `k`, the batch size `B`, the number `O` of outputs, the bond dimension
`D` and the feature dimension `F`. A pair `Work` is (multiplications, contractions done one after the other).
-/
namespace TorchMPS.Spec

/-- `w` if the region has pixels, nothing otherwise -/
def ifSites (n : ℕ) (w : Work) : Work := if n = 0 then (0, 0) else w

/-- Contraction of the features of all pixels with their cores: one batched contraction for each of the two regions. -/
def featureWork (B D F n k : ℕ) : Work :=
  ifSites k (k * (B * D ^ 2 * F), 1) + ifSites (n - k) ((n - k) * (B * D ^ 2 * F), 1)

/-- Serial evaluation, open boundaries: a matrix-vector product for each pixel, then the output core with the vectors of both sides. -/
def serialWork (B O D n : ℕ) : Work := (n * (B * D ^ 2) + B * (O * D ^ 2) + B * (O * D), n + 2)

/-- The tree of matrix products of a region of `n` pixels. -/
def treeWork (B D n : ℕ) : Work := ((n - 1) * (B * D ^ 3), Nat.clog 2 n)

/-- Parallel evaluation, open boundaries: a tree of matrix products for each region, then their products with the vectors and with the output core. -/
def parallelWork (B O D n k : ℕ) : Work :=
  ifSites k (treeWork B D k + (B * (O * D ^ 2), 1)) + ifSites (n - k) (treeWork B D (n - k) + (B * D ^ 2, 1)) +
    (B * (O * D ^ 2) + B * (O * D), 2)

/-- Periodic boundaries: a tree of matrix products for each region, whose result is multiplied with all matrices of the output core. -/
def ringWork (B O D n k : ℕ) : Work :=
  ifSites k (treeWork B D k + (B * (O * D ^ 3), 1)) + ifSites (n - k) (treeWork B D (n - k) + (B * (O * D ^ 3), 1))

end TorchMPS.Spec
