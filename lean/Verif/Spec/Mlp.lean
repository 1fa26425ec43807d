import Verif.Model.Mlp
import Verif.Spec.Embedding
/-
Specification of multilayer perceptrons.
-/
namespace TorchMPS.Spec

/-- The sizes of the layers fit: the first takes vectors with `a` components, each takes what the preceding one returns, the
last returns vectors with `b` components. -/
def Chained (a b : ℕ) : List LinearLayer → Prop
  | [] => a = b
  | l :: ls => l.inDim = a ∧ Chained l.outDim b ls

/-- the vector computed by the layers `y ↦ σ(W y + b)`, `σ(z) = 1 / (1 + e^(-z))` -/
noncomputable def mlpFun : List LinearLayer → (ℕ → ℝ) → ℕ → ℝ
  | [], y => y
  | l :: ls, y => mlpFun ls fun i => 1 / (1 + Real.exp (-(∑ j ∈ Finset.range l.inDim, l.weight i j * y j + l.bias i)))

/-- the quadrature sum of the product of components `i` and `j` of a feature map: the entries of the lambda matrix -/
noncomputable def overlap (lo hi : ℝ) (v : ℝ → ℕ → ℝ) (i j : ℕ) : ℝ :=
  ∑ a ∈ Finset.range 1000, trapWeight lo hi 999 a * (v (gridPoint lo hi 999 a) i * v (gridPoint lo hi 999 a) j)

end TorchMPS.Spec
