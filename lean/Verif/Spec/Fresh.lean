import Verif.Spec.Gauge
/-
Specification of newly constructed models.
-/
namespace TorchMPS.Spec

/-- All Gaussian draws which the constructor uses are at most `Z` in absolute value. -/
structure DrawsBounded (d : Draws) (n k O D F : ℕ) (Z : ℝ) : Prop where
  nonneg : 0 ≤ Z
  left : ∀ i < k, ∀ l < D, ∀ r < D, ∀ f < F, |d.left [i, l, r, f]| ≤ Z
  right : ∀ i < n - k, ∀ l < D, ∀ r < D, ∀ f < F, |d.right [i, l, r, f]| ≤ Z
  out : ∀ o < O, ∀ l < D, ∀ r < D, |d.out [o, l, r]| ≤ Z

/-- All feature vectors of an embedded input have 1-norm at most `X`. -/
def FeaturesBounded (e : Tensor ℝ) (n F : ℕ) (X : ℝ) : Prop :=
  ∀ b < e.shape.getD 0 0, ∀ i < n, ∑ f ∈ Finset.range F, |e.get [b, i, f]| ≤ X

/-- All feature vectors of an embedded input sum to 1, as those of the default embedding `x -> [x, 1 - x]` do. -/
def FeaturesSumOne (e : Tensor ℝ) (n F : ℕ) : Prop :=
  ∀ b < e.shape.getD 0 0, ∀ i < n, ∑ f ∈ Finset.range F, e.get [b, i, f] = 1

/-- The `label_site` argument means site `k`. -/
def IsLabel (a : MpsArgs) (k : ℕ) : Prop := k ≤ a.inputDim ∧ (a.labelSite = some (k : ℤ) ∨ (a.labelSite = none ∧ k = a.inputDim / 2))

end TorchMPS.Spec
