import Mathlib.Analysis.SpecialFunctions.Log.Basic
import Mathlib.Data.Fintype.Card
import Mathlib.Algebra.BigOperators.Ring.Finset
/-
Entropy of a distribution on finitely many outcomes, and the distribution of the samples in a batch.
-/
namespace TorchMPS.Spec

/-- the relative frequency of an outcome among `B` samples -/
noncomputable def frequency {ι : Type} [DecidableEq ι] {B : ℕ} (x : Fin B → ι) (a : ι) : ℝ := ((Finset.univ.filter (fun b => x b = a)).card : ℝ) / B

/-- Shannon entropy -/
noncomputable def entropy {ι : Type} [Fintype ι] (q : ι → ℝ) : ℝ := - ∑ a, q a * Real.log (q a)

/-- relative entropy (Kullback-Leibler divergence) of `q` with respect to `p`; used where `p` is not zero on the outcomes of `q` -/
noncomputable def relEntropy {ι : Type} [Fintype ι] (q p : ι → ℝ) : ℝ := ∑ a, q a * Real.log (q a / p a)

end TorchMPS.Spec
