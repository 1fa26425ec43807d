import Verif.Spec.Contract
import Mathlib.Analysis.RCLike.Basic
import Mathlib.Analysis.Real.Sqrt
/-
Specification of the scale factors of the stable evaluations.
-/
namespace TorchMPS.Spec
variable {K : Type}

/-- the sum of the absolute values of the entries of a matrix -/
noncomputable def entrySum [RCLike K] (A : Mat K) : ℝ := ∑ i ∈ Finset.range A.r, ∑ j ∈ Finset.range A.c, ‖A.e i j‖

/-- the scale of a matrix in the sequential evaluation: `Σ |entries| / sqrt(rows * columns)` -/
noncomputable def seqScale [RCLike K] (A : Mat K) : ℝ := entrySum A / Real.sqrt (A.r * A.c)

/-- the scale of a square matrix in the parallel evaluation: `Σ |entries| / columns` -/
noncomputable def parScale [RCLike K] (A : Mat K) : ℝ := entrySum A / A.c

end TorchMPS.Spec
