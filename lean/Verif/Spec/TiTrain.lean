import Verif.Spec.TiGrad
import Verif.Spec.TrainGrad
/-
C111: TI_MPS models with another initial vector or terminal matrix.
-/
namespace TorchMPS.Spec

/-- `m` with the initial vector `v` -/
def setInit {K : Type} (m : TiMps K) (v : ℕ → K) : TiMps K := { m with initVec := ⟨[m.bondDim], fun idx => v (idx.getD 0 0)⟩ }

/-- `m` with the terminal matrix `T` (rows: bond, columns: outputs) -/
def setTerm {K : Type} (m : TiMps K) (T : ℕ → ℕ → K) : TiMps K := { m with termMat := ⟨[m.bondDim, m.outputDim], fun idx => T (idx.getD 0 0) (idx.getD 1 0)⟩ }

end TorchMPS.Spec
