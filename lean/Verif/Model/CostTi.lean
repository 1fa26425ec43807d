import Verif.Model.CostMps
import Verif.Model.TiMps
/-
The work of `TI_MPS.forward` (`Model/TiMps.lean`), counted as in `Model/CostMps.lean`.
-/
namespace TorchMPS
variable {K : Type}

/-- `TI_MPS.forward`, torchmps.py:79-115, with its work: the contraction of the core with the inputs, and the reduction of [initial vector, region, terminal matrix].
(What a registered feature map does is up to the user.) The result is that of `TiMps.forward`: `C106_run`. -/
def TiMps.run [CommRing K] (m : TiMps K) (inp : TiInput K) : CW (Tensor K) := do
  let x ← CW.of (0, 0) (CM.lift (m.formatInput inp))
  let core ← CW.of (0, 0) (CM.lift ((m.core.unsqueeze 0).expand [x.shape.getD 1 0, m.bondDim, m.bondDim, m.featureDim]))
  let r ← CW.of (0, 0) (CM.lift (mkInputRegion core m.useBias m.biasMat))
  let c ← CW.of (r.work x) (r.forward x)
  let e ← CW.of (0, 0) (mkEdgeVec m.initVec true)
  let t ← CW.of (0, 0) (mkOutputMat m.termMat false)
  let (o, _) ← listRun [e, c, t] m.parallel
  CW.of (0, 0) (CM.lift (assert (o.bondStr = ['b', 'o'])))
  CW.of (0, 0) (CM.lift (assert (o.tensor.shape.getD 0 0 = x.shape.getD 0 0)))
  CW.of (0, 0) (CM.lift (assert (o.tensor.shape.getD 1 0 = m.outputDim)))
  return o.tensor

end TorchMPS
