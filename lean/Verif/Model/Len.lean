import Verif.Model.Adaptive
/-
`len` and `core_len` of an `MPS`.
-/
namespace TorchMPS
variable {K : Type}

/-- `core_len` of a list of modules, torchmps/torchmps.py:690-694 and :977-981 -/
def modulesCoreLen (ms : List (Module K)) : ℕ := (ms.map Module.coreLen).sum

/-- `MPS.__len__`, torchmps/torchmps.py:578-582 -/
def MPS.len (m : MPS K) : ℕ := m.inputDim

/-- `MPS.core_len`, torchmps/torchmps.py:572-576, without adaptive mode -/
def MPS.coreLen (m : MPS K) : ℕ := modulesCoreLen m.modules

/-- `len(mps.linear_region)`, torchmps/torchmps.py:696-700 -/
def MPS.regionLen (m : MPS K) : ℕ := modulesLen m.modules

/-- `MPS.__len__`, torchmps/torchmps.py:578-582, in adaptive mode -/
def AdMps.len (m : AdMps) : ℕ := m.mps.inputDim

/-- `MPS.core_len`, torchmps/torchmps.py:572-576, in adaptive mode: the sum over the active list -/
def AdMps.coreLen (m : AdMps) : ℕ := modulesCoreLen m.region.active

/-- `len(mps.linear_region)`, torchmps/torchmps.py:983-987, in adaptive mode -/
def AdMps.regionLen (m : AdMps) : ℕ := modulesLen m.region.active

end TorchMPS
