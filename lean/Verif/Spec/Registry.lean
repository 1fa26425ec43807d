import Verif.Model.Registry
import Verif.Spec.MpsFn
import Verif.Spec.TiMps
import Verif.Spec.ProbMps
import Verif.Spec.AdaptiveHeap
/-
C87 - C89: saving and loading models.
-/
namespace TorchMPS.Spec
variable {K : Type}

/-- two models were made with the same arguments; the values of the parameters and the registered feature maps may differ -/
structure SameArgs (m m' : MPS K) : Prop where
  inputDim : m.inputDim = m'.inputDim
  outputDim : m.outputDim = m'.outputDim
  bondDim : m.bondDim = m'.bondDim
  featureDim : m.featureDim = m'.featureDim
  periodic : m.periodic = m'.periodic
  parallel : m.parallel = m'.parallel
  path : m.path = m'.path

/-- entries with the same names and shapes -/
def SameEntries (d d' : StateDict K) : Prop := ∀ (k : Key) (s : List ℕ), (∃ t, (k, t) ∈ d ∧ t.shape = s) ↔ ∃ t, (k, t) ∈ d' ∧ t.shape = s

/-- the parameters of an embedded callable have distinct names -/
def ProbObject.Named (m : ProbObject K) : Prop := ∀ e ∈ m.embedding, e.wrapped.names.Nodup ∧ e.values.length = e.wrapped.names.length

/-- the names and shapes of the parameters of the embedded callable, as far as they are registered -/
def embEntries (m : ProbObject K) : List (String × List ℕ) :=
  match m.embedding with
  | some e => if e.trainable then [] else e.wrapped.names.zip (e.values.map (·.shape))
  | none => []

/-- a training history: arbitrary changes of the parameters known to an optimiser made with `parameters()` -/
def afterSteps (m : ProbObject K) : List (Key → Tensor K → Tensor K) → ProbObject K
  | [] => m
  | f :: fs => afterSteps (m.step f) fs

end TorchMPS.Spec
