import Verif.Spec.Sens
import Verif.Spec.ProbMps
/-
The quantities in the bounds on the effect of changed parameters on probability distributions.
-/
namespace TorchMPS.Spec
variable {K : Type} [RCLike K]

/-- the model with the absolute values of all parameters, bias included -/
noncomputable def absProb (m : ProbMPS K) : ProbMPS ℝ := ⟨m.uniform, absT m.core, absT m.edge, m.bias.map absT, none⟩

/-- the model with the absolute values of all parameters, each increased by the amount it is changed by -/
noncomputable def wideProb (m m' : ProbMPS K) : ProbMPS ℝ := ⟨m.uniform, wideT m.core m'.core, wideT m.edge m'.edge, wideBias m.bias m'.bias, none⟩

/-- both matrices are absent, or related -/
def OnBias (P : Tensor K → Tensor K → Prop) : Option (Tensor K) → Option (Tensor K) → Prop
  | none, none => True
  | some b, some b' => P b b'
  | _, _ => False

/-- a statement about all parameters of two models of one class -/
def AllProb (P : Tensor K → Tensor K → Prop) (m m' : ProbMPS K) : Prop :=
  m'.uniform = m.uniform ∧ P m.core m'.core ∧ P m.edge m'.edge ∧ OnBias P m.bias m'.bias

/-- all parameters are nonnegative -/
def NonnegProb (m : ProbMPS ℝ) : Prop :=
  (∀ idx, InRange idx m.core.shape → 0 ≤ m.core.get idx) ∧ (∀ idx, InRange idx m.edge.shape → 0 ≤ m.edge.get idx) ∧
    ∀ b ∈ m.bias, ∀ idx, InRange idx b.shape → 0 ≤ b.get idx

end TorchMPS.Spec
