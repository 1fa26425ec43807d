import Verif.Spec.Autodiff
import Verif.Spec.ProbMps
/-
Curves of probabilistic models and of their inputs.
-/
namespace TorchMPS.Spec
variable {K : Type}

/-- curves of inputs and their jets: indices do not move -/
def InputFollows [RCLike K] (x : ℝ → SeqInput K) (dx : SeqInput (DualNumber K)) (t₀ : ℝ) : Prop :=
  match dx with
  | .ints t => ∀ s, x s = .ints t
  | .floats d => ∃ g, (∀ s, x s = .floats (g s)) ∧ TensorFollows g d t₀

/-- curves of models without embedding and their jets: the cores, the boundary vectors and the bias move along differentiable curves -/
structure ModelFollows [RCLike K] (m : ℝ → ProbMPS K) (dm : ProbMPS (DualNumber K)) (t₀ : ℝ) : Prop where
  uniform : ∀ t, (m t).uniform = dm.uniform
  core : TensorFollows (fun t => (m t).core) dm.core t₀
  edge : TensorFollows (fun t => (m t).edge) dm.edge t₀
  bias : OptFollows (fun t => (m t).bias) dm.bias t₀
  embedding : ∀ t, (m t).embedding = none
  plain : dm.embedding = none

end TorchMPS.Spec
