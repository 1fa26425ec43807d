import Verif.Model.Train
import Mathlib.Algebra.BigOperators.Group.Finset.Basic
/-
The loss of the training script as a function of the scores.
-/
namespace TorchMPS.Spec

/-- the probability of class `o` among `O` classes with scores `s` -/
noncomputable def softmax (O : ℕ) (s : ℕ → ℝ) (o : ℕ) : ℝ := Real.exp (s o) / ∑ o' ∈ Finset.range O, Real.exp (s o')

/-- the mean over a batch of minus the logarithm of the probability of the true label; `s b o` is the score of class `o` for sample `b` -/
noncomputable def meanNll (O : ℕ) (labels : List ℕ) (s : ℕ → ℕ → ℝ) : ℝ :=
  (∑ b ∈ Finset.range labels.length, - Real.log (softmax O (s b) (labels.getD b 0))) / labels.length

/-- The derivative of the loss when the scores `s` move with velocity `v`: for every sample, the probabilities minus the indicator of the true label, times the
velocities. -/
noncomputable def nllVelocity (O : ℕ) (labels : List ℕ) (s v : ℕ → ℕ → ℝ) : ℝ :=
  (∑ b ∈ Finset.range labels.length, ∑ o ∈ Finset.range O, (softmax O (s b) o - if o = labels.getD b 0 then 1 else 0) * v b o) / labels.length

end TorchMPS.Spec
