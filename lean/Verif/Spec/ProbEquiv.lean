import Verif.Spec.ProbMps
/-
Specification of models which are different descriptions of the same distribution.
-/
namespace TorchMPS.Spec
variable {K : Type}

/-- two calls on batches of `B` sequences have the same outcome: both raise AssertionError, or both return the same log probabilities -/
def SameOutcome (B : ℕ) (r r' : Except Err (Tensor (Option EReal))) : Prop :=
  (r = .error .assertion ∧ r' = .error .assertion) ∨
  ∃ out out', r = .ok out ∧ r' = .ok out' ∧ out.shape = [B] ∧ out'.shape = [B] ∧ ∀ b < B, out'.get [b] = out.get [b]

/-- `m'` stores one core per site, all equal to the core of the uniform model `m` -/
structure Unrolled (m m' : ProbMPS K) (n d D : ℕ) : Prop where
  uniform : m.uniform = true
  fixed : m'.uniform = false
  coreShape : m.core.shape = [d, D, D]
  coreShape' : m'.core.shape = [n, d, D, D]
  core : ∀ s < n, ∀ k < d, ∀ i < D, ∀ j < D, m'.core.get [s, k, i, j] = m.core.get [k, i, j]
  edge : m'.edge = m.edge
  bias : m'.bias = m.bias

/-- `m'` has no bias matrix but the bias matrix of `m` added to every slice of its cores -/
structure BiasAbsorbed [Add K] (m m' : ProbMPS K) (bias : Tensor K) (D : ℕ) : Prop where
  uniform : m'.uniform = m.uniform
  shape : m'.core.shape = m.core.shape
  biasIs : m.bias = some bias
  noBias : m'.bias = none
  core : ∀ idx, ∀ i < D, ∀ j < D, m'.core.get (idx ++ [i, j]) = m.core.get (idx ++ [i, j]) + bias.get [i, j]
  edge : m'.edge = m.edge

/-- the sequences of a batch read backwards -/
def reversed (x : SeqInput K) (n : ℕ) : SeqInput K :=
  match x with
  | .ints t => .ints ⟨t.shape, fun idx => t.get [idx.getD 0 0, n - 1 - idx.getD 1 0]⟩
  | .floats t => .floats ⟨t.shape, fun idx => t.get [idx.getD 0 0, n - 1 - idx.getD 1 0, idx.getD 2 0]⟩

/-- `m'` is `m` read from right to left: the cores in reverse order and transposed, the boundary vectors exchanged -/
structure Mirrored [RCLike K] (m m' : ProbMPS K) (n d D : ℕ) : Prop where
  core : ∀ s < n, ∀ k < d, coreMat m'.core D s k = (coreMat m.core D (n - 1 - s) k).transpose
  bias : biasMat m' D = (biasMat m D).transpose
  left : boundVec m'.edge D 0 = boundVec m.edge D 1
  right : boundVec m'.edge D 1 = boundVec m.edge D 0

end TorchMPS.Spec
