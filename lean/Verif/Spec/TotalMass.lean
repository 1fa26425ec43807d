import Verif.Spec.Embedding
/-
What a model with an embedding divides the squared amplitudes by, stated in terms of the feature vectors: `w` are the quadrature
weights of the data domain and `v a` the feature vector of its point `a`.
-/
namespace TorchMPS.Spec
variable {K : Type} {ι : Type} [Fintype ι]

/-- the diagonal entries `∑ a, w a |v_a i|²` of the lambda matrix -/
noncomputable def diagEntry [RCLike K] (w : ι → ℝ) (v : ι → ℕ → K) (i : ℕ) : ℝ := ∑ a, w a * ‖v a i‖ ^ 2

/-- the mean of the first `d` diagonal entries -/
noncomputable def meanEntry [RCLike K] (w : ι → ℝ) (v : ι → ℕ → K) (d : ℕ) : ℝ :=
  (∑ i ∈ Finset.range d, diagEntry w v i) / d

/-- `torch.allclose` takes the lambda matrix for diagonal: all other entries are below its tolerance -/
def NearDiagonal [RCLike K] (w : ι → ℝ) (v : ι → ℕ → K) (d : ℕ) : Prop :=
  ∀ i < d, ∀ j < d, i ≠ j → ‖gram w v i j‖ ≤ 1e-8 + 1e-5 * ‖gram w v i j‖

/-- `torch.allclose` takes the diagonal for constant -/
def NearScalar [RCLike K] (w : ι → ℝ) (v : ι → ℕ → K) (d : ℕ) : Prop :=
  ∀ i < d, |meanEntry w v d - diagEntry w v i| ≤ 1e-8 + 1e-5 * diagEntry w v i

open Classical in
/-- The number by which `forward` divides: if the lambda matrix looks like a multiple of the identity, the sum over the basis
sequences times a power of the mean; if it looks diagonal, the sum over the basis sequences with the weights of the
diagonal; otherwise the sum over the sequences of feature vectors - in which the bias matrix is multiplied with the sum of the
components of each feature vector. -/
noncomputable def usedZ [RCLike K] (m : ProbMPS K) (n d D : ℕ) (w : ι → ℝ) (v : ι → ℕ → K) : ℝ :=
  if NearDiagonal w v d then
    if NearScalar w v d then meanEntry w v d ^ n * modelZ m n d D
    else ∑ k : Fin n → Fin d, (∏ s, diagEntry w v (k s)) * ‖psiSeq m n d D k‖ ^ 2
  else ∑ x : Fin n → ι, (∏ s, w (x s)) * ‖amplitude (boundVec m.edge D 0) (boundVec m.edge D 1)
    (List.ofFn fun s : Fin n => featMat m.core d D s (v (x s)) + (∑ k ∈ Finset.range d, v (x s) k) • biasMat m D)‖ ^ 2

/-- the relative error of one site caused by storing only the mean of the diagonal, if all diagonal entries are at
least `μ` -/
noncomputable def siteError (d : ℕ) (μ : ℝ) : ℝ := (1e-5 + 1e-8 * d / μ) / (1 - 1e-5)

end TorchMPS.Spec
