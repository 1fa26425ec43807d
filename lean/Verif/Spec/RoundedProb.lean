import Verif.Model.RoundedProb
import Verif.Spec.Rounded
import Verif.Spec.ProbMps
/-
Specification of accurate arithmetic for probabilistic MPS.
-/
namespace TorchMPS.Spec

/-- The arithmetic `a` is accurate for models with input dimension `d` and bond dimension `D` and sums of at most `N` logarithms: as for `contract_matseq` (`Accurate`), and every sum of
products in the computation of the norm has error at most `τ` times the sum of the absolute values of its terms (of the traces, which are only used for rescaling, it is enough that they
are positive when such an error does not change the sign, so that they may be capped like all rescaling factors); the final combination of the logarithms has error at most `ν` times the
sum of the absolute values of its terms; the logarithms of all rescaling factors are bounded by `S`. -/
structure AccurateProb (a : ProbArith) (d D N : ℕ) (γ u μ τ ν S : ℝ) : Prop where
  base : Accurate a.base D N γ u μ
  scales : ScalesBounded a.base S
  tau : 0 ≤ τ
  nu : 0 ≤ ν
  outerSize : ∀ v, (a.outer D v).r = D ∧ (a.outer D v).c = D
  outer : ∀ v, ∀ l < D, ∀ p < D, |(a.outer D v).e l p - v l * v p| ≤ τ * |v l * v p|
  transferSize : ∀ ct A, ct.shape = [d, D, D] → A.r = D → A.c = D → (a.transfer ct A).r = D ∧ (a.transfer ct A).c = D
  transfer : ∀ ct A, ct.shape = [d, D, D] → A.r = D → A.c = D → ∀ r < D, ∀ q < D,
    |(a.transfer ct A).e r q - ∑ i ∈ Finset.range d, ∑ l ∈ Finset.range D, ∑ p ∈ Finset.range D, ct.get [i, l, r] * A.e l p * ct.get [i, p, q]| ≤
      τ * ∑ i ∈ Finset.range d, ∑ l ∈ Finset.range D, ∑ p ∈ Finset.range D, |ct.get [i, l, r] * A.e l p * ct.get [i, p, q]|
  trace : ∀ A, A.r = D → A.c = D → τ * ∑ i ∈ Finset.range D, |A.e i i| < ∑ i ∈ Finset.range D, A.e i i → 0 < a.trace A
  quad : ∀ w A, A.r = D → A.c = D → |a.quad w A - ∑ r ∈ Finset.range D, ∑ q ∈ Finset.range D, w r * A.e r q * w q| ≤
    τ * ∑ r ∈ Finset.range D, ∑ q ∈ Finset.range D, |w r * A.e r q * w q|
  traceScale : ∀ A, 0 < a.trace A → |Real.log (a.trace A)| ≤ S
  finish : ∀ p l z, p ≠ 0 → |a.finish p l z - (2 * (Real.log |p| + l) - z)| ≤ ν * (2 * abs (Real.log |p|) + 2 * |l| + |z|)

/-- entrywise absolute values -/
def absTensor (t : Tensor ℝ) : Tensor ℝ := ⟨t.shape, fun idx => |t.get idx|⟩

/-- the model with the absolute values of all parameters -/
def absModel (m : ProbMPS ℝ) : ProbMPS ℝ := { m with core := absTensor m.core, edge := absTensor m.edge }

/-- the sum of the squares of all partial products `leftᵀ A_1[x_1] ... A_k[x_k]` -/
noncomputable def prefixMass (m : ProbMPS ℝ) (d D k : ℕ) : ℝ :=
  ∑ x : Fin k → Fin d, ∑ j, (Matrix.vecMul (boundVec m.edge D 0) (List.ofFn fun s : Fin k => coreMat m.core D s (x s)).prod j) ^ 2

/-- the error factor of the norm `Z` of sequences of length `n`: `n + 2` sums of products, `n` divisions, and `n + 1` updates of the log norm, whose terms have absolute values with sum at most
`2 n S + |log Z| + 1` -/
noncomputable def normErr (u μ τ S : ℝ) (n : ℕ) (Z : ℝ) : ℝ :=
  (1 + τ) ^ (n + 2) * (1 + u) ^ n * Real.exp (((1 + μ) ^ (n + 1) - 1) * (2 * n * S + |Real.log Z| + 1)) - 1

/-- the error factor of the amplitudes of sequences of length `n` -/
noncomputable def ampErr (γ u μ S : ℝ) (n : ℕ) : ℝ := roundErr γ u μ S (n + 1) (2 * (n + 1)) (n + 1) (2 * (n + 1))

end TorchMPS.Spec
