import Verif.Spec.Autodiff
import Verif.Spec.TiMps
/-
Specification of the derivatives of a TI_MPS.
-/
namespace TorchMPS.Spec
variable {K : Type}

/-- entry `(l, r)` of the matrix `core . v + bias` of a feature vector `v` -/
def tiStep [CommSemiring K] (m : TiMps K) (v : ℕ → K) (l r : ℕ) : K := ∑ f ∈ Finset.range m.featureDim, m.core.get [l, r, f] * v f + tiBiasAt m l r

/-- entry `(l, r)` of the product of the matrices of the `k` steps `i`, ..., `i + k - 1` -/
def tiBetween [CommSemiring K] (m : TiMps K) (x : ℕ → ℕ → K) (i : ℕ) : ℕ → ℕ → ℕ → K
  | 0, l, r => if l = r then 1 else 0
  | k + 1, l, r => ∑ s ∈ Finset.range m.bondDim, tiBetween m x i k l s * tiStep m (x (i + k)) s r

/-- what entry `l` of the state before step `i` contributes to output `o`: the matrices of the steps `i`, ..., `n - 1` times the terminal matrix -/
def tiAfter [CommSemiring K] (m : TiMps K) (x : ℕ → ℕ → K) (n o i l : ℕ) : K :=
  ∑ r ∈ Finset.range m.bondDim, tiBetween m x i (n - i) l r * m.termMat.get [r, o]

/-- the velocities of the parameters -/
structure TiVelocity (K : Type) where
  core : ℕ → ℕ → ℕ → K
  init : ℕ → K
  term : ℕ → ℕ → K
  bias : ℕ → ℕ → K

/-- The derivative of output `o` for the sequence `x` moving with velocity `dx`, when the parameters move with velocity `d`: the initial vector and the terminal matrix contribute once, the shared core and
bias at each step, between the state before the step and what follows it. -/
def tiDerivative [CommSemiring K] (m : TiMps K) (d : TiVelocity K) (n : ℕ) (x dx : ℕ → ℕ → K) (o : ℕ) : K :=
  ∑ l ∈ Finset.range m.bondDim, d.init l * tiAfter m x n o 0 l +
  ∑ i ∈ Finset.range n, ∑ l ∈ Finset.range m.bondDim, ∑ r ∈ Finset.range m.bondDim,
    tiState m x i l * (∑ f ∈ Finset.range m.featureDim, (d.core l r f * x i f + m.core.get [l, r, f] * dx i f) + d.bias l r) * tiAfter m x n o (i + 1) r +
  ∑ l ∈ Finset.range m.bondDim, tiState m x n l * d.term l o

/-- a curve of TI_MPS models with constant hyperparameters whose parameters have velocity `d` at `t₀` -/
structure TiMoves [RCLike K] (m : ℝ → TiMps K) (d : TiVelocity K) (t₀ : ℝ) : Prop where
  bondDim : ∀ t, (m t).bondDim = (m t₀).bondDim
  featureDim : ∀ t, (m t).featureDim = (m t₀).featureDim
  outputDim : ∀ t, (m t).outputDim = (m t₀).outputDim
  core : ∀ l < (m t₀).bondDim, ∀ r < (m t₀).bondDim, ∀ f < (m t₀).featureDim, HasDerivAt (fun t => (m t).core.get [l, r, f]) (d.core l r f) t₀
  init : ∀ l < (m t₀).bondDim, HasDerivAt (fun t => (m t).initVec.get [l]) (d.init l) t₀
  term : ∀ l < (m t₀).bondDim, ∀ o < (m t₀).outputDim, HasDerivAt (fun t => (m t).termMat.get [l, o]) (d.term l o) t₀
  bias : ∀ l < (m t₀).bondDim, ∀ r < (m t₀).bondDim, HasDerivAt (fun t => tiBiasAt (m t) l r) (d.bias l r) t₀

/-- the parameters of a curve of TI_MPS models and their jets -/
structure TiFollows [RCLike K] (m : ℝ → TiMps K) (dm : TiMps (DualNumber K)) (t₀ : ℝ) : Prop where
  bondDim : ∀ t, (m t).bondDim = dm.bondDim
  featureDim : ∀ t, (m t).featureDim = dm.featureDim
  outputDim : ∀ t, (m t).outputDim = dm.outputDim
  core : ∀ l < dm.bondDim, ∀ r < dm.bondDim, ∀ f < dm.featureDim, Follows (fun t => (m t).core.get [l, r, f]) (dm.core.get [l, r, f]) t₀
  init : ∀ l < dm.bondDim, Follows (fun t => (m t).initVec.get [l]) (dm.initVec.get [l]) t₀
  term : ∀ l < dm.bondDim, ∀ o < dm.outputDim, Follows (fun t => (m t).termMat.get [l, o]) (dm.termMat.get [l, o]) t₀
  bias : ∀ l < dm.bondDim, ∀ r < dm.bondDim, Follows (fun t => tiBiasAt (m t) l r) (tiBiasAt dm l r) t₀

end TorchMPS.Spec
