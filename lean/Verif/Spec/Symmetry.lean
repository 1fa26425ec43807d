import Verif.Spec.Gauge
/-
Specification of MPS made of other MPS: reflected, with selected or mixed classes, and added up.
-/
namespace TorchMPS.Spec
variable {K : Type}

/-- The input with its pixels in opposite order (`n` pixels along axis 1). -/
def reverseInput (n : ℕ) (x : Tensor K) : Tensor K := ⟨x.shape, fun idx => x.get (idx.set 1 (n - 1 - idx.getD 1 0))⟩

/-- `p'` are the parameters `p` read from the other end: cores in opposite order, the two bond indices exchanged. (`n` pixels, output at site `k` in `p` and at site
`n - k` in `p'`.) -/
structure Reflected [Zero K] (D F O n k : ℕ) (useBias : Bool) (p p' : Params K) : Prop where
  core : ∀ i < n, ∀ l < D, ∀ r < D, ∀ f < F, p'.core (n - k) (n - 1 - i) r l f = p.core k i l r f
  bias : ∀ i < n, ∀ l < D, ∀ r < D, p'.bias useBias (n - k) (n - 1 - i) r l = p.bias useBias k i l r
  out : ∀ o < O, ∀ l < D, ∀ r < D, p'.out.get [o, r, l] = p.out.get [o, l, r]

/-- The entry `[l, r]` of the block-diagonal matrix of a matrix `X` of size `D` by `D` and a matrix `Y`. -/
def block [Zero K] (D : ℕ) (X Y : ℕ → ℕ → K) (l r : ℕ) : K :=
  if l < D then (if r < D then X l r else 0) else if r < D then 0 else Y (l - D) (r - D)

/-- `p` are the parameters `p₁` (bond dimension `D₁`) and `p₂` (bond dimension `D₂`) side by side: all cores block-diagonal. -/
structure SideBySide [Zero K] (D₁ D₂ F O n k : ℕ) (useBias : Bool) (p₁ p₂ p : Params K) : Prop where
  core : ∀ i < n, ∀ l < D₁ + D₂, ∀ r < D₁ + D₂, ∀ f < F, p.core k i l r f = block D₁ (fun a b => p₁.core k i a b f) (fun a b => p₂.core k i a b f) l r
  bias : ∀ i < n, ∀ l < D₁ + D₂, ∀ r < D₁ + D₂, p.bias useBias k i l r = block D₁ (p₁.bias useBias k i) (p₂.bias useBias k i) l r
  out : ∀ o < O, ∀ l < D₁ + D₂, ∀ r < D₁ + D₂, p.out.get [o, l, r] = block D₁ (fun a b => p₁.out.get [o, a, b]) (fun a b => p₂.out.get [o, a, b]) l r

/-- `m` is made of the translation-invariant models `m₁` and `m₂` side by side: core and bias block-diagonal, initial vectors and terminal matrices one after the other. -/
structure TiSideBySide [Zero K] (m₁ m₂ m : TiMps K) : Prop where
  bond : m.bondDim = m₁.bondDim + m₂.bondDim
  core : ∀ l < m.bondDim, ∀ r < m.bondDim, ∀ f < m.featureDim,
    m.core.get [l, r, f] = block m₁.bondDim (fun a b => m₁.core.get [a, b, f]) (fun a b => m₂.core.get [a, b, f]) l r
  bias : ∀ l < m.bondDim, ∀ r < m.bondDim, tiBiasAt m l r = block m₁.bondDim (tiBiasAt m₁) (tiBiasAt m₂) l r
  init : ∀ l < m.bondDim, m.initVec.get [l] = if l < m₁.bondDim then m₁.initVec.get [l] else m₂.initVec.get [l - m₁.bondDim]
  term : ∀ l < m.bondDim, ∀ o < m.outputDim, m.termMat.get [l, o] = if l < m₁.bondDim then m₁.termMat.get [l, o] else m₂.termMat.get [l - m₁.bondDim, o]

/-- Two translation-invariant models which accept the same inputs. -/
def SameTiInputs (m m' : TiMps K) : Prop :=
  m'.outputDim = m.outputDim ∧ m'.featureDim = m.featureDim ∧ m'.featureMap = m.featureMap ∧ m'.useBias = m.useBias ∧ m'.fixedBias = m.fixedBias

end TorchMPS.Spec
