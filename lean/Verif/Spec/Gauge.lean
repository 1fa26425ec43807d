import Verif.Spec.MpsFn
import Verif.Spec.TiMps
/-
Specification of models with different parameters computing the same function, and of changes of single parameters of an MPS.
-/
namespace TorchMPS.Spec
variable {K : Type}

/-- Entry `[l, r]` of the product of three matrices `Y * A * X`, `A` being of size `D` by `D`. -/
def sandwich [CommSemiring K] (D : ℕ) (Y A X : ℕ → ℕ → K) (l r : ℕ) : K :=
  ∑ a ∈ Finset.range D, ∑ b ∈ Finset.range D, Y l a * A a b * X b r

/-- `X * Y` is the identity matrix of size `D`; the inner dimension is `D'`. -/
def OneSided [CommSemiring K] (D D' : ℕ) (X Y : ℕ → ℕ → K) : Prop :=
  ∀ a < D, ∀ b < D, ∑ c ∈ Finset.range D', X a c * Y c b = if a = b then 1 else 0

/-- The position of the core of pixel `i` in the chain of all cores, the output core being at position `k`. -/
def posOf (k i : ℕ) : ℕ := if i < k then i else i + 1

/-- The parameters `p'` (bond dimension `D'`) arise from the parameters `p` (bond dimension `D`) by changes of basis on the bonds: the core at position `j`
is multiplied by `Y j` from the left and by `X (j + 1)` from the right, where `X j * Y j` is the identity on every bond between two cores. At the ends: with
periodic boundaries the bond from the last to the first core is such a bond; with open boundaries row 0 of `Y 0` and column 0 of `X (n + 1)` are those of
the identity. -/
structure Regauged [CommSemiring K] (D D' F O n k : ℕ) (useBias periodic : Bool) (p p' : Params K) (X Y : ℕ → ℕ → ℕ → K) : Prop where
  bonds : ∀ j, 1 ≤ j → j ≤ n → OneSided D D' (X j) (Y j)
  core : ∀ i < n, ∀ l < D', ∀ r < D', ∀ f < F, p'.core k i l r f = sandwich D (Y (posOf k i)) (fun a b => p.core k i a b f) (X (posOf k i + 1)) l r
  bias : ∀ i < n, ∀ l < D', ∀ r < D', p'.bias useBias k i l r = sandwich D (Y (posOf k i)) (p.bias useBias k i) (X (posOf k i + 1)) l r
  out : ∀ o < O, ∀ l < D', ∀ r < D', p'.out.get [o, l, r] = sandwich D (Y k) (fun a b => p.out.get [o, a, b]) (X (k + 1)) l r
  ring : periodic = true → OneSided D D' (X (n + 1)) (Y 0)
  ends : periodic = false → 1 ≤ D' ∧ ∀ a < D, Y 0 0 a = (if a = 0 then 1 else 0) ∧ X (n + 1) a 0 = if a = 0 then 1 else 0

/-- The parameters `p'` with bond dimension `D'` are the parameters `p` with bond dimension `D ≤ D'`, filled up with zeros. -/
structure Padded [Zero K] (D D' F O n k : ℕ) (useBias : Bool) (p p' : Params K) : Prop where
  le : D ≤ D'
  core : ∀ i < n, ∀ l < D', ∀ r < D', ∀ f < F, p'.core k i l r f = if l < D ∧ r < D then p.core k i l r f else 0
  bias : ∀ i < n, ∀ l < D', ∀ r < D', p'.bias useBias k i l r = if l < D ∧ r < D then p.bias useBias k i l r else 0
  out : ∀ o < O, ∀ l < D', ∀ r < D', p'.out.get [o, l, r] = if l < D ∧ r < D then p.out.get [o, l, r] else 0

/-- Two models with the same dimensions, path and feature map, of which parameters and bond dimensions may differ. -/
def SameInputs (m m' : MPS K) : Prop :=
  m'.inputDim = m.inputDim ∧ m'.outputDim = m.outputDim ∧ m'.featureDim = m.featureDim ∧ m'.periodic = m.periodic ∧ m'.path = m.path ∧
    m'.featureMap = m.featureMap

/-- the model `m` with other values of its parameters -/
def withParams (m : MPS K) (k : ℕ) (useBias : Bool) (p : Params K) : MPS K :=
  { m with modules :=
    (if k = 0 then [] else [.inputRegion p.left (if useBias then some p.leftBias else none)]) ++
    .outputSite p.out ::
    (if k = m.inputDim then [] else [.inputRegion p.right (if useBias then some p.rightBias else none)]) }

/-- slice `s` along the first axis replaced by `T` -/
def setSlice (t : Tensor K) (s : ℕ) (T : ℕ → ℕ → ℕ → K) : Tensor K :=
  ⟨t.shape, fun idx => if idx.getD 0 0 = s then T (idx.getD 1 0) (idx.getD 2 0) (idx.getD 3 0) else t.get idx⟩

/-- the core of pixel `q` replaced by `T` -/
def setCore (k q : ℕ) (T : ℕ → ℕ → ℕ → K) (p : Params K) : Params K :=
  if q < k then { p with left := setSlice p.left q T } else { p with right := setSlice p.right (q - k) T }

/-- the output core replaced by `T` -/
def setOut (T : ℕ → ℕ → ℕ → K) (p : Params K) : Params K :=
  { p with out := ⟨p.out.shape, fun idx => T (idx.getD 0 0) (idx.getD 1 0) (idx.getD 2 0)⟩ }

/-- The MPS for sequences of `n` steps with the parameters of a translation-invariant one: periodic boundaries, the output after the last pixel, every pixel
core (and the bias) that of `m`, and the output core `termMat[l, o] * initVec[r]`, which leads from the end of the sequence around to its beginning. -/
def tiAsMps [CommSemiring K] (m : TiMps K) (n : ℕ) : MPS K where
  inputDim := n
  outputDim := m.outputDim
  bondDim := m.bondDim
  featureDim := m.featureDim
  periodic := true
  parallel := m.parallel
  path := none
  featureMap := m.featureMap
  modules := [.inputRegion ⟨[n, m.bondDim, m.bondDim, m.featureDim], fun idx => m.core.get idx.tail⟩
      (if m.useBias then some ⟨[1, m.bondDim, m.bondDim], fun idx => tiBiasAt m (idx.getD 1 0) (idx.getD 2 0)⟩ else none),
    .outputSite ⟨[m.outputDim, m.bondDim, m.bondDim], fun idx => m.termMat.get [idx.getD 1 0, idx.getD 0 0] * m.initVec.get [idx.getD 2 0]⟩]

end TorchMPS.Spec
