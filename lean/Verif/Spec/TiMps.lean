import Verif.Model.TiMps
import Verif.Spec.Mps
/-
Specification of the function computed by a TI_MPS.
-/
namespace TorchMPS.Spec
variable {K : Type}

/-- The bias entry added to every matrix: that of `bias_mat`, 0 without bias. -/
def tiBiasAt [Zero K] (m : TiMps K) (l r : ℕ) : K :=
  match m.useBias, m.biasMat with
  | true, some b => b.get [l, r]
  | _, _ => 0

/-- `m` is a TI_MPS as the constructor makes it, with arbitrary current values of the parameters; a fixed bias is the identity. -/
structure IsTi [Zero K] [One K] (m : TiMps K) : Prop where
  core : m.core.shape = [m.bondDim, m.bondDim, m.featureDim]
  initVec : m.initVec.shape = [m.bondDim]
  termMat : m.termMat.shape = [m.bondDim, m.outputDim]
  bias : m.useBias = true → ∃ b, m.biasMat = some b ∧ b.shape = [m.bondDim, m.bondDim]
  fixed : m.useBias = true → m.fixedBias = true → ∀ l < m.bondDim, ∀ r < m.bondDim, tiBiasAt m l r = if l = r then 1 else 0

/-- The state (a row vector) after the first `i` feature vectors of the sequence `x`: the initial vector times `i` matrices
`core . x_j + bias`. -/
def tiState [CommSemiring K] (m : TiMps K) (x : ℕ → ℕ → K) : ℕ → ℕ → K
  | 0, r => m.initVec.get [r]
  | i + 1, r => ∑ l ∈ Finset.range m.bondDim, tiState m x i l *
      (∑ f ∈ Finset.range m.featureDim, m.core.get [l, r, f] * x i f + tiBiasAt m l r)

/-- Output `o` for the sequence of the feature vectors `x 0`, ..., `x (n-1)`. -/
def tiValue [CommSemiring K] (m : TiMps K) (n : ℕ) (x : ℕ → ℕ → K) (o : ℕ) : K :=
  ∑ l ∈ Finset.range m.bondDim, tiState m x n l * m.termMat.get [l, o]

/-- Feature vector `f`-entries of step `i` of an embedded batch. -/
def seqOf (x : Tensor K) (b : ℕ) : ℕ → ℕ → K := fun i f => x.get [b, i, f]

/-- the feature vector of a scalar under the map in force (by default (x, 1 - x)) -/
def tiFeature [One K] [Sub K] (m : TiMps K) (v : K) (f : ℕ) : K :=
  match m.featureMap with
  | some φ => (φ v).get [f]
  | none => if f = 0 then v else 1 - v

/-- A batch of `B` sequences of `n` scalars `v b i` can be embedded: without a registered map feature_dim must be 2; a registered map
must give vectors of size feature_dim for all of them, and there must be at least one. -/
def TiEmbeds (m : TiMps K) (B n : ℕ) (v : ℕ → ℕ → K) : Prop :=
  match m.featureMap with
  | some φ => 1 ≤ B ∧ 1 ≤ n ∧ ∀ b < B, ∀ i < n, (φ (v b i)).shape = [m.featureDim]
  | none => m.featureDim = 2

/-- length of a sequence in a list -/
def itemLen (t : Tensor K) : ℕ := t.shape.getD 0 0

/-- step `i` of sequence `b` of a list of unembedded sequences, 0 beyond its end -/
def rawValue [Zero K] (ts : List (Tensor K)) (b i : ℕ) : K :=
  match ts[b]? with
  | some t => if i < itemLen t then t.get [i] else 0
  | none => 0

/-- feature `f` of step `i` of a sequence, embedded or not -/
def itemEntry [One K] [Sub K] (m : TiMps K) (t : Tensor K) (i f : ℕ) : K :=
  if t.shape.length = 1 then tiFeature m (t.get [i]) f else t.get [i, f]

/-- feature `f` of step `i` of sequence `b` of an input; beyond the end of a sequence, the feature of the scalar 0 for unembedded
sequences and 0 for embedded ones -/
def tiEntry [One K] [Sub K] [Zero K] (m : TiMps K) : TiInput K → ℕ → ℕ → ℕ → K
  | .batch t, b, i, f => if t.shape.length = 2 then tiFeature m (t.get [b, i]) f else t.get [b, i, f]
  | .list ts, b, i, f =>
    match ts[b]? with
    | some t => if i < itemLen t then itemEntry m t i f else if t.shape.length = 1 then tiFeature m 0 f else 0
    | none => 0
  | .other, _, _, _ => 0

/-- The inputs documented for `forward`, holding `B` sequences, the longest of length `n`. -/
def TiAccepts [Zero K] (m : TiMps K) (B n : ℕ) : TiInput K → Prop
  | .batch t => t.shape = [B, n, m.featureDim] ∨ (t.shape = [B, n] ∧ TiEmbeds m B n (fun b i => t.get [b, i]))
  | .list ts => ts.length = B ∧ (∃ t ∈ ts, itemLen t = n) ∧ (∀ t ∈ ts, itemLen t ≤ n) ∧
      ((m.useBias = true ∧ m.fixedBias = true) ∨ ∀ t ∈ ts, itemLen t = n) ∧
      ((∀ t ∈ ts, t.shape = [itemLen t, m.featureDim]) ∨ ((∀ t ∈ ts, t.shape = [itemLen t]) ∧ TiEmbeds m B n (rawValue ts)))
  | .other => False

end TorchMPS.Spec
