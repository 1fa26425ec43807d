import Verif.Model.MpsBase
import Mathlib.Analysis.SpecialFunctions.Trigonometric.Basic
/-
Model of `torchmps/embeddings.py`.

Data values of a continuous domain are real numbers; a tensor of real numbers is represented by a
tensor over `K` with real entries (`SeqInput.floats`), a tensor of indices by `SeqInput.ints`.
-/
namespace TorchMPS
variable {K : Type}

/-- A constructed `DataDomain`, torchmps/embeddings.py:33-65 (integer `max_val` for discrete domains). -/
inductive DataDomain where
  | continuous (maxVal minVal : ℝ)
  | discrete (maxVal : ℤ)

/-- `DataDomain.__init__` with `continuous=True`, torchmps/embeddings.py:58-60 and :64-65. Comparing a number
with `None` is a TypeError. -/
noncomputable def DataDomain.mkContinuous (maxVal : ℝ) (minVal : Option ℝ) : Except Err DataDomain :=
  match minVal with
  | none => .error .type
  | some m => do
    if maxVal > m then return .continuous maxVal m else .error .assertion

/-- `DataDomain.__init__` with `continuous=False`, torchmps/embeddings.py:61-65 (`min_val` is ignored). -/
def DataDomain.mkDiscrete (maxVal : ℤ) (_minVal : Option ℝ) : Except Err DataDomain :=
  if maxVal ≥ 0 then .ok (.discrete maxVal) else .error .assertion

/-- `torch.linspace(lo, hi, steps=n)[k]` -/
noncomputable def linspace (lo hi : ℝ) (n k : ℕ) : ℝ :=
  if n = 1 then lo else lo + (k : ℝ) * ((hi - lo) / ((n - 1 : ℕ) : ℝ))

/-- An embedding function as the user supplies it: any tensor to a tensor (or an exception). -/
abbrev EmbFun (K : Type) := SeqInput K → Except Err (Tensor K)

/-- the evaluation points of `make_lambda`, torchmps/embeddings.py:101-103 and :115, with their number -/
noncomputable def lambdaPoints [RCLike K] (dom : DataDomain) (numPoints : ℕ) : ℕ × SeqInput K :=
  match dom with
  | .continuous hi lo => (numPoints, .floats ⟨[numPoints], fun idx => (linspace lo hi numPoints (idx.getD 0 0) : K)⟩)
  | .discrete n => (n.toNat, .ints ⟨[n.toNat], fun idx => (idx.getD 0 0 : ℤ)⟩)

/-- `torch.trapz(mats, points, dim=0)` at entry `(i, j)`, for points `x 0, ..., x (n-1)` -/
noncomputable def trapz [RCLike K] (n : ℕ) (x : ℕ → ℝ) (y : ℕ → K) : K :=
  ∑ k ∈ Finset.range (n - 1), ((x (k + 1) - x k : ℝ) : K) * (y k + y (k + 1)) / 2

/-- The matrix computed by `make_lambda` before compression, torchmps/embeddings.py:100-127 and
:173-200 (the two classes contain the same code). -/
noncomputable def rawLambda [RCLike K] (f : EmbFun K) (dom : DataDomain) (numPoints : ℕ) :
    Except Err (Tensor K) := do
  let (n, points) := lambdaPoints (K := K) dom numPoints
  let embVecs ← f points                                                         -- :105, :116
  assert (embVecs.ndim = 2)                                                      -- :106, :117
  assert (embVecs.shape.getD 0 0 = n)                                            -- :108, :119
  let embMats ← einsum ["bi".toList, "bj".toList] "bij".toList [embVecs, conjT embVecs]  -- :111, :122
  let d := embVecs.shape.getD 1 0
  return ⟨[d, d], fun idx => match idx with
    | [i, j] =>
      match dom with
      | .continuous hi lo =>
        trapz n (linspace lo hi numPoints) (fun k => embMats.get [k, i, j])      -- :112
      | .discrete _ => ∑ k ∈ Finset.range n, embMats.get [k, i, j]               -- :123
    | _ => 0⟩

/-- `torch.allclose` of one pair of entries: `|a - b| ≤ atol + rtol * |b|` with the default tolerances -/
def closeTo [RCLike K] (a b : K) : Prop := ‖a - b‖ ≤ 1e-8 + 1e-5 * ‖b‖

/-- `lamb_mat.diag().mean()` of a `d × d` matrix -/
noncomputable def diagMean [RCLike K] (t : Tensor K) (d : ℕ) : K :=
  (∑ i ∈ Finset.range d, t.get [i, i]) / (d : K)

open Classical in
/-- The compression of the lambda matrix, torchmps/embeddings.py:130-135 and :203-208. Simplification: the
embedding dimension is positive (the mean of an empty tensor is NaN). -/
noncomputable def compressLambda [RCLike K] (t : Tensor K) : Tensor K :=
  let d := t.shape.getD 0 0
  if ∀ i < d, ∀ j < d, closeTo (if i = j then t.get [i, i] else 0) (t.get [i, j]) then
    if ∀ i < d, closeTo (diagMean t d) (t.get [i, i]) then ⟨[], fun _ => diagMean t d⟩
    else ⟨[d], fun idx => t.get [idx.getD 0 0, idx.getD 0 0]⟩
  else t

/-- `make_lambda`: the value stored in `self.lamb_mat`, torchmps/embeddings.py:95-135 and :168-208 -/
noncomputable def makeLambda [RCLike K] (f : EmbFun K) (dom : DataDomain) (numPoints : ℕ) :
    Except Err (Tensor K) := do
  let t ← rawLambda f dom numPoints
  return compressLambda t

/-- A `FixedEmbedding` or `TrainableEmbedding` object; `lamb = none`: the attribute `lamb_mat` does not
exist. For a trainable embedding `embFun` is the wrapped function with its current parameters. -/
structure Embedding (K : Type) where
  trainable : Bool
  embFun : EmbFun K
  domain : DataDomain
  lamb : Option (Tensor K)

/-- `x[..., None]` -/
def SeqInput.unsqueezeLast : SeqInput K → SeqInput K
  | .ints t => .ints ⟨t.shape ++ [1], fun idx => t.get idx.dropLast⟩
  | .floats t => .floats ⟨t.shape ++ [1], fun idx => t.get idx.dropLast⟩

/-- `FixedEmbedding.__init__`, torchmps/embeddings.py:158-165 (`make_lambda` with 1000 points). -/
noncomputable def Embedding.fixed [RCLike K] (f : EmbFun K) (dom : DataDomain) : Except Err (Embedding K) := do
  let lam ← makeLambda f dom 1000
  return ⟨false, f, dom, some lam⟩

/-- `TrainableEmbedding.__init__`, torchmps/embeddings.py:85-93, wrapping the module `f`. -/
def Embedding.trainable' (f : EmbFun K) (dom : DataDomain) : Embedding K :=
  ⟨true, fun x => f x.unsqueezeLast, dom, none⟩

/-- `forward`, torchmps/embeddings.py:137-142 and :210-214: the embedded data (or the exception) and the
object afterwards. -/
noncomputable def Embedding.forward [RCLike K] (e : Embedding K) (x : SeqInput K) :
    Except Err (Tensor K) × Embedding K :=
  if e.trainable then
    match makeLambda e.embFun e.domain 1000 with                                 -- :141
    | .error err => (.error err, e)
    | .ok lam => (e.embFun x, { e with lamb := some lam })                       -- :142
  else (e.embFun x, e)                                                           -- :214

/-- `onehot_embed`, torchmps/embeddings.py:220-227: `scatter_` raises RuntimeError for values outside
`[0, emb_dim)`. -/
noncomputable def onehotEmbed [RCLike K] (embDim : ℕ) : EmbFun K
  | .ints t =>
    open Classical in
    if ∀ idx, InRange idx t.shape → 0 ≤ t.get idx ∧ t.get idx < embDim then
      .ok ⟨t.shape ++ [embDim], fun idx =>
        if t.get idx.dropLast = (idx.getLastD 0 : ℤ) then 1 else 0⟩
    else .error .runtime
  | .floats _ => .error .runtime         -- `scatter_` requires int64 indices

/-- one component of `trig_embed`, torchmps/embeddings.py:249-253 -/
noncomputable def trigComp (embDim : ℕ) (x : ℝ) (s : ℕ) : ℝ :=
  Real.cos (x * Real.pi / 2) ^ (embDim - s - 1) * Real.sin (x * Real.pi / 2) ^ s *
    Real.sqrt ((embDim - 1).choose s : ℝ)

/-- `trig_embed`, torchmps/embeddings.py:230-257, on real data (`torch.stack` of an empty list is a
RuntimeError). -/
noncomputable def trigEmbed [RCLike K] (embDim : ℕ) : EmbFun K
  | .floats t =>
    if embDim = 0 then .error .runtime
    else .ok ⟨t.shape ++ [embDim], fun idx =>
      (trigComp embDim (RCLike.re (t.get idx.dropLast)) (idx.getLastD 0) : K)⟩
  | .ints t =>
    if embDim = 0 then .error .runtime
    else .ok ⟨t.shape ++ [embDim], fun idx =>
      (trigComp embDim (t.get idx.dropLast : ℝ) (idx.getLastD 0) : K)⟩

/-- The argument `hidden_dims` of `init_mlp_embed`: an integer or a list. -/
inductive HiddenDims where
  | int (n : ℕ)
  | list (l : List ℕ)

/-- `init_mlp_embed`, torchmps/embeddings.py:260-287: the sizes `(in, out)` of the linear layers, in order (each is
followed by a sigmoid), and the data domain. `[n] * k` is empty for negative `k`. -/
noncomputable def initMlpEmbed (outputDim : ℕ) (numLayers : ℤ) (hidden : HiddenDims) (domain : Option DataDomain) :
    Except Err (List (ℕ × ℕ) × DataDomain) := do
  let hiddenDims := match hidden with
    | .int n => List.replicate (numLayers - 1).toNat n                           -- :272-273
    | .list l => l
  assert ((hiddenDims.length : ℤ) = numLayers - 1)                               -- :274
  let allDims := [1] ++ hiddenDims ++ [outputDim]                                -- :275
  let layers := (List.range numLayers.toNat).map (fun i => (allDims.getD i 0, allDims.getD (i + 1) 0))  -- :279-281
  return (layers, domain.getD (.continuous 1 0))                                 -- :285-287

end TorchMPS
