import Verif.Model.ProbInit
import Mathlib.Analysis.SpecialFunctions.Sigmoid
/-
Model of the embeddings built by `init_mlp_embed`, torchmps/embeddings.py:260-287: `nn.Sequential` of `nn.Linear` and
`nn.Sigmoid`, wrapped by `TrainableEmbedding`. Simplification: real arithmetic.
-/
namespace TorchMPS
variable {K : Type}

/-- The parameters of one `nn.Linear(inDim, outDim)`, torchmps/embeddings.py:280. -/
structure LinearLayer where
  inDim : ℕ
  outDim : ℕ
  weight : ℕ → ℕ → ℝ
  bias : ℕ → ℝ

/-- `nn.Linear.forward`: the last axis must have size `inDim` (RuntimeError otherwise, and for a scalar). -/
noncomputable def LinearLayer.forward (l : LinearLayer) (t : Tensor ℝ) : Except Err (Tensor ℝ) :=
  if t.shape.getLast? = some l.inDim then
    .ok ⟨t.shape.dropLast ++ [l.outDim], fun idx =>
      ∑ j ∈ Finset.range l.inDim, t.get (idx.dropLast ++ [j]) * l.weight (idx.getLastD 0) j + l.bias (idx.getLastD 0)⟩
  else .error .runtime

/-- `nn.Sequential(Linear, Sigmoid, Linear, Sigmoid, ...)`, torchmps/embeddings.py:278-282 -/
noncomputable def mlpForward : List LinearLayer → Tensor ℝ → Except Err (Tensor ℝ)
  | [], t => .ok t
  | l :: ls, t =>
    match l.forward t with
    | .error e => .error e
    | .ok y => mlpForward ls (y.map Real.sigmoid)

/-- The module as a function of the data: `nn.Linear` refuses tensors of indices (their dtype is not that of the weights)
with RuntimeError. -/
noncomputable def mlpModule [RCLike K] (layers : List LinearLayer) : EmbFun K
  | .ints _ => .error .runtime
  | .floats t =>
    match mlpForward layers (t.map RCLike.re) with
    | .error e => .error e
    | .ok y => .ok (y.map fun r => (r : K))

/-- `init_mlp_embed`, torchmps/embeddings.py:260-287: the embedding object and the parameters of its layers; `weight i` and
`bias i` are the random initial parameters of layer `i`. -/
noncomputable def initMlp [RCLike K] (outputDim : ℕ) (numLayers : ℤ) (hidden : HiddenDims) (domain : Option DataDomain)
    (weight : ℕ → ℕ → ℕ → ℝ) (bias : ℕ → ℕ → ℝ) : Except Err (Embedding K × List LinearLayer) := do
  let (sizes, dom) ← initMlpEmbed outputDim numLayers hidden domain
  let layers := sizes.zipIdx.map (fun s => (⟨s.1.1, s.1.2, weight s.2, bias s.2⟩ : LinearLayer))
  return (Embedding.trainable' (mlpModule layers) dom, layers)                   -- :287

end TorchMPS
