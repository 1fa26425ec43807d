import Verif.Model.Embeddings
/-
Model of `torchmps/prob_mps.py`: the classes `ProbMPS` and `ProbUnifMPS`.
-/
namespace TorchMPS
variable {K : Type}

/-- The attributes of a `ProbMPS` (`uniform = false`) or `ProbUnifMPS` (`uniform = true`) object. -/
structure ProbMPS (K : Type) where
  uniform : Bool
  core : Tensor K                  -- core_tensors
  edge : Tensor K                  -- edge_vecs
  bias : Option (Tensor K)         -- bias_mat, absent without use_bias
  embedding : Option (Embedding K)

/-- `t + bias[None, ...]` for a tensor whose last two axes have the shape of `bias` (which `__init__` ensures) -/
def addBias [Add K] (t : Tensor K) (bias : Option (Tensor K)) : Tensor K :=
  match bias with
  | none => t
  | some b => ⟨t.shape, fun idx => t.get idx + b.get (idx.drop (t.ndim - 2))⟩

/-- row `i` of a matrix, `edge_vecs[i]` -/
def rowOf (t : Tensor K) (i : ℕ) : Tensor K := ⟨t.shape.tail, fun idx => t.get (i :: idx)⟩

/-- the (unnormalised) amplitudes, torchmps/prob_mps.py:174-193 and :402-421 -/
noncomputable def ProbMPS.evalPsi [RCLike K] (m : ProbMPS K) (x : SeqInput K) (slimEval parallelEval : Bool) :
    Except Err (ContractOut K) := do
  if slimEval then
    if m.bias.isSome then throw .value                                           -- :175-176
    slimEvalFun x m.core m.edge                                                  -- :177-179
  else
    let mats ← getMatSlices x m.core                                             -- :182
    contractMatseq (.single (addBias mats m.bias)) (some (rowOf m.edge 0)) (some (rowOf m.edge 1))
      parallelEval                                                               -- :183-193

/-- `log_norm`, torchmps/prob_mps.py:232-255 and :435-460; `dataLen` is only used by uniform models. -/
noncomputable def ProbMPS.logNorm [RCLike K] (m : ProbMPS K) (dataLen : ℕ) : Except Err (Option EReal) := do
  let lamb ← (match m.embedding with
    | none => .ok none
    | some e => match e.lamb with
      | none => .error .attribute
      | some l => .ok (some l) : Except Err (Option (Tensor K)))                 -- :253
  getLogNorm (addBias m.core m.bias) m.edge (if m.uniform then some (dataLen : ℤ) else none) lamb

/-- `2 * (torch.log(torch.abs(psi)) + log_scale) - log_norm`, torchmps/prob_mps.py:201-204 -/
noncomputable def logProb [RCLike K] (psi : Option K) (scale : Option ℝ) (logNorm : EReal) : Option EReal := do
  let p ← psi
  let l ← scale
  let a ← torchLog ‖p‖
  return 2 * (a + (l : EReal)) - logNorm

/-- `x.isfinite()` -/
def finite? (x : Option EReal) : Prop := ∃ r : ℝ, x = some (r : EReal)

open Classical in
/-- the end of `forward`, torchmps/prob_mps.py:196-204 and :424-433 -/
noncomputable def ProbMPS.finish [RCLike K] (m : ProbMPS K) (batch : ℕ) (out : ContractOut K)
    (logNorm : Option EReal) : Except Err (Tensor (Option EReal)) := do
  assert (finite? logNorm)                                                       -- :197
  assert (∀ idx, InRange idx out.product.shape → (out.product.get idx).isSome)   -- :198
  if m.uniform then assert (out.product.shape = [batch])                         -- :430
  return ⟨out.product.shape, fun idx =>
    logProb (out.product.get idx) (out.logScale.get idx) (logNorm.getD 0)⟩       -- :201-204

/-- `forward` on data which has already been embedded, torchmps/prob_mps.py:174-204 and :402-433; `batch` and
`seqLen` are the first two axes of the input data. -/
noncomputable def ProbMPS.body [RCLike K] (m : ProbMPS K) (x : SeqInput K) (batch seqLen : ℕ)
    (slimEval parallelEval : Bool) : Except Err (Tensor (Option EReal)) := do
  let out ← m.evalPsi x slimEval parallelEval
  let ln ← m.logNorm seqLen
  m.finish batch out ln

/-- `forward`, torchmps/prob_mps.py:148-204 and :374-433: the log probabilities (or the exception), and
the model afterwards (a trainable embedding stores its lambda matrix). -/
noncomputable def ProbMPS.forward [RCLike K] (m : ProbMPS K) (x : SeqInput K) (slimEval parallelEval : Bool) :
    Except Err (Tensor (Option EReal)) × ProbMPS K :=
  if m.uniform = true ∧ x.shape.length < 2 then (.error .value, m)               -- :396
  else
    let batch := x.shape.getD 0 0
    let seqLen := x.shape.getD 1 0
    match m.embedding with
    | none => (m.body x batch seqLen slimEval parallelEval, m)
    | some e =>                                                                  -- :171-172, :399-400
      let (r, e') := e.forward x
      let m' := { m with embedding := some e' }
      (match r with
        | .error err => .error err
        | .ok v => m'.body (.floats v) batch seqLen slimEval parallelEval, m')

/-- `torch.mean` of a vector of log probabilities and `loss`, torchmps/prob_mps.py:206-230. Simplification:
`none` stands for NaN; `-inf` entries make the mean `-inf` and the loss `+inf`. -/
noncomputable def ProbMPS.loss [RCLike K] (m : ProbMPS K) (x : SeqInput K) (slimEval parallelEval : Bool) :
    Except Err (Option EReal) :=
  match (m.forward x slimEval parallelEval).1 with
  | .error e => .error e
  | .ok out =>
    let n := out.shape.getD 0 0
    if n = 0 then .ok none                                                       -- mean of an empty tensor
    else .ok (((List.range n).mapM (fun b => out.get [b])).map (fun l => -(l.sum / (n : EReal))))

end TorchMPS
