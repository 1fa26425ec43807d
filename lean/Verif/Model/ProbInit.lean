import Verif.Model.ProbMps
/-
Model of the constructors and properties of `ProbMPS` and `ProbUnifMPS`, torchmps/prob_mps.py:98-146, :257-271,
:325-372 and :462-472.
-/
namespace TorchMPS
variable {K : Type}

/-- A complex number as an element of `K`: the number itself for complex parameters; for real parameters the
initialisers only produce real numbers, of which this is the real part. -/
noncomputable def fromC [RCLike K] (z : ℂ) : K := (z.re : K) + (z.im : K) * RCLike.I

/-- entrywise conversion of a tensor -/
def Tensor.map {L : Type} (t : Tensor K) (f : K → L) : Tensor L := ⟨t.shape, fun idx => f (t.get idx)⟩

/-- The flag `complex_params`, carried by the type of the parameters. -/
noncomputable def complexParams (K : Type) [RCLike K] : Bool :=
  open Classical in decide (isComplex K)

/-- The random draws of one constructor call: the normal and phase draws of the core tensors, the uninitialised
`torch.empty` of `batch_to`, the normal draw of the boundary vector and the phases of `edge_vecs` and `bias_mat`. -/
structure InitDraws where
  coreZ : List ℕ → ℝ
  coreU : List ℕ → ℝ
  ref : List ℕ → ℂ
  vecZ : ℕ → ℝ
  edgeU : List ℕ → ℝ
  biasU : List ℕ → ℝ

/-- The argument `embed_fun`: absent, an embedding object, or a callable. -/
inductive EmbedArg (K : Type) where
  | none
  | object (e : Embedding K)
  | function (f : EmbFun K)

/-- The attribute `emb_dim` of an embedding object, set by `make_lambda` together with `lamb_mat`
(torchmps/embeddings.py:107, :118, :180, :191); absent before the first call of `make_lambda`. Simplification: the number of
components returned by the embedding function does not change between calls. -/
noncomputable def Embedding.embDim [RCLike K] (e : Embedding K) : Option ℕ :=
  match e.lamb with
  | .none => .none
  | some _ =>
    match e.embFun (lambdaPoints e.domain 1000).2 with
    | .ok v => some (v.shape.getD 1 0)
    | .error _ => .none

/-- the check of `emb_dim` of an embedding object, torchmps/prob_mps.py:139-141 and :365-367 -/
def checkEmbDim (dim : Option ℕ) (inputDim : ℤ) : Except Err Unit :=
  match dim with
  | .none => .ok ()
  | some d => assert ((d : ℤ) = inputDim)

/-- the embedding of a new model, torchmps/prob_mps.py:138-146 and :364-372 -/
noncomputable def initEmbedding [RCLike K] (emb : EmbedArg K) (domain : Option DataDomain) (inputDim : ℤ) :
    Except Err (Option (Embedding K)) :=
  match emb with
  | .none => .ok .none
  | .object e => do
    checkEmbDim e.embDim inputDim                                                -- :140-141
    return some e
  | .function f =>
    match domain with
    | .none => .error .assertion                                                 -- :143
    | some dom => do
      let e ← Embedding.fixed f dom                                              -- :144
      assert (e.embDim = some inputDim.toNat)                                    -- :145
      return some e

/-- the core tensor of a new model, torchmps/prob_mps.py:112-117 and :338-343 (`near_eye_init` has noise 0.001
by default, torchmps/mps_base.py:487) -/
noncomputable def initCore [RCLike K] (shape : Shape) (method : String) (r : InitDraws) :
    Except Err (Tensor K) := do
  let t ← (if method = "near_eye" then nearEyeInit shape (complexParams K) 1e-3 r.coreZ r.coreU r.ref
    else normalInit shape (complexParams K) 1 r.coreZ r.coreU)
  return t.map fromC

/-- the boundary vectors of a new model, torchmps/prob_mps.py:118-123 and :344-349 (the conjugate of a real vector is
the vector) -/
noncomputable def initEdge [RCLike K] (bondDim : ℕ) (r : InitDraws) : Tensor K :=
  let edge : Tensor ℝ := ⟨[2, bondDim], fun idx => r.vecZ (idx.getD 1 0) / Real.sqrt (bondDim : ℝ)⟩
  if complexParams K then (phaseify edge r.edgeU).map fromC else edge.map (fun x => (x : K))

/-- the bias matrix of a new model, torchmps/prob_mps.py:128-132 and :354-358 -/
noncomputable def initBias [RCLike K] (bondDim : ℕ) (r : InitDraws) : Tensor K :=
  let bias : Tensor ℝ := ⟨[bondDim, bondDim], fun _ => 0⟩
  if complexParams K then (phaseify bias r.biasU).map fromC else bias.map (fun x => (x : K))

/-- `ProbMPS.__init__` (`seqLen = some n`), torchmps/prob_mps.py:98-146, and `ProbUnifMPS.__init__` (`seqLen = none`),
torchmps/prob_mps.py:325-372. -/
noncomputable def ProbMPS.init [RCLike K] (seqLen : Option ℤ) (inputDim bondDim : ℤ) (useBias : Bool)
    (method : String) (emb : EmbedArg K) (domain : Option DataDomain) (r : InitDraws) :
    Except Err (ProbMPS K) := do
  assert ((∀ n ∈ seqLen, 0 < n) ∧ 0 < inputDim ∧ 0 < bondDim)                    -- :110, :336
  assert (method = "near_eye" ∨ method = "normal")                               -- :113, :339
  let core ← initCore ((seqLen.map Int.toNat).toList ++ [inputDim.toNat, bondDim.toNat, bondDim.toNat]) method r
  let embedding ← initEmbedding emb domain inputDim
  return { uniform := seqLen.isNone, core := core, edge := initEdge bondDim.toNat r,
           bias := if useBias then some (initBias bondDim.toNat r) else .none,
           embedding := embedding }

/-- `seq_len`, torchmps/prob_mps.py:257-259 (inherited by `ProbUnifMPS`) -/
def ProbMPS.seqLen (m : ProbMPS K) : ℕ := m.core.shape.getD 0 0

/-- `input_dim`, torchmps/prob_mps.py:261-263 and :462-464 -/
def ProbMPS.inputDim (m : ProbMPS K) : ℕ := m.core.shape.getD (if m.uniform then 0 else 1) 0

/-- `bond_dim`, torchmps/prob_mps.py:265-267 and :466-468 -/
def ProbMPS.bondDim (m : ProbMPS K) : ℕ := m.core.shape.getD (if m.uniform then 1 else 2) 0

/-- `use_bias`, torchmps/prob_mps.py:269-271 and :470-472 -/
def ProbMPS.useBias (m : ProbMPS K) : Bool := m.bias.isSome

end TorchMPS
