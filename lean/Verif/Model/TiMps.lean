import Verif.Model.Mps
/-
Model of `TI_MPS`, `InitialVector` and `TerminalOutput` in `torchmps/torchmps.py`.
-/
namespace TorchMPS
variable {K : Type}

/-- A TI_MPS with the current values of its parameters and buffers: `core` is `core_tensor`, `initVec` is `init_vector.vec`, `termMat` is
`terminal_mat.mat`, `biasMat` is `bias_mat` (`none` is Python's None). torchmps.py:24-77. -/
structure TiMps (K : Type) where
  outputDim : ℕ
  bondDim : ℕ
  featureDim : ℕ
  parallel : Bool
  useBias : Bool
  fixedBias : Bool
  featureMap : Option (K → Tensor K)
  core : Tensor K
  initVec : Tensor K
  termMat : Tensor K
  biasMat : Option (Tensor K)

/-- `InitialVector.__init__`, torchmps.py:1442-1459: the vector. Whether it is a parameter or a buffer does not matter for values. -/
def initialVector [Zero K] [One K] (bondDim : ℕ) (fillDim : Option ℤ) : Except Err (Tensor K) :=
  match fillDim with
  | none => .ok ⟨[bondDim], fun _ => 1⟩
  | some d => do
    assert (0 ≤ d ∧ d ≤ bondDim)
    return ⟨[bondDim], fun idx => if idx.getD 0 0 < d.toNat then 1 else 0⟩

/-- `TerminalOutput.__init__`, torchmps.py:1482-1509: the matrix; `noise` are the Gaussian draws. -/
noncomputable def terminalOutput (noise : List ℕ → ℝ) (bondDim outputDim : ℕ) (fixedMat : Bool) : Except Err (Tensor ℝ) :=
  if fixedMat = true ∧ bondDim < outputDim then .error .value
  else .ok ⟨[bondDim, outputDim], fun idx => (if idx.getD 0 0 = idx.getD 1 0 then 1 else 0) + if fixedMat then 0 else noise idx / bondDim⟩

/-- The Gaussian draws made by the constructor for core, terminal matrix and bias. -/
structure TiDraws where
  core : List ℕ → ℝ
  term : List ℕ → ℝ
  bias : List ℕ → ℝ

/-- The bias matrix made by the constructor, torchmps.py:51-66. -/
noncomputable def tiBias (d : TiDraws) (bondDim : ℕ) (std : ℝ) (useBias fixedBias : Bool) : Except Err (Option (Tensor ℝ)) :=
  if useBias then
    if fixedBias then .ok (some (eyeMat bondDim))
    else do
      let b ← initTensor d.bias [bondDim, bondDim] ['l', 'r'] (.tuple "random_eye" (some std) none)
      return some b
  else .ok none

/-- `TI_MPS.__init__`, torchmps.py:24-77. (`fixed_ends` is a bool by type.) -/
noncomputable def TiMps.init (d : TiDraws) (outputDim bondDim featureDim : ℕ) (parallel fixedEnds : Bool) (std : ℝ) (useBias fixedBias : Bool) :
    Except Err (TiMps ℝ) := do
  let core ← initTensor d.core [bondDim, bondDim, featureDim] ['l', 'r', 'i'] (.tuple "random_zero" (some std) none)
  let v ← initialVector bondDim none
  let t ← terminalOutput d.term bondDim outputDim fixedEnds
  let b ← tiBias d bondDim std useBias fixedBias
  return ⟨outputDim, bondDim, featureDim, parallel, useBias, fixedBias, none, core, v, t, b⟩

/-- What `forward` is given: a tensor, a list of tensors, or something else. (Lists with items that are not tensors are not modelled.) -/
inductive TiInput (K : Type) where
  | batch (t : Tensor K)
  | list (ts : List (Tensor K))
  | other

/-- `TI_MPS.embed_input`, torchmps.py:202-246. -/
def TiMps.embedInput [One K] [Sub K] (m : TiMps K) (x : Tensor K) : Except Err (Tensor K) := do
  assert (x.ndim = 2)
  match m.featureMap with
  | some f => do
    let e ← embedWith f x
    assert (e.shape = [x.shape.getD 0 0, x.shape.getD 1 0, m.featureDim])
    return e
  | none => if m.featureDim ≠ 2 then .error .runtime else .ok (embedLinear x)

/-- `batch_input[i, : seq.size(0)] = seq` for all sequences in order, into zeros of the length of the longest, torchmps.py:178-185.
`rest` are the axes after the sequence axis. -/
def padSeqs [Zero K] (ts : List (Tensor K)) (maxLen : ℕ) (rest : Shape) : Tensor K :=
  ⟨ts.length :: maxLen :: rest, fun idx =>
    match ts[idx.getD 0 0]? with
    | some t => if idx.getD 1 0 < t.shape.getD 0 0 then t.get (idx.drop 1) else 0
    | none => 0⟩

/-- `max([s.size(0) for s in input_data])`, torchmps.py:166 -/
def maxLen (ts : List (Tensor K)) : ℕ := ts.foldl (fun a t => max a (t.shape.getD 0 0)) 0

/-- The batch tensor made of a list of sequences of rank `modes`: padded if there is a fixed bias, otherwise stacked, torchmps.py:168,
176-187. -/
def collate [Zero K] (m : TiMps K) (ts : List (Tensor K)) (modes : ℕ) : Except Err (Tensor K) :=
  if m.useBias = true ∧ m.fixedBias = true then .ok (padSeqs ts (maxLen ts) (if modes = 2 then [m.featureDim] else [])) else stackAll ts 0

/-- `if len(x.shape) == 2: x = self.embed_input(x)`, torchmps.py:141-142, 190-191 -/
def TiMps.embedIfRaw [One K] [Sub K] (m : TiMps K) (x : Tensor K) : Except Err (Tensor K) := if x.ndim = 2 then m.embedInput x else .ok x

/-- `TI_MPS.format_input`, torchmps.py:117-200. -/
def TiMps.formatInput [CommRing K] (m : TiMps K) : TiInput K → Except Err (Tensor K)
  | .batch t => do
    let t ← m.embedIfRaw t
    assert (t.ndim = 3)
    assert (t.shape.getD 2 0 = m.featureDim)
    return t
  | .list ts =>
    match ts with
    | [] => .error .index
    | t₀ :: _ => do
      assert (t₀.ndim = 1 ∨ t₀.ndim = 2)
      assert (∀ s ∈ ts, s.ndim = t₀.ndim)
      assert (t₀.ndim = 1 ∨ ∀ s ∈ ts, s.shape.getD 1 0 = m.featureDim)
      if ¬ (m.useBias = true ∧ m.fixedBias = true) ∧ ∃ s ∈ ts, s.shape.getD 0 0 ≠ maxLen ts then .error .value
      else do
        let b ← collate m ts t₀.ndim
        m.embedIfRaw b
  | .other => .error .value

/-- `TI_MPS.forward`, torchmps.py:79-115. -/
def TiMps.forward [CommRing K] (m : TiMps K) (inp : TiInput K) : CM (Tensor K) := do
  let x ← CM.lift (m.formatInput inp)
  let core ← CM.lift ((m.core.unsqueeze 0).expand [x.shape.getD 1 0, m.bondDim, m.bondDim, m.featureDim])
  let r ← CM.lift (mkInputRegion core m.useBias m.biasMat)
  let c ← r.forward x
  let e ← mkEdgeVec m.initVec true
  let t ← mkOutputMat m.termMat false
  let (o, _) ← reduceList [e, c, t] m.parallel
  CM.lift (assert (o.bondStr = ['b', 'o']))
  CM.lift (assert (o.tensor.shape.getD 0 0 = x.shape.getD 0 0))
  CM.lift (assert (o.tensor.shape.getD 1 0 = m.outputDim))
  return o.tensor

/-- `TI_MPS.register_feature_map`, torchmps.py:248-272: the model afterwards. -/
def TiMps.registerFeatureMap [Zero K] (m : TiMps K) (f : Option (K → Tensor K)) : Except Err (TiMps K) :=
  match f with
  | none => .ok { m with featureMap := none }
  | some f => if (f 0).shape ≠ [m.featureDim] then .error .value else .ok { m with featureMap := some f }

end TorchMPS
