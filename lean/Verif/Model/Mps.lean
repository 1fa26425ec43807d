import Verif.Model.Contractables
import Verif.Model.InitData
/-
Model of `torchmps/torchmps.py`: the cores (InputRegion, MergedInput, InputSite, OutputSite, MergedOutput),
LinearRegion and the non-adaptive MPS. The adaptive part is in Model/Adaptive.lean, TI_MPS in Model/TiMps.lean.
-/
namespace TorchMPS
variable {K : Type}

/-- `torch.stack(ts, dim)` with its checks: a non-empty list of tensors of one shape, otherwise RuntimeError. -/
def stackAll (ts : List (Tensor K)) (pos : ℕ) : Except Err (Tensor K) :=
  match ts with
  | [] => .error .runtime
  | t :: ts => if ∀ u ∈ ts, u.shape = t.shape then .ok (t.stack ts pos) else .error .runtime

/-- elementwise sum of two tensors of the same shape -/
def Tensor.add [Add K] (a b : Tensor K) : Tensor K := ⟨a.shape, fun idx => a.get idx + b.get idx⟩

/-- The modules a LinearRegion is made of, with their parameters. For an InputRegion, `bias` is its `bias_mat`
if `use_bias`, otherwise `none` (the attribute is then never read). torchmps.py:990-1031, 1132-1151, 1236-1244,
1287-1295, 1327-1348. -/
inductive Module (K : Type) where
  | inputRegion (tensor : Tensor K) (bias : Option (Tensor K))
  | mergedInput (tensor : Tensor K)
  | inputSite (tensor : Tensor K)
  | outputSite (tensor : Tensor K)
  | mergedOutput (tensor : Tensor K) (leftOutput : Bool)

/-- the attribute `tensor` of a module -/
def Module.tensor : Module K → Tensor K
  | .inputRegion t _ => t
  | .mergedInput t => t
  | .inputSite t => t
  | .outputSite t => t
  | .mergedOutput t _ => t

/-- `len(module)`, the number of input sites: torchmps.py:1128-1129, 1229-1233, 1283-1284, 1323-1324, 1426-1427 -/
def Module.len : Module K → ℕ
  | .inputRegion t _ => t.shape.getD 0 0
  | .mergedInput t => 2 * t.shape.getD 0 0
  | .inputSite _ => 1
  | .outputSite _ => 0
  | .mergedOutput _ _ => 1

/-- `module.core_len()`, the number of cores: torchmps.py:1125-1126, 1226-1227, 1280-1281, 1320-1321, 1423-1424 -/
def Module.coreLen : Module K → ℕ
  | .inputRegion t _ => t.shape.getD 0 0
  | .mergedInput t => 2 * t.shape.getD 0 0
  | .inputSite _ => 1
  | .outputSite _ => 1
  | .mergedOutput _ _ => 2

/-- `torch.eye(n)` -/
def eyeMat [Zero K] [One K] (n : ℕ) : Tensor K := ⟨[n, n], fun idx => if idx.getD 0 0 = idx.getD 1 0 then 1 else 0⟩

/-- The bias matrix kept by `InputRegion.__init__`, torchmps.py:1006-1016: `biasMat`, the identity when it is not
given, with a leading axis added if it has just two. -/
def regionBias [Zero K] [One K] (D : ℕ) (biasMat : Option (Tensor K)) : Except Err (Tensor K) :=
  let bm := biasMat.getD ((eyeMat D).unsqueeze 0)
  if bm.ndim = 2 then .ok (bm.unsqueeze 0) else if bm.ndim = 3 then .ok bm else .error .assertion

/-- `InputRegion.__init__`, torchmps.py:995-1031. Whether tensors are registered as parameters or buffers
(`fixed_bias`, `ephemeral`) does not matter for values. -/
def mkInputRegion [Zero K] [One K] (t : Tensor K) (useBias : Bool) (biasMat : Option (Tensor K)) : Except Err (Module K) := do
  assert (t.ndim = 4)
  assert (t.shape.getD 1 0 = t.shape.getD 2 0)
  if useBias then do
    let bm ← regionBias (t.shape.getD 1 0) biasMat
    return .inputRegion t (some bm)
  else return .inputRegion t none

/-- Adding the bias matrices, torchmps.py:1050-1053: `bias_mat.unsqueeze(0).expand_as(mats)`. -/
def addRegionBias [Add K] (mats : Tensor K) : Option (Tensor K) → Except Err (Tensor K)
  | none => .ok mats
  | some bm => do
    let e ← (bm.unsqueeze 0).expand mats.shape
    return mats.add e

/-- The matrices computed by `InputRegion.forward`, torchmps.py:1041-1053. -/
def inputRegionMats [CommSemiring K] (t : Tensor K) (bias : Option (Tensor K)) (x : Tensor K) : Except Err (Tensor K) := do
  assert (x.ndim = 3)
  assert (x.shape.getD 1 0 = t.shape.getD 0 0)
  assert (x.shape.getD 2 0 = t.shape.getD 3 0)
  let mats ← einsum [['s', 'l', 'r', 'i'], ['b', 's', 'i']] ['b', 's', 'l', 'r'] [t, x]
  addRegionBias mats bias

/-- The matrices computed by `MergedInput.forward`, torchmps.py:1162-1174. -/
def mergedInputMats [CommSemiring K] (t : Tensor K) (x : Tensor K) : Except Err (Tensor K) := do
  assert (x.ndim = 3)
  assert (x.shape.getD 1 0 = 2 * t.shape.getD 0 0)
  assert (x.shape.getD 2 0 = t.shape.getD 3 0)
  assert (x.shape.getD 1 0 % 2 = 0)
  let n := x.shape.getD 1 0
  let even := x.sliceAx 1 0 2 ((n + 1) / 2)
  let odd := x.sliceAx 1 1 2 (n / 2)
  let h ← einsum [['s', 'l', 'r', 'i', 'j'], ['b', 's', 'j']] ['b', 's', 'l', 'r', 'i'] [t, odd]
  einsum [['b', 's', 'l', 'r', 'i'], ['b', 's', 'i']] ['b', 's', 'l', 'r'] [h, even]

/-- The matrix computed by `InputSite.forward`, torchmps.py:1253-1259. -/
def inputSiteMat [CommSemiring K] (t : Tensor K) (x : Tensor K) : Except Err (Tensor K) := do
  assert (x.ndim = 2)
  assert (x.shape.getD 1 0 = t.shape.getD 2 0)
  einsum [['l', 'r', 'i'], ['b', 'i']] ['b', 'l', 'r'] [t, x]

/-- The core computed by `MergedOutput.forward`, torchmps.py:1357-1363. -/
def mergedOutputCore [CommSemiring K] (t : Tensor K) (x : Tensor K) : Except Err (Tensor K) := do
  assert (x.ndim = 2)
  assert (x.shape.getD 1 0 = t.shape.getD 3 0)
  einsum [['o', 'l', 'r', 'i'], ['b', 'i']] ['b', 'o', 'l', 'r'] [t, x]

/-- `module.forward(input_data)`: the five `forward` methods, torchmps.py:1033-1055, 1153-1176, 1246-1261,
1297-1301, 1350-1365. The OutputSite ignores its input and wraps its unbatched tensor. -/
def Module.forward [CommSemiring K] : Module K → Tensor K → CM (Contractable K)
  | .inputRegion t bias, x => do
    let mats ← CM.lift (inputRegionMats t bias x)
    mkMatRegion mats
  | .mergedInput t, x => do
    let mats ← CM.lift (mergedInputMats t x)
    mkMatRegion mats
  | .inputSite t, x => do
    let mat ← CM.lift (inputSiteMat t x)
    mkSingleMat mat
  | .outputSite t, _ => mkOutputCore t
  | .mergedOutput t _, x => do
    let core ← CM.lift (mergedOutputCore t x)
    mkOutputCore core

/-! ### LinearRegion -/

/-- The part of the input for one module, torchmps.py:634-638: a module of length one gets the pixel without site
axis. -/
def pickInput (x : Tensor K) (ind len : ℕ) : Tensor K := if len = 1 then x.select 1 ind else x.sliceAx 1 ind 1 len

/-- The loop over the modules, torchmps.py:630-641, `ind` pixels being used up already. -/
def runModules [CommSemiring K] (x : Tensor K) : ℕ → List (Module K) → CM (List (Contractable K))
  | _, [] => return []
  | ind, m :: ms => do
    let c ← m.forward (pickInput x ind m.len)
    let cs ← runModules x (ind + m.len) ms
    return c :: cs

/-- The letters of the einsum taking the trace, torchmps.py:652-659 -/
def traceIn (s : List Char) : List Char := s.map (fun c => if c = 'l' ∨ c = 'r' then 'l' else c)
/-- the output letters of the trace, torchmps.py:652-659 -/
def traceOut (s : List Char) : List Char := s.filter (fun c => c ≠ 'l' ∧ c ≠ 'r')

/-- Periodic boundaries, torchmps.py:644-663. (The einsum model lets a size-1 axis match any size also for two axes
of one operand; the cores of the library are square.) -/
def closeRing [CommSemiring K] (cs : List (Contractable K)) : CM (Tensor K) := do
  let (c, _) ← reduceList cs true
  CM.lift (assert ('l' ∈ c.bondStr ∧ 'r' ∈ c.bondStr))
  CM.lift (einsum [traceIn c.bondStr] (traceOut c.bondStr) [c.tensor])

/-- `item.tensor.size(item.bond_str.index(d))`, torchmps.py:670-674; ValueError if the letter does not occur. -/
def bondSize (c : Contractable K) (d : Char) : Except Err ℕ :=
  if d ∈ c.bondStr then .ok (c.tensor.shape.getD (c.bondStr.idxOf d) 0) else .error .value

/-- `vec = torch.zeros(dim); vec[0] = 1`, torchmps.py:677-680 -/
def endVec [Zero K] [One K] (dim : ℕ) : Except Err (Tensor K) :=
  if dim = 0 then .error .index else .ok ⟨[dim], fun idx => if idx.getD 0 0 = 0 then 1 else 0⟩

/-- Open boundaries, torchmps.py:667-688. -/
def closeOpen [CommSemiring K] (cs : List (Contractable K)) (parallelEval : Bool) : CM (Tensor K) :=
  match cs.head?, cs.getLast? with
  | some first, some last => do
    let dl ← CM.lift (bondSize first 'l')
    let dr ← CM.lift (bondSize last 'r')
    let vl ← CM.lift (endVec dl)
    let vr ← CM.lift (endVec dr)
    let e ← mkEdgeVec vl true
    let r ← mkEdgeVec vr false
    let (c, _) ← reduceList (e :: cs ++ [r]) parallelEval
    return c.tensor
  | _, _ => CM.throw .index

/-- number of input sites of a list of modules, torchmps.py:696-700 -/
def modulesLen (ms : List (Module K)) : ℕ := (ms.map Module.len).sum

/-- `LinearRegion.forward`, torchmps.py:609-688. Devices are not modelled. -/
def linearForward [CommSemiring K] (ms : List (Module K)) (periodic parallelEval : Bool) (x : Tensor K) : CM (Tensor K) := do
  CM.lift (assert (x.ndim = 3))
  CM.lift (assert (x.shape.getD 1 0 = modulesLen ms))
  let cs ← runModules x 0 ms
  if periodic then closeRing cs else closeOpen cs parallelEval

/-! ### MPS -/

/-- A non-adaptive MPS. `path = none` also stands for an empty path: the code tests its truth value. `featureMap`
is the registered function (pure and total) from scalars to tensors; feature maps with parameters: `Model/FeatureModule.lean`. -/
structure MPS (K : Type) where
  inputDim : ℕ
  outputDim : ℕ
  bondDim : ℕ
  featureDim : ℕ
  periodic : Bool
  parallel : Bool
  path : Option (List ℤ)
  featureMap : Option (K → Tensor K)
  modules : List (Module K)

/-- `input_data[:, site_num]`, torchmps.py:473: negative numbers count from the end. IndexError for tensors with fewer
than two axes and for numbers out of range. -/
def pickPixel (x : Tensor K) (i : ℤ) : Except Err (Tensor K) :=
  if x.ndim < 2 then .error .index
  else
    let n : ℤ := x.shape.getD 1 0
    if -n ≤ i ∧ i < n then .ok (x.select 1 (if i < 0 then i + n else i).toNat) else .error .index

/-- all pixels of a path in order -/
def pickAll (x : Tensor K) : List ℤ → Except Err (List (Tensor K))
  | [] => .ok []
  | i :: is => do
    let t ← pickPixel x i
    let ts ← pickAll x is
    return t :: ts

/-- Rearrangement of the input along the path, torchmps.py:470-474. -/
def followPath (path : Option (List ℤ)) (x : Tensor K) : Except Err (Tensor K) :=
  match path with
  | none => .ok x
  | some is => do
    let ts ← pickAll x is
    stackAll ts 1

/-- The embedding by a registered map of a tensor of shape [batch, length], torchmps.py:222-227, 524-528: scalars one
by one, stacked. -/
def embedWith (f : K → Tensor K) (x : Tensor K) : Except Err (Tensor K) := do
  let rows ← (List.range (x.shape.getD 0 0)).mapM (fun b =>
    stackAll ((List.range (x.shape.getD 1 0)).map (fun i => f (x.get [b, i]))) 0)
  stackAll rows 0

/-- `torch.stack([x, 1 - x], dim=2)`, torchmps.py:543 -/
def embedLinear [One K] [Sub K] (x : Tensor K) : Tensor K :=
  ⟨x.shape ++ [2], fun idx => if idx.getD 2 0 = 0 then x.get (idx.take 2) else 1 - x.get (idx.take 2)⟩

/-- `MPS.embed_input`, torchmps.py:496-545. -/
def MPS.embedInput [One K] [Sub K] (m : MPS K) (x : Tensor K) : Except Err (Tensor K) := do
  assert (x.ndim = 2 ∨ x.ndim = 3)
  assert (x.shape.getD 1 0 = m.inputDim)
  if x.ndim = 3 then
    if x.shape.getD 2 0 ≠ m.featureDim then .error .value else .ok x
  else match m.featureMap with
    | some f => do
      let e ← embedWith f x
      assert (e.shape = [x.shape.getD 0 0, m.inputDim, m.featureDim])
      return e
    | none => if m.featureDim ≠ 2 then .error .runtime else .ok (embedLinear x)

/-- `MPS.register_feature_map`, torchmps.py:547-570: the model afterwards. -/
def MPS.registerFeatureMap [Zero K] (m : MPS K) (f : Option (K → Tensor K)) : Except Err (MPS K) :=
  match f with
  | none => .ok { m with featureMap := none }
  | some f => if (f 0).shape ≠ [m.featureDim] then .error .value else .ok { m with featureMap := some f }

/-- `MPS.forward` of a non-adaptive model, torchmps.py:453-478 (the linear region returns no tuple). -/
def MPS.forward [CommRing K] (m : MPS K) (x : Tensor K) : CM (Tensor K) := do
  let x ← CM.lift (followPath m.path x)
  let x ← CM.lift (m.embedInput x)
  linearForward m.modules m.periodic m.parallel x

/-- The argument `path` of `MPS.__init__`. -/
inductive PathArg where
  | none
  | list (is : List ℤ)
  | tensor (is : List ℤ)

/-- `if path: assert isinstance(...); assert len(path) == input_dim`, torchmps.py:435-437: the truth value of a list is
whether it is non-empty; of a tensor with one element that of the element; of any other tensor RuntimeError. -/
def checkPath (p : PathArg) (inputDim : ℕ) : Except Err (Option (List ℤ)) :=
  match p with
  | .none => .ok .none
  | .list is => if is = [] then .ok .none else do
      assert (is.length = inputDim)
      return some is
  | .tensor is =>
    match is with
    | [i] => if i = 0 then .ok .none else do
        assert (1 = inputDim)
        return some [i]
    | _ => .error .runtime

/-- Arguments of `MPS.__init__`, torchmps.py:340-356 (without those of the adaptive mode; `initializer` is ignored by the code). -/
structure MpsArgs where
  inputDim : ℕ
  outputDim : ℕ
  bondDim : ℕ
  featureDim : ℕ
  periodic : Bool
  parallel : Bool
  labelSite : Option ℤ
  path : PathArg
  initStd : ℝ
  useBias : Bool

/-- The Gaussian draws made by the constructor for the two input regions and the output core. -/
structure Draws where
  left : List ℕ → ℝ
  out : List ℕ → ℝ
  right : List ℕ → ℝ

/-- `label_site`, torchmps.py:359-361 -/
def labelOf (inputDim : ℕ) (labelSite : Option ℤ) : Except Err ℕ := do
  let l := labelSite.getD ((inputDim / 2 : ℕ) : ℤ)
  assert (0 ≤ l ∧ l ≤ inputDim)
  return l.toNat

/-- An input region of the constructor, torchmps.py:382-385, 400-408: nothing if it has no sites. -/
noncomputable def initRegion (noise : List ℕ → ℝ) (n D F : ℕ) (m : InitMethod) (useBias : Bool) : Except Err (List (Module ℝ)) :=
  if n = 0 then .ok []
  else do
    let t ← initTensor noise [n, D, D, F] ['s', 'l', 'r', 'i'] m
    let r ← mkInputRegion t useBias .none
    return [r]

/-- The modules made by the constructor, torchmps.py:369-408. -/
noncomputable def initModules (d : Draws) (n O D F k : ℕ) (std : ℝ) (useBias adaptive : Bool) : Except Err (List (Module ℝ)) := do
  let m := InitMethod.tuple (if adaptive then "min_random_eye" else "random_zero") (some std) (some O)
  let left ← initRegion d.left k D F m useBias
  let t ← initTensor d.out [O, D, D] ['o', 'l', 'r']
    (InitMethod.tuple (if adaptive then "min_random_eye" else "random_eye") (some std) (some O))
  let right ← initRegion d.right (n - k) D F m useBias
  return left ++ .outputSite t :: right

/-- `MPS.__init__` with `adaptive_mode=False`, torchmps.py:340-451. -/
noncomputable def MPS.init (d : Draws) (a : MpsArgs) : Except Err (MPS ℝ) := do
  let k ← labelOf a.inputDim a.labelSite
  let ms ← initModules d a.inputDim a.outputDim a.bondDim a.featureDim k a.initStd a.useBias false
  assert (modulesLen ms = a.inputDim)
  let path ← checkPath a.path a.inputDim
  return ⟨a.inputDim, a.outputDim, a.bondDim, a.featureDim, a.periodic, a.parallel, path, .none, ms⟩

end TorchMPS
