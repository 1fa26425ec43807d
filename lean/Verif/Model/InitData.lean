import Verif.Base.View
import Mathlib.Analysis.SpecialFunctions.Pow.Real
import Mathlib.Data.Nat.Digits.Defs
/-
Model of `torchmps/utils.py`: `init_tensor`, `onehot`, `joint_shuffle`, `load_HV_data`.
-/
namespace TorchMPS
variable {K : Type}

/-! ### init_tensor -/

/-- The `init_method` argument: a string, or a tuple (method, std, init_dim) of which the later entries may
be missing. -/
inductive InitMethod where
  | name (s : String)
  | tuple (s : String) (std : Option ℝ) (initDim : Option ℕ)

/-- `torch.eye(n, m)` -/
def eyeTensor (n m : ℕ) : Tensor ℝ := ⟨[n, m], fun idx => if idx.getD 0 0 = idx.getD 1 0 then 1 else 0⟩

/-- `tensor[[slice(d) for d in dims]] = v`: the leading block of sizes `dims` (cut at the size of the
tensor) is overwritten; `v` is broadcast to the size of the block. (Indexing with a list of slices is
indexing with the tuple of them.) -/
def assignBlock (t : Tensor ℝ) (dims : Shape) (v : Tensor ℝ) : Except Err (Tensor ℝ) := do
  let v' ← v.expand (List.zipWith min dims t.shape)
  return ⟨t.shape, fun idx => if InRange idx dims then v'.get idx else t.get idx⟩

/-- Unpacking of `init_method`, torchmps/utils.py:194-202: method, std, init_dim (unset for strings). -/
noncomputable def unpackInit : InitMethod → Except Err (String × ℝ × Option ℕ)
  | .name s => .ok (s, (1e-9 : ℝ), none)
  | .tuple s std dim =>
    match std with
    | none => .error .index
    | some x =>
      if s = "min_random_eye" then
        match dim with
        | none => .error .index
        | some d => .ok (s, x, some d)
      else .ok (s, x, none)

/-- The identity block of `init_tensor`, torchmps/utils.py:240-244. -/
def eyeBlock (shape eyeShape expandShape : Shape) (dl dr : ℕ) : Except Err (Tensor ℝ) := do
  let e ← (eyeTensor dl dr).view eyeShape
  let e ← e.expand expandShape
  assignBlock ⟨shape, fun _ => 0⟩ expandShape e

/-- `shape[bond_str.index(c)]` -/
def axisSize (shape : Shape) (bondStr : List Char) (c : Char) : ℕ := shape.getD (bondStr.idxOf c) 0

/-- sizes with `d` (or the size itself, when `none`) at the letters `l`, `r`, and `other` elsewhere -/
def bondShape (shape : Shape) (bondStr : List Char) (d : Option ℕ) (one : Bool) : Shape :=
  List.zipWith (fun n c => if c = 'l' ∨ c = 'r' then d.getD n else if one then 1 else n) shape bondStr

/-- The deterministic part of `init_tensor` for the two identity methods, torchmps/utils.py:211-244.
A missing `init_dim` (method given as a string) is Python's unbound local variable. -/
def initEye (shape : Shape) (bondStr : List Char) (minEye : Bool) (initDim : Option ℕ) :
    Except Err (Tensor ℝ) := do
  assert ('l' ∈ bondStr ∧ 'r' ∈ bondStr)
  let dl := axisSize shape bondStr 'l'
  let dr := axisSize shape bondStr 'r'
  if minEye then
    match initDim with
    | none => .error .unboundLocal
    | some d =>
      if d ≤ dl ∧ d ≤ dr then
        eyeBlock shape (bondShape shape bondStr (some d) true) (bondShape shape bondStr (some d) false) d d
      else
        let d' := min dl dr
        eyeBlock shape (bondShape shape bondStr (some d') true) (bondShape shape bondStr (some d') false) dl dr
  else eyeBlock shape (bondShape shape bondStr none true) shape dl dr

/-- `init_tensor`, torchmps/utils.py:160-252. `noise` is the draw of `torch.randn(shape)`. -/
noncomputable def initTensor (noise : List ℕ → ℝ) (shape : Shape) (bondStr : List Char) (m : InitMethod) :
    Except Err (Tensor ℝ) := do
  let (method, std, initDim) ← unpackInit m
  assert (shape.length = bondStr.length)
  assert (bondStr.dedup.length = bondStr.length)
  if method = "random_eye" ∨ method = "min_random_eye" then do
    let t ← initEye shape bondStr (method = "min_random_eye") initDim
    return ⟨shape, fun idx => t.get idx + std * noise idx⟩
  else if method = "random_zero" then .ok ⟨shape, fun idx => std * noise idx⟩
  else .error .value

/-! ### onehot -/

/-- Assignment `label_vecs[i, label] = 1.0`: negative labels count from the end, labels outside
`-m .. m-1` raise IndexError. -/
def setOne (m : ℕ) (v : ℕ → ℕ → ℝ) (i : ℕ) (label : ℤ) : Except Err (ℕ → ℕ → ℝ) :=
  if -(m : ℤ) ≤ label ∧ label < m then
    let j := (if label < 0 then label + m else label).toNat
    .ok (fun a b => if a = i ∧ b = j then 1 else v a b)
  else .error .index

/-- The loop of `onehot`, torchmps/utils.py:265-266, from row `i` on. -/
def onehotLoop (m : ℕ) : ℕ → List ℤ → (ℕ → ℕ → ℝ) → Except Err (ℕ → ℕ → ℝ)
  | _, [], v => .ok v
  | i, label :: rest, v => do
    let v ← setOne m v i label
    onehotLoop m (i + 1) rest v

/-- `onehot`, torchmps/utils.py:258-268. -/
def onehot (labels : List ℤ) (m : ℕ) : Except Err (Tensor ℝ) := do
  let v ← onehotLoop m 0 labels (fun _ _ => 0)
  return ⟨[labels.length, m], fun idx => v (idx.getD 0 0) (idx.getD 1 0)⟩

/-! ### joint_shuffle -/

/-- exchange the entries at two positions -/
def swapAt {α : Type} (xs : List α) (i j : ℕ) : List α :=
  match xs[i]?, xs[j]? with
  | some a, some b => (xs.set i b).set j a
  | _, _ => xs

/-- The loop of `numpy.random.shuffle` (Fisher-Yates): `for i in reversed(range(1, n)): swap(i, j)` where `j`
is drawn from `0..i`. `draw i` is that draw. -/
def shuffleLoop {α : Type} (draw : ℕ → ℕ) : ℕ → List α → List α
  | 0, xs => xs
  | i + 1, xs => shuffleLoop draw i (swapAt xs (i + 1) (draw (i + 1)))

/-- `numpy.random.seed(0); numpy.random.shuffle(xs)` along the first axis. `rng n i` is the draw made in step `i`
for an array with `n` entries; seeding with the same value makes it a function of these two numbers. -/
def npShuffle {α : Type} (rng : ℕ → ℕ → ℕ) (xs : List α) : List α :=
  shuffleLoop (rng xs.length) (xs.length - 1) xs

/-- A tensor seen as the list of its slices along the first axis, with its device. -/
structure DeviceList (α : Type) where
  cuda : Bool
  rows : List α

/-- `joint_shuffle`, torchmps/utils.py:271-293. Returns the two results; on the CPU the arguments
themselves are shuffled in place and the results share their memory (see `jointShuffleArgs`). -/
def jointShuffle {α β : Type} (rng : ℕ → ℕ → ℕ) (data : DeviceList α) (labels : DeviceList β) :
    Except Err (DeviceList α × DeviceList β) := do
  assert (data.cuda = labels.cuda)
  return (⟨data.cuda, npShuffle rng data.rows⟩, ⟨data.cuda, npShuffle rng labels.rows⟩)

/-- The contents of the *arguments* of `joint_shuffle` after the call: `numpy()` shares memory
with CPU tensors (torchmps/utils.py:281), `.cpu()` makes a copy of CUDA tensors (line 279). -/
def jointShuffleArgs {α β : Type} (rng : ℕ → ℕ → ℕ) (data : DeviceList α) (labels : DeviceList β) :
    DeviceList α × DeviceList β :=
  if data.cuda = labels.cuda ∧ data.cuda = false then
    (⟨data.cuda, npShuffle rng data.rows⟩, ⟨labels.cuda, npShuffle rng labels.rows⟩)
  else (data, labels)

/-! ### load_HV_data -/

/-- `"{:0Lb}".format(i)` as a list of digits, torchmps/utils.py:322-326: binary digits of `i`, most significant
first, padded with zeros to width `L`. -/
def hvPattern (L i : ℕ) : List ℕ :=
  let ds := if i = 0 then [0] else (Nat.digits 2 i).reverse
  List.replicate (L - ds.length) 0 ++ ds

/-- `images[2*i-2, j, :] = val` for all `j`, torchmps/utils.py:328-330: row `j` is constant. -/
def hvHorizontal (L : ℕ) (pattern : List ℕ) : List (List ℕ) := pattern.map (fun v => List.replicate L v)

/-- `images[2*i-1, :, j] = val` for all `j`, torchmps/utils.py:331-332: column `j` is constant. -/
def hvVertical (L : ℕ) (pattern : List ℕ) : List (List ℕ) := List.replicate L pattern

/-- The generated images in order, torchmps/utils.py:324-332. Every position is written exactly once, in
increasing order. -/
def hvImages (L : ℕ) : List (List (List ℕ)) :=
  (List.range (4 * (2 ^ (L - 1) - 1) / 2)).flatMap (fun k =>
    [hvHorizontal L (hvPattern L (k + 1)), hvVertical L (hvPattern L (k + 1))])

/-- The labels in order, torchmps/utils.py:334-335. -/
def hvLabels (L : ℕ) : List ℕ := (List.range (4 * (2 ^ (L - 1) - 1) / 2)).flatMap (fun _ => [0, 1])

/-- The result of `load_HV_data`. -/
structure HVData where
  trainImages : List (List (List ℕ))
  trainLabels : List ℕ
  testImages : List (List (List ℕ))
  testLabels : List ℕ

/-- `load_HV_data`, torchmps/utils.py:296-351. `npHasInt`: whether the installed numpy has the alias
`np.int` (removed in numpy 1.24; line 319 then raises AttributeError). For `length = 0` the image count is
the float `-2.0` and `np.empty` raises TypeError. -/
def loadHVData (npHasInt : Bool) (rng : ℕ → ℕ → ℕ) (L : ℕ) : Except Err HVData :=
  if L = 0 then .error .type
  else if !npHasInt then .error .attribute
  else
    let split := 4 * (2 ^ (L - 1) - 1) / 4
    let images := npShuffle rng (hvImages L)
    let labels := npShuffle rng (hvLabels L)
    .ok ⟨images.drop split, labels.drop split, images.take split, labels.take split⟩

end TorchMPS
