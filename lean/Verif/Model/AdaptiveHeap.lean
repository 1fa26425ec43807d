import Verif.Model.Adaptive
/-
The adaptive mode of `torchmps/torchmps.py` with the identity of module objects: `Model/Adaptive.lean` computes with the values of modules, here lists of modules
hold references into a store, modules which are kept are kept as the same object, and `rescale_norm` and the update of the merged lists write into the
tensors of the objects. (Every module of the merged lists has one parameter, `tensor`, created with the module, so the identity of a module is that of its
parameter.)
Simplifications: slices `self[i]` of an InputRegion share the memory of the region they are taken from, but that region is discarded and no two modules kept
share entries; objects created by a computation which raises an exception are not accounted for. NaN stops the model as in `Model/Adaptive.lean`.
-/
namespace TorchMPS

/-- the objects: `mem i` is the object number `i`, the numbers from `next` on are free -/
structure Heap where
  next : ℕ
  mem : ℕ → Module ℝ

/-- the current values of the objects of a list -/
def Heap.vals (h : Heap) (l : List ℕ) : List (Module ℝ) := l.map h.mem

/-- creating new objects -/
def Heap.alloc (h : Heap) : List (Module ℝ) → List ℕ × Heap
  | [] => ([], h)
  | m :: ms =>
    let r := Heap.alloc ⟨h.next + 1, Function.update h.mem h.next m⟩ ms
    (h.next :: r.1, r.2)

/-- writing into an object -/
def Heap.write (h : Heap) (i : ℕ) (m : Module ℝ) : Heap := ⟨h.next, Function.update h.mem i m⟩

/-- Merging the cores internally, torchmps.py:779-794: cores without `_merge` are kept -/
def hInternalMerge (h : Heap) : ℕ → List ℕ → Except Err (List ℕ × Heap)
  | _, [] => .ok ([], h)
  | s, i :: is =>
    match h.mem i with
    | .mergedInput _ => .error .assertion
    | .mergedOutput _ _ => .error .assertion
    | .inputRegion t b => do
      let a ← regionMerge t (s % 2)
      let r ← hInternalMerge (h.alloc a).2 (s + (Module.inputRegion t b).coreLen) is
      return ((h.alloc a).1 ++ r.1, r.2)
    | m => do
      let r ← hInternalMerge h (s + m.coreLen) is
      return (i :: r.1, r.2)

/-- one pass from a module on, torchmps.py:799-824 and 881-901: `combine` makes a new object, modules which are not combined are kept -/
def hSweepRest (h : Heap) (merging : Bool) (offset : ℕ) : ℕ → List ℕ → Except Err (List ℕ × Heap)
  | s, i :: j :: rest => do
    let c ← combineCores merging (h.mem i) (h.mem j)
    match c with
    | none => do
      let r ← hSweepRest h merging offset (s + (h.mem i).coreLen) (j :: rest)
      return (i :: r.1, r.2)
    | some c =>
      if merging = true ∧ offset ≠ s % 2 then do
        let r ← hSweepRest h merging offset (s + (h.mem i).coreLen) (j :: rest)
        return (i :: r.1, r.2)
      else do
        assert (merging = false ∨ c.coreLen = (h.mem i).coreLen + (h.mem j).coreLen)
        let r ← hSweepRest (h.alloc [c]).2 merging offset (s + c.coreLen) rest
        return ((h.alloc [c]).1 ++ r.1, r.2)
  | _, l => return (l, h)
termination_by _ l => l.length

/-- one pass, torchmps.py:797-824, 879-901 -/
def hSweep (h : Heap) (merging : Bool) (offset : ℕ) (l : List ℕ) : Except Err (List ℕ × Heap) :=
  if l.length < 2 then .ok ([], h) else hSweepRest h merging offset 0 l

/-- passes until the length does not change, torchmps.py:796-831, 878-907 -/
def hSweeps (merging : Bool) (offset : ℕ) : ℕ → Heap → List ℕ → Except Err (List ℕ × Heap)
  | 0, h, l => .ok (l, h)
  | fuel + 1, h, l => do
    let r ← hSweep h merging offset l
    if r.1.length = l.length then return (l, h) else hSweeps merging offset fuel r.2 r.1

/-- the new merged list computed by `_merge`, torchmps.py:767-831 -/
def hMergeList (h : Heap) (offset : ℕ) (l : List ℕ) : Except Err (List ℕ × Heap) := do
  assert (offset = 0 ∨ offset = 1)
  let r ← hInternalMerge h offset l
  hSweeps true offset (r.1.length + 1) r.2 r.1

/-- The in-place update of an existing merged list, torchmps.py:844-846 -/
def hOverwrite (h : Heap) : List ℕ → List ℕ → Except Err Unit × Heap
  | i :: is, j :: js =>
    if (h.mem i).tensor.shape = (h.mem j).tensor.shape then hOverwrite (h.write i ((h.mem i).setTensor (h.mem j).tensor)) is js
    else (.error .assertion, h)
  | _, _ => (.ok (), h)

/-- torchmps.py:841-846 -/
def hUpdateList (h : Heap) (old new : List ℕ) : Except Err Unit × Heap :=
  if old.length = new.length then hOverwrite h old new else (.error .assertion, h)

/-- torchmps.py:859-876: cores without `_unmerge` are kept -/
noncomputable def hUnmergeAll (svd : Mat ℝ → SVD) (pop : List Char → Char) (cutoff : ℝ) (h : Heap) : List ℕ → Except Err ((List ℕ × List BondEntry) × Heap)
  | [] => .ok (([], []), h)
  | i :: is =>
    match h.mem i with
    | .inputSite _ => do
      let r ← hUnmergeAll svd pop cutoff h is
      return ((i :: r.1.1, none :: r.1.2), r.2)
    | .outputSite _ => do
      let r ← hUnmergeAll svd pop cutoff h is
      return ((i :: r.1.1, none :: r.1.2), r.2)
    | m => do
      let a ← unmergeModule svd pop cutoff m
      let r ← hUnmergeAll svd pop cutoff (h.alloc a.1).2 is
      return (((h.alloc a.1).1 ++ r.1.1, a.2 ++ r.1.2), r.2)

/-- `core.rescale_norm(these_scales)` for all cores, torchmps.py:918-919, in place -/
def hScale (h : Heap) : List (ℕ × List ℝ) → Heap
  | [] => h
  | (i, sc) :: l => hScale (h.write i ((h.mem i).rescale sc)) l

open Classical in
/-- torchmps.py:909-919 -/
noncomputable def hRescale (h : Heap) (l : List ℕ) : Except Err Heap :=
  let ms := h.vals l
  if (ms.map (fun m => m.norms.length)).sum = 0 then .error .zeroDivision
  else if ∃ m ∈ ms, (0 : ℝ) ∈ m.norms then .error .nan
  else .ok (hScale h (l.zip (ms.map (fun m => m.norms.map (fun x => Real.exp (logScale ms - Real.log x))))))

/-- `_unmerge`, torchmps.py:848-924 -/
noncomputable def hUnmergeList (svd : Mat ℝ → SVD) (pop : List Char → Char) (cutoff : ℝ) (h : Heap) (l : List ℕ) : Except Err ((List ℕ × List BondEntry) × Heap) := do
  let r ← hUnmergeAll svd pop cutoff h l
  let s ← hSweeps false 0 (r.1.1.length + 1) r.2 r.1.1
  let h' ← hRescale s.2 s.1
  return ((s.1, none :: r.1.2), h')

/-- The state of a MergedLinearRegion: `module_list_0`, `module_list_1`, and `module_list` if it is neither of them. -/
structure HRegion where
  heap : Heap
  list0 : List ℕ
  list1 : List ℕ
  offset : ℕ
  stray : Option (List ℕ)
  counter : ℕ
  threshold : ℕ
  cutoff : ℝ

/-- `getattr(self, f"module_list_{offset}")` -/
def HRegion.listAt (r : HRegion) (offset : ℕ) : List ℕ := if offset = 0 then r.list0 else r.list1

/-- `self.module_list` -/
def HRegion.active (r : HRegion) : List ℕ := r.stray.getD (r.listAt r.offset)

/-- `MergedLinearRegion.__init__`, torchmps.py:708-730; `_merge` is called twice with the same unmerged modules. -/
def HRegion.init (ms : List (Module ℝ)) (cutoff : ℝ) (threshold : ℕ) : Except Err HRegion := do
  let u := Heap.alloc ⟨0, fun _ => .outputSite ⟨[], fun _ => 0⟩⟩ ms
  let l0 ← hMergeList u.2 0 u.1
  let l1 ← hMergeList l0.2 1 u.1
  return ⟨l1.2, l0.1, l1.1, 0, none, 0, threshold, cutoff⟩

/-- The flip of the merge state, torchmps.py:745-752 -/
noncomputable def HRegion.flip (svd : Mat ℝ → SVD) (pop : List Char → Char) (r : HRegion) : Except Err (List BondEntry) × HRegion :=
  match hUnmergeList svd pop r.cutoff r.heap (r.listAt r.offset) with
  | .error e => (.error e, r)
  | .ok ((us, bonds), h) =>
    let r1 := { r with heap := h, stray := some us, offset := (r.offset + 1) % 2 }
    match hMergeList h r1.offset us with
    | .error e => (.error e, r1)
    | .ok (l, h) =>
      match hUpdateList h (r1.listAt r1.offset) l with
      | (.error e, h) => (.error e, { r1 with heap := h })
      | (.ok _, h) => (.ok bonds, { r1 with heap := h, stray := none, counter := r.counter - r.threshold })

/-- torchmps.py:744-754 -/
noncomputable def HRegion.maybeFlip (svd : Mat ℝ → SVD) (pop : List Char → Char) (r : HRegion) : Except Err (Option (List BondEntry)) × HRegion :=
  if r.counter ≥ r.threshold then
    match r.flip svd pop with
    | (.ok b, r') => (.ok (some b), r')
    | (.error e, r') => (.error e, r')
  else (.ok none, r)

/-- `linear_region.parameters()`: the parameters of the registered submodules in the order of registration - `module_list`, `module_list_0`,
`module_list_1` (torchmps.py:605, 837, 730) - each object once. -/
def HRegion.parameters (r : HRegion) : List ℕ := (r.active ++ r.list0 ++ r.list1).reverse.dedup.reverse

/-- an MPS in adaptive mode (see `AdMps`) -/
structure HMps where
  mps : MPS ℝ
  region : HRegion
  bondList : List ℕ
  svList : List (Tensor ℝ)

/-- `MPS.forward` in adaptive mode, torchmps.py:453-494, 732-764 (see `AdMps.forward`) -/
noncomputable def HMps.forward (svd : Mat ℝ → SVD) (pop : List Char → Char) (m : HMps) (x : Tensor ℝ) (g : Option ℕ) :
    Except Err (Tensor ℝ) × HMps × Option ℕ :=
  match followPath m.mps.path x >>= m.mps.embedInput with
  | .error e => (.error e, m, g)
  | .ok e =>
    match m.region.maybeFlip svd pop with
    | (.error er, r) => (.error er, { m with region := r }, g)
    | (.ok nb, r) =>
      let r := { r with counter := r.counter + e.shape.getD 0 0 }
      match linearForward (r.heap.vals r.active) m.mps.periodic m.mps.parallel e g with
      | (.error er, g') => (.error er, { m with region := r }, g')
      | (.ok y, g') =>
        match nb with
        | none => (.ok y, { m with region := r }, g')
        | some nb =>
          if nb.length = m.bondList.length then
            (.ok y, { m with region := r, bondList := (assignBonds nb m.bondList m.svList).1, svList := (assignBonds nb m.bondList m.svList).2 }, g')
          else (.error .assertion, { m with region := r }, g')

/-- `MPS.__init__` with `adaptive_mode=True`, torchmps.py:340-451 -/
noncomputable def HMps.init (d : Draws) (a : MpsArgs) (cutoff : ℝ) (threshold : ℕ) : Except Err HMps := do
  let k ← labelOf a.inputDim a.labelSite
  let ms ← initModules d a.inputDim a.outputDim a.bondDim a.featureDim k a.initStd false true
  let r ← HRegion.init ms cutoff threshold
  assert (modulesLen (r.heap.vals r.active) = a.inputDim)
  let path ← checkPath a.path a.inputDim
  return ⟨⟨a.inputDim, a.outputDim, a.bondDim, a.featureDim, a.periodic, a.parallel, path, .none, []⟩, r,
    initBonds a.inputDim a.bondDim a.periodic, List.replicate (a.inputDim + 2) ⟨[a.bondDim], fun _ => -1⟩⟩

/-- An optimiser step: new values for the parameters it holds, by reference. -/
def assignTo (h : Heap) : List ℕ → List (Tensor ℝ) → Heap
  | i :: is, t :: ts => assignTo (h.write i ((h.mem i).setTensor t)) is ts
  | _, _ => h

end TorchMPS
