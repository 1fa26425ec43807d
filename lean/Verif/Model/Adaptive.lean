import Verif.Model.Mps
import Verif.Model.Utils
/-
Model of the adaptive mode of `torchmps/torchmps.py`: MergedLinearRegion and the merging and unmerging of cores.
-/
namespace TorchMPS
variable {K : Type}

/-! ### merging -/

/-- `MergedInput.__init__`, torchmps.py:1140-1151. -/
def mkMergedInput (t : Tensor K) : Except Err (Module K) := do
  assert (t.ndim = 5)
  assert (t.shape.getD 1 0 = t.shape.getD 2 0)
  assert (t.shape.getD 3 0 = t.shape.getD 4 0)
  return .mergedInput t

/-- `MergedOutput.__init__`, torchmps.py:1340-1348. -/
def mkMergedOutput (t : Tensor K) (leftOutput : Bool) : Except Err (Module K) := do
  assert (t.ndim = 4)
  return .mergedOutput t leftOutput

/-- The part of `InputRegion._merge` for offset 0 and an even number of sites, torchmps.py:1071-1090: `None` without sites. -/
def mergeEven [CommSemiring K] (t : Tensor K) : Except Err (Option (Module K)) :=
  let n := t.shape.getD 0 0
  if n = 0 then .ok none
  else do
    assert ((n + 1) / 2 = n / 2)
    let m ← einsum [['s', 'l', 'u', 'i'], ['s', 'u', 'r', 'j']] ['s', 'l', 'r', 'i', 'j'] [t.sliceAx 0 0 2 ((n + 1) / 2), t.sliceAx 0 1 2 (n / 2)]
    let r ← mkMergedInput m
    return some r

/-- `InputRegion._merge`, torchmps.py:1057-1093, `self[i]` and `self[i:j]` by 1095-1104 (the checks of the constructor for slices,
passed by the whole region already, are left out). Regions without sites do not occur (the constructor of MPS and `combine` never
make them); the code would produce `[None]`, and an AttributeError later. -/
def regionMerge [CommSemiring K] (t : Tensor K) (offset : ℕ) : Except Err (List (Module K)) :=
  let n := t.shape.getD 0 0
  if n = 0 then .error .attribute
  else if offset = 1 ∧ n % 2 = 1 then do
    let m ← mergeEven (t.sliceAx 0 1 1 (n - 1))
    return .inputSite (t.select 0 0) :: m.toList
  else if offset = 1 then do
    let m ← mergeEven (t.sliceAx 0 1 1 (n - 2))
    return .inputSite (t.select 0 0) :: (m.toList ++ [.inputSite (t.select 0 (n - 1))])
  else if n % 2 = 1 then do
    let m ← mergeEven (t.sliceAx 0 0 1 (n - 1))
    return m.toList ++ [.inputSite (t.select 0 (n - 1))]
  else do
    let m ← mergeEven t
    return m.toList

/-- Merging the cores internally, torchmps.py:779-794; `s` is `site_num`. -/
def internalMerge [CommSemiring K] : ℕ → List (Module K) → Except Err (List (Module K))
  | _, [] => return []
  | s, m :: ms =>
    match m with
    | .mergedInput _ => .error .assertion
    | .mergedOutput _ _ => .error .assertion
    | .inputRegion t _ => do
      let a ← regionMerge t (s % 2)
      let r ← internalMerge (s + m.coreLen) ms
      return a ++ r
    | _ => do
      let r ← internalMerge (s + m.coreLen) ms
      return m :: r

/-- `MergedLinearRegion.combine`, torchmps.py:926-975. -/
def combineCores [CommSemiring K] (merging : Bool) (a b : Module K) : Except Err (Option (Module K)) :=
  match merging, a, b with
  | true, .inputSite x, .outputSite y => do
    let t ← einsum [['l', 'u', 'i'], ['o', 'u', 'r']] ['o', 'l', 'r', 'i'] [x, y]
    let m ← mkMergedOutput t false
    return some m
  | true, .outputSite x, .inputSite y => do
    let t ← einsum [['o', 'l', 'u'], ['u', 'r', 'i']] ['o', 'l', 'r', 'i'] [x, y]
    let m ← mkMergedOutput t true
    return some m
  | false, .inputSite x, .inputRegion y _ => do
    assert ((x.unsqueeze 0).shape.drop 1 = y.shape.drop 1)
    let t ← (x.unsqueeze 0).cat y 0
    let m ← mkInputRegion t true none
    return some m
  | false, .inputRegion x _, .inputSite y => do
    assert (x.shape.drop 1 = (y.unsqueeze 0).shape.drop 1)
    let t ← x.cat (y.unsqueeze 0) 0
    let m ← mkInputRegion t true none
    return some m
  | _, _, _ => .ok none

/-- What one pass over the modules does from a module on, `s` being `site_num`: torchmps.py:799-824 (merging, where a new core is
only used at sites of the parity `offset`) and 881-901 (unmerging). A last remaining module is kept. -/
def sweepRest [CommSemiring K] (merging : Bool) (offset : ℕ) : ℕ → List (Module K) → Except Err (List (Module K))
  | s, a :: b :: rest => do
    let c ← combineCores merging a b
    match c with
    | none => do
      let r ← sweepRest merging offset (s + a.coreLen) (b :: rest)
      return a :: r
    | some c =>
      if merging = true ∧ offset ≠ s % 2 then do
        let r ← sweepRest merging offset (s + a.coreLen) (b :: rest)
        return a :: r
      else do
        assert (merging = false ∨ c.coreLen = a.coreLen + b.coreLen)
        let r ← sweepRest merging offset (s + c.coreLen) rest
        return c :: r
  | _, l => return l

/-- One pass: `while mod_num < len(merged_list) - 1` does nothing at all for a list of one module, which is lost then. -/
def sweep [CommSemiring K] (merging : Bool) (offset : ℕ) (l : List (Module K)) : Except Err (List (Module K)) :=
  if l.length < 2 then .ok [] else sweepRest merging offset 0 l

/-- Passes until the length does not change, torchmps.py:796-831, 878-907. Every further pass is over a shorter list, so a list of
length `n` needs at most `n + 1` passes and the fuel is never used up. -/
def sweeps [CommSemiring K] (merging : Bool) (offset : ℕ) : ℕ → List (Module K) → Except Err (List (Module K))
  | 0, l => .ok l
  | fuel + 1, l => do
    let l' ← sweep merging offset l
    if l'.length = l.length then return l else sweeps merging offset fuel l'

/-- The new merged list computed by `MergedLinearRegion._merge`, torchmps.py:767-831. -/
def mergeList [CommSemiring K] (offset : ℕ) (ms : List (Module K)) : Except Err (List (Module K)) := do
  assert (offset = 0 ∨ offset = 1)
  let l ← internalMerge offset ms
  sweeps true offset (l.length + 1) l

/-- replacing the tensor of a module -/
def Module.setTensor (t : Tensor K) : Module K → Module K
  | .inputRegion _ b => .inputRegion t b
  | .mergedInput _ => .mergedInput t
  | .inputSite _ => .inputSite t
  | .outputSite _ => .outputSite t
  | .mergedOutput _ l => .mergedOutput t l

/-- The in-place update of an existing merged list, torchmps.py:844-846 (after the comparison of the lengths), with the list as it
is left behind by an exception. -/
def overwrite : List (Module K) → List (Module K) → Except Err Unit × List (Module K)
  | m :: ms, n :: ns =>
    if m.tensor.shape = n.tensor.shape then
      let (r, ms') := overwrite ms ns
      (r, m.setTensor n.tensor :: ms')
    else (.error .assertion, m :: ms)
  | ms, _ => (.ok (), ms)

/-- torchmps.py:841-846 -/
def updateList (old new : List (Module K)) : Except Err Unit × List (Module K) :=
  if old.length = new.length then overwrite old new else (.error .assertion, old)

/-! ### unmerging -/

/-- An entry of the lists of new bond dimensions and singular values. (The code keeps two lists of equal length with `None` at the
same places.) -/
abbrev BondEntry := Option (ℕ × Tensor ℝ)

/-- `bond_dim` and `sv_vec` after `svd_flex`. -/
def bondEntry (c : SvdOut) : BondEntry := some (c.bondDim, c.svVec.getD ⟨[], fun _ => 0⟩)

/-- `lrij->lui,urj` -/
def strPair : List Char := ['l', 'r', 'i', 'j', '-', '>', 'l', 'u', 'i', ',', 'u', 'r', 'j']
/-- `olri->olu,uri` -/
def strOutLeft : List Char := ['o', 'l', 'r', 'i', '-', '>', 'o', 'l', 'u', ',', 'u', 'r', 'i']
/-- `olri->our,lui` -/
def strOutRight : List Char := ['o', 'l', 'r', 'i', '-', '>', 'o', 'u', 'r', ',', 'l', 'u', 'i']

/-- `torch.empty(n)`; its entries do not matter -/
def emptyVec (n : ℕ) : Tensor ℝ := ⟨[n], fun _ => 0⟩

/-- `module._unmerge(cutoff)` without the first entries of the two lists, and the treatment of cores without that method:
torchmps.py:1178-1205, 1367-1404, 864-876. -/
noncomputable def unmergeModule (svd : Mat ℝ → SVD) (pop : List Char → Char) (cutoff : ℝ) : Module ℝ → Except Err (List (Module ℝ) × List BondEntry)
  | .mergedInput t => do
    let maxD := t.shape.getD 1 0
    let cs ← (List.range (t.shape.getD 0 0)).mapM (fun s =>
      svdFlex svd pop (t.select 0 s) strPair maxD cutoff true (some (emptyVec maxD)))
    let t' ← stackAll (cs.flatMap (fun c => [c.left, c.right])) 0
    let m ← mkInputRegion t' true none
    return ([m], cs.flatMap (fun c => [bondEntry c, none]))
  | .mergedOutput t true => do
    let maxD := t.shape.getD 2 0
    let c ← svdFlex svd pop t strOutLeft maxD cutoff true (some (emptyVec maxD))
    return ([.outputSite c.left, .inputSite c.right], [bondEntry c, none])
  | .mergedOutput t false => do
    let maxD := t.shape.getD 1 0
    let c ← svdFlex svd pop t strOutRight maxD cutoff true (some (emptyVec maxD))
    return ([.inputSite c.right, .outputSite c.left], [bondEntry c, none])
  | .inputRegion _ _ => .error .assertion
  | m => .ok ([m], [none])

/-- torchmps.py:859-876 -/
noncomputable def unmergeAll (svd : Mat ℝ → SVD) (pop : List Char → Char) (cutoff : ℝ) : List (Module ℝ) → Except Err (List (Module ℝ) × List BondEntry)
  | [] => .ok ([], [])
  | m :: ms => do
    let (a, bs) ← unmergeModule svd pop cutoff m
    let (r, cs) ← unmergeAll svd pop cutoff ms
    return (a ++ r, bs ++ cs)

/-- the sum of all entries -/
def sumAll : Shape → (List ℕ → ℝ) → ℝ
  | [], f => f []
  | n :: sh, f => ∑ i ∈ Finset.range n, sumAll sh (fun idx => f (i :: idx))

/-- `torch.norm(t)`: the square root of the sum of the squares of all entries -/
noncomputable def normT (t : Tensor ℝ) : ℝ := Real.sqrt (sumAll t.shape (fun idx => t.get idx ^ 2))

/-- `module.get_norm()`, torchmps.py:1106-1110, 1207-1211, 1263-1267, 1303-1307, 1406-1410: one norm per core. -/
noncomputable def Module.norms : Module ℝ → List ℝ
  | .inputRegion t _ => (List.range (t.shape.getD 0 0)).map (fun s => normT (t.select 0 s))
  | .mergedInput t => (List.range (t.shape.getD 0 0)).map (fun s => normT (t.select 0 s))
  | .inputSite t => [normT t]
  | .outputSite t => [normT t]
  | .mergedOutput t _ => [normT t]

/-- multiplying the slices along the first axis -/
def scaleSlices (t : Tensor ℝ) (scales : List ℝ) : Tensor ℝ := ⟨t.shape, fun idx => t.get idx * scales.getD (idx.getD 0 0) 1⟩
/-- multiplying all entries -/
def scaleAll (t : Tensor ℝ) (c : ℝ) : Tensor ℝ := ⟨t.shape, fun idx => t.get idx * c⟩

/-- `module.rescale_norm(scales)`, torchmps.py:1112-1123, 1213-1224, 1269-1278, 1309-1318, 1412-1421. (The scale lists always have the
right lengths.) -/
def Module.rescale (scales : List ℝ) : Module ℝ → Module ℝ
  | .inputRegion t b => .inputRegion (scaleSlices t scales) b
  | .mergedInput t => .mergedInput (scaleSlices t scales)
  | .inputSite t => .inputSite (scaleAll t (scales.getD 0 1))
  | .outputSite t => .outputSite (scaleAll t (scales.getD 0 1))
  | .mergedOutput t l => .mergedOutput (scaleAll t (scales.getD 0 1)) l

/-- `log_scale`, torchmps.py:910-914 -/
noncomputable def logScale (ms : List (Module ℝ)) : ℝ :=
  ((ms.map (fun m => (m.norms.map Real.log).sum)).sum) / ((ms.map (fun m => m.norms.length)).sum : ℕ)

/-- The rescaling of all cores, torchmps.py:909-919. If a norm is zero its logarithm is -inf, and the scales are NaN or zero: the model
stops. The module objects of lone cores are shared with the previous merged list, which is not used any more until it is
overwritten (unless a flip fails); this effect of the in-place multiplication on unused tensors is left out here: see
`Model/AdaptiveHeap.lean` and C86. -/
noncomputable def rescaleCores (ms : List (Module ℝ)) : Except Err (List (Module ℝ)) :=
  open Classical in
  if (ms.map (fun m => m.norms.length)).sum = 0 then .error .zeroDivision
  else if ∃ m ∈ ms, (0 : ℝ) ∈ m.norms then .error .nan
  else .ok (ms.map (fun m => m.rescale (m.norms.map (fun x => Real.exp (logScale ms - Real.log x)))))

/-- `MergedLinearRegion._unmerge`, torchmps.py:848-924: the new unmerged modules and the new bonds. -/
noncomputable def unmergeList (svd : Mat ℝ → SVD) (pop : List Char → Char) (cutoff : ℝ) (ms : List (Module ℝ)) :
    Except Err (List (Module ℝ) × List BondEntry) := do
  let (l, bonds) ← unmergeAll svd pop cutoff ms
  let l ← sweeps false 0 (l.length + 1) l
  let l ← rescaleCores l
  return (l, none :: bonds)

/-! ### MergedLinearRegion -/

/-- The state of a MergedLinearRegion. `stray` is `module_list` when it is neither of the two merged lists: the unmerged modules left
behind by a flip which raised an exception. -/
structure AdRegion where
  list0 : List (Module ℝ)
  list1 : List (Module ℝ)
  offset : ℕ
  stray : Option (List (Module ℝ))
  counter : ℕ
  threshold : ℕ
  cutoff : ℝ

/-- `getattr(self, f"module_list_{offset}")` -/
def AdRegion.listAt (r : AdRegion) (offset : ℕ) : List (Module ℝ) := if offset = 0 then r.list0 else r.list1

/-- replacing a merged list -/
def AdRegion.setList (r : AdRegion) (offset : ℕ) (l : List (Module ℝ)) : AdRegion :=
  if offset = 0 then { r with list0 := l } else { r with list1 := l }

/-- `self.module_list` -/
def AdRegion.active (r : AdRegion) : List (Module ℝ) := r.stray.getD (r.listAt r.offset)

/-- `MergedLinearRegion.__init__`, torchmps.py:708-730. -/
def AdRegion.init (ms : List (Module ℝ)) (cutoff : ℝ) (threshold : ℕ) : Except Err AdRegion := do
  let l0 ← mergeList 0 ms
  let l1 ← mergeList 1 ms
  return ⟨l0, l1, 0, none, 0, threshold, cutoff⟩

/-- The flip of the merge state, torchmps.py:745-752: the new bonds or an exception, and the state afterwards. -/
noncomputable def AdRegion.flip (svd : Mat ℝ → SVD) (pop : List Char → Char) (r : AdRegion) : Except Err (List BondEntry) × AdRegion :=
  match unmergeList svd pop r.cutoff (r.listAt r.offset) with
  | .error e => (.error e, r)
  | .ok (ms, bonds) =>
    let r1 := { r with stray := some ms, offset := (r.offset + 1) % 2 }
    match mergeList r1.offset ms with
    | .error e => (.error e, r1)
    | .ok l =>
      match updateList (r1.listAt r1.offset) l with
      | (.error e, l') => (.error e, r1.setList r1.offset l')
      | (.ok _, l') => (.ok bonds, { r1.setList r1.offset l' with stray := none, counter := r.counter - r.threshold })

/-- torchmps.py:744-754: a flip if the counter has reached the threshold -/
noncomputable def AdRegion.maybeFlip (svd : Mat ℝ → SVD) (pop : List Char → Char) (r : AdRegion) : Except Err (Option (List BondEntry)) × AdRegion :=
  if r.counter ≥ r.threshold then
    match r.flip svd pop with
    | (.ok b, r') => (.ok (some b), r')
    | (.error e, r') => (.error e, r')
  else (.ok none, r)

/-! ### the adaptive MPS -/

/-- An MPS in adaptive mode: the attributes in `mps` (whose `modules` are not used), the merged region, `bond_list` and the rows of
`sv_list`. -/
structure AdMps where
  mps : MPS ℝ
  region : AdRegion
  bondList : List ℕ
  svList : List (Tensor ℝ)

/-- Assignment of the entries which are not None, torchmps.py:487-491. -/
def assignBonds : List BondEntry → List ℕ → List (Tensor ℝ) → List ℕ × List (Tensor ℝ)
  | e :: es, b :: bs, s :: ss =>
    let (bs', ss') := assignBonds es bs ss
    match e with
    | none => (b :: bs', s :: ss')
    | some (b', s') => (b' :: bs', s' :: ss')
  | _, bs, ss => (bs, ss)

/-- `MPS.forward` in adaptive mode with `MergedLinearRegion.forward`, torchmps.py:453-494, 732-764: the output or an exception, the model
and the process-wide batch size afterwards. -/
noncomputable def AdMps.forward (svd : Mat ℝ → SVD) (pop : List Char → Char) (m : AdMps) (x : Tensor ℝ) (g : Option ℕ) :
    Except Err (Tensor ℝ) × AdMps × Option ℕ :=
  match followPath m.mps.path x >>= m.mps.embedInput with
  | .error e => (.error e, m, g)
  | .ok e =>
    match m.region.maybeFlip svd pop with
    | (.error er, r) => (.error er, { m with region := r }, g)
    | (.ok nb, r) =>
      let r := { r with counter := r.counter + e.shape.getD 0 0 }
      match linearForward r.active m.mps.periodic m.mps.parallel e g with
      | (.error er, g') => (.error er, { m with region := r }, g')
      | (.ok y, g') =>
        match nb with
        | none => (.ok y, { m with region := r }, g')
        | some nb =>
          if nb.length = m.bondList.length then
            (.ok y, { m with region := r, bondList := (assignBonds nb m.bondList m.svList).1, svList := (assignBonds nb m.bondList m.svList).2 }, g')
          else (.error .assertion, { m with region := r }, g')

/-- `bond_list` at construction, torchmps.py:421-423 -/
def initBonds (n D : ℕ) (periodic : Bool) : List ℕ :=
  if periodic then List.replicate (n + 2) D else 1 :: (List.replicate n D ++ [1])

/-- `MPS.__init__` with `adaptive_mode=True`, torchmps.py:340-451. -/
noncomputable def AdMps.init (d : Draws) (a : MpsArgs) (cutoff : ℝ) (threshold : ℕ) : Except Err AdMps := do
  let k ← labelOf a.inputDim a.labelSite
  let ms ← initModules d a.inputDim a.outputDim a.bondDim a.featureDim k a.initStd false true
  let r ← AdRegion.init ms cutoff threshold
  assert (modulesLen r.active = a.inputDim)
  let path ← checkPath a.path a.inputDim
  return ⟨⟨a.inputDim, a.outputDim, a.bondDim, a.featureDim, a.periodic, a.parallel, path, .none, []⟩, r,
    initBonds a.inputDim a.bondDim a.periodic, List.replicate (a.inputDim + 2) ⟨[a.bondDim], fun _ => -1⟩⟩

end TorchMPS
