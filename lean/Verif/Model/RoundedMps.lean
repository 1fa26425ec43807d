import Verif.Model.TiMps
/-
`MPS.forward` and `TI_MPS.forward` over arbitrary (rounded) arithmetic: the same program as in `Model/Contractables.lean`, `Model/Mps.lean` and
`Model/TiMps.lean`, with the scalar arithmetic of torch.einsum, torch.bmm, `+` and `1 - x` as parameters. What does no arithmetic (constructors of
the contractables, index strings, slices, stacking, all the checks) is shared with these files.
-/
namespace TorchMPS
variable {K : Type}

/-- The arithmetic of a number format. Every operation is also given the index of the entry it computes, so that, for instance, the order of a
summation may differ from entry to entry. There is no overflow. -/
structure NetArith (K : Type) where
  /-- sum of products, the order being up to the implementation -/
  dot : List ℕ → List (K × K) → K
  /-- sum -/
  sum : List ℕ → List K → K
  /-- `a + b` -/
  add : List ℕ → K → K → K
  /-- `1 - x` -/
  compl : List ℕ → K → K

/-- exact arithmetic -/
def exactNet (K : Type) [CommRing K] : NetArith K where
  dot _ l := (l.map (fun p => p.1 * p.2)).sum
  sum _ l := l.sum
  add _ a b := a + b
  compl _ x := 1 - x

/-- all values of the letters `cs`, in order -/
def envsOver (size : Char → ℕ) : List Char → Env → List Env
  | [], env => [env]
  | c :: cs, env => (List.range (size c)).flatMap (fun i => envsOver size cs (env.set c i))

/-- the sizes the letters are used with, as in `einsum` -/
def einUses (ins : List (List Char)) (ops : List (Tensor K)) : List (Char × ℕ) := (ins.zip ops).flatMap (fun p => p.1.zip p.2.shape)

/-- the letters summed over, as in `einsum` -/
def einInner (ins : List (List Char)) (out : List Char) : List Char := (ins.flatten.dedup).filter (fun c => c ∉ out)

/-- the conditions under which torch.einsum raises no RuntimeError, as in `einsum` -/
def EinOk (ins : List (List Char)) (out : List Char) (ops : List (Tensor K)) : Prop :=
  ins.length = ops.length ∧ (∀ p ∈ ins.zip ops, p.1.length = p.2.ndim) ∧
    (∀ u ∈ einUses ins ops, ∀ v ∈ einUses ins ops, u.1 = v.1 → u.2 = 1 ∨ v.2 = 1 ∨ u.2 = v.2) ∧
    out.Nodup ∧ (∀ c ∈ out, c ∈ ins.flatten)

instance (ins : List (List Char)) (out : List Char) (ops : List (Tensor K)) : Decidable (EinOk ins out ops) := by
  unfold EinOk; infer_instance

namespace NetArith
variable (A : NetArith K)

/-- `torch.einsum("i,j->out", [a, b])`, see `einsum` -/
def ein2 (i j out : List Char) (a b : Tensor K) : Except Err (Tensor K) :=
  if EinOk [i, j] out [a, b] then
    .ok ⟨out.map (letterSize (einUses [i, j] [a, b])), fun idx =>
      A.dot idx ((envsOver (letterSize (einUses [i, j] [a, b])) (einInner [i, j] out) (Env.ofOut out idx)).map (fun env =>
        (a.get (Tensor.clampIdx a.shape (i.map env)), b.get (Tensor.clampIdx b.shape (j.map env)))))⟩
  else .error .runtime

/-- `torch.einsum("i->out", [a])`, see `einsum` -/
def ein1 (i out : List Char) (a : Tensor K) : Except Err (Tensor K) :=
  if EinOk [i] out [a] then
    .ok ⟨out.map (letterSize (einUses [i] [a])), fun idx =>
      A.sum idx ((envsOver (letterSize (einUses [i] [a])) (einInner [i] out) (Env.ofOut out idx)).map (fun env =>
        a.get (Tensor.clampIdx a.shape (i.map env))))⟩
  else .error .runtime

/-- `torch.bmm(a, b)`, see `Tensor.bmm` -/
def bmm (a b : Tensor K) : Except Err (Tensor K) :=
  match a.shape, b.shape with
  | [B, n, m], [B', m', p] =>
    if B = B' ∧ m = m' then
      .ok ⟨[B, n, p], fun idx => A.dot idx ((List.range m).map (fun k =>
        (a.get [idx.getD 0 0, idx.getD 1 0, k], b.get [idx.getD 0 0, k, idx.getD 2 0])))⟩
    else .error .runtime
  | _, _ => .error .runtime

/-! ### contractables.py -/

/-- the product proper, contractables.py:100-147, see `TorchMPS.gmul` -/
def gmulCore (x y : Contractable K) : CM (Option (Contractable K)) := do
  CM.lift (checkBonds x.bondStr 'r')
  CM.lift (checkBonds y.bondStr 'l')
  let s ← CM.lift (mulStrings x.bondStr y.bondStr)
  let t ← CM.lift (A.ein2 s.1 s.2.1 s.2.2 x.tensor y.tensor)
  let c ← wrapOut t s.2.2
  return some c

/-- `Contractable.__mul__`, contractables.py:73-147, see `TorchMPS.gmul` -/
def gmul (self other : Contractable K) (rmul : Bool) : CM (Option (Contractable K)) :=
  if other.cls = .scalar ∨ other.cls = .matRegion then return none
  else A.gmulCore (if rmul then other else self) (if rmul then self else other)

/-- The loop of matrix-vector products, contractables.py:271-275, see `TorchMPS.regionApply` -/
def regionApply (mats : Tensor K) (rmul : Bool) : List ℕ → Tensor K → Except Err (Tensor K)
  | [], vec => .ok vec
  | s :: ss, vec => do
    let vec ← if rmul then A.bmm vec (mats.select 1 s) else A.bmm (mats.select 1 s) vec
    regionApply mats rmul ss vec

/-- `MatRegion.__mul__`, contractables.py:254-281, see `TorchMPS.regionMul` -/
def regionMul (self other : Contractable K) (rmul : Bool) : CM (Option (Contractable K)) :=
  if other.cls ≠ .edgeVec then return none
  else do
    let n := self.tensor.shape.getD 1 0
    let d := if rmul then 1 else 2
    if n = 0 then CM.throw .runtime
    else do
      let sites := if rmul then List.range n else (List.range n).reverse
      let vec ← CM.lift (A.regionApply self.tensor rmul sites (other.tensor.unsqueeze d))
      let c ← mkEdgeVec (vec.squeeze d) rmul
      return some c

/-- One round of `MatRegion.reduce`, contractables.py:298-310, see `TorchMPS.regionRound` -/
def regionRound (mats : Tensor K) (size : ℕ) : Except Err (Tensor K) := do
  let half := size / 2
  let even := mats.sliceAx 1 0 2 half
  let odd := mats.sliceAx 1 1 2 half
  let leftover := mats.sliceAx 1 (2 * half) 1 (mats.shape.getD 1 0 - 2 * half)
  let prod ← A.ein2 ['b', 's', 'l', 'u'] ['b', 's', 'u', 'r'] ['b', 's', 'l', 'r'] even odd
  prod.cat leftover 1

/-- The loop of `MatRegion.reduce`, contractables.py:297-312, see `TorchMPS.regionLoop` -/
def regionLoop : ℕ → Tensor K → ℕ → Except Err (Tensor K)
  | 0, mats, _ => .ok mats
  | fuel + 1, mats, size =>
    if 1 < size then do
      let mats ← A.regionRound mats size
      regionLoop fuel mats (size / 2 + size % 2)
    else .ok mats

/-- `MatRegion.reduce`, contractables.py:286-315 -/
def regionReduce (self : Contractable K) : CM (Contractable K) := do
  let n := self.tensor.shape.getD 1 0
  let mats ← CM.lift (A.regionLoop n self.tensor n)
  mkSingleMat (mats.squeeze 1)

/-- `EdgeVec.__mul__`, contractables.py:405-422 -/
def edgeMul (self other : Contractable K) : CM (Option (Contractable K)) :=
  if other.cls ≠ .edgeVec then return none
  else do
    let p ← CM.lift (A.bmm (self.tensor.unsqueeze 1) (other.tensor.unsqueeze 2))
    let p ← CM.lift (p.view [self.tensor.shape.getD 0 0])
    let c ← mkScalar p
    return some c

/-- `Scalar.__mul__` and `Scalar.__rmul__`, contractables.py:448-469 -/
def scalarMul (self other : Contractable K) : CM (Option (Contractable K)) := do
  let t ← CM.lift (A.ein2 other.bondStr ['b'] other.bondStr other.tensor self.tensor)
  let c ← sameClass other t
  return some c

/-- `type(self).__mul__(self, other)`, see `TorchMPS.mulMethod` -/
def mulMethod (self other : Contractable K) : CM (Option (Contractable K)) :=
  match self.cls with
  | .matRegion => A.regionMul self other false
  | .outputMat => if other.cls ≠ .edgeVec then CM.throw .type else A.gmul self other false
  | .edgeVec => A.edgeMul self other
  | .scalar => A.scalarMul self other
  | _ => A.gmul self other false

/-- `type(self).__rmul__(self, other)`, see `TorchMPS.rmulMethod` -/
def rmulMethod (self other : Contractable K) : CM (Option (Contractable K)) :=
  match self.cls with
  | .matRegion => A.regionMul self other true
  | .outputMat => if other.cls ≠ .edgeVec then CM.throw .type else A.gmul self other true
  | .edgeVec => CM.throw .type
  | .scalar => A.scalarMul self other
  | _ => A.gmul self other true

/-- The Python expression `a * b`, see `TorchMPS.star` -/
def mulOp (a b : Contractable K) : CM (Contractable K) :=
  if a.cls = b.cls then orElse (A.mulMethod a b) (CM.throw .type)
  else if a.cls = .contractable ∧ overridesRmul b.cls = true then
    orElse (A.rmulMethod b a) (orElse (A.mulMethod a b) (CM.throw .type))
  else orElse (A.mulMethod a b) (orElse (A.rmulMethod b a) (CM.throw .type))

/-- `item.reduce()`, contractables.py:155-162, 286-315 -/
def reduceItem (c : Contractable K) : CM (Contractable K) :=
  if c.cls = .matRegion then A.regionReduce c else return c

/-- all items reduced in order, contractables.py:218 -/
def reduceItems : List (Contractable K) → CM (List (Contractable K))
  | [] => return []
  | c :: cs => do
    let c ← A.reduceItem c
    let cs ← reduceItems cs
    return c :: cs

/-- contractables.py:226-227, see `TorchMPS.mulLast` -/
def mulLast : List (Contractable K) → CM (List (Contractable K))
  | [] => CM.throw .index
  | [_] => CM.throw .index
  | [a, b] => do
    let c ← A.mulOp a b
    return [c]
  | a :: b :: d :: cs => do
    let r ← mulLast (b :: d :: cs)
    return a :: r

/-- contractables.py:229-230, see `TorchMPS.mulFirst` -/
def mulFirst : List (Contractable K) → CM (List (Contractable K))
  | a :: b :: cs => do
    let c ← A.mulOp a b
    return c :: cs
  | _ => CM.throw .index

/-- The loop of `ContractableList.reduce`, contractables.py:224-230 -/
def reduceLoop : ℕ → List (Contractable K) → CM (List (Contractable K))
  | 0, cs => return cs
  | fuel + 1, cs =>
    if 1 < cs.length then do
      let cs ← CM.exceptType (A.mulLast cs) (A.mulFirst cs)
      reduceLoop fuel cs
    else return cs

/-- contractables.py:214-218 -/
def prepItems (cs : List (Contractable K)) (parallelEval : Bool) : CM (List (Contractable K)) :=
  if parallelEval then A.reduceItems cs else return cs

/-- `ContractableList.reduce`, contractables.py:210-232: the result -/
def reduceList (cs : List (Contractable K)) (parallelEval : Bool) : CM (Contractable K) := do
  let items ← A.prepItems cs parallelEval
  let res ← A.reduceLoop items.length items
  match res with
  | [] => CM.throw .index
  | c :: _ => return c

/-! ### torchmps.py -/

/-- elementwise sum -/
def addT (a b : Tensor K) : Tensor K := ⟨a.shape, fun idx => A.add idx (a.get idx) (b.get idx)⟩

/-- Adding the bias matrices, torchmps.py:1050-1053 -/
def addRegionBias (mats : Tensor K) : Option (Tensor K) → Except Err (Tensor K)
  | none => .ok mats
  | some bm => do
    let e ← (bm.unsqueeze 0).expand mats.shape
    return A.addT mats e

/-- The matrices computed by `InputRegion.forward`, torchmps.py:1041-1053 -/
def inputRegionMats (t : Tensor K) (bias : Option (Tensor K)) (x : Tensor K) : Except Err (Tensor K) := do
  assert (x.ndim = 3)
  assert (x.shape.getD 1 0 = t.shape.getD 0 0)
  assert (x.shape.getD 2 0 = t.shape.getD 3 0)
  let mats ← A.ein2 ['s', 'l', 'r', 'i'] ['b', 's', 'i'] ['b', 's', 'l', 'r'] t x
  A.addRegionBias mats bias

/-- The matrices computed by `MergedInput.forward`, torchmps.py:1162-1174 -/
def mergedInputMats (t : Tensor K) (x : Tensor K) : Except Err (Tensor K) := do
  assert (x.ndim = 3)
  assert (x.shape.getD 1 0 = 2 * t.shape.getD 0 0)
  assert (x.shape.getD 2 0 = t.shape.getD 3 0)
  assert (x.shape.getD 1 0 % 2 = 0)
  let n := x.shape.getD 1 0
  let even := x.sliceAx 1 0 2 ((n + 1) / 2)
  let odd := x.sliceAx 1 1 2 (n / 2)
  let h ← A.ein2 ['s', 'l', 'r', 'i', 'j'] ['b', 's', 'j'] ['b', 's', 'l', 'r', 'i'] t odd
  A.ein2 ['b', 's', 'l', 'r', 'i'] ['b', 's', 'i'] ['b', 's', 'l', 'r'] h even

/-- The matrix computed by `InputSite.forward`, torchmps.py:1253-1259 -/
def inputSiteMat (t : Tensor K) (x : Tensor K) : Except Err (Tensor K) := do
  assert (x.ndim = 2)
  assert (x.shape.getD 1 0 = t.shape.getD 2 0)
  A.ein2 ['l', 'r', 'i'] ['b', 'i'] ['b', 'l', 'r'] t x

/-- The core computed by `MergedOutput.forward`, torchmps.py:1357-1363 -/
def mergedOutputCore (t : Tensor K) (x : Tensor K) : Except Err (Tensor K) := do
  assert (x.ndim = 2)
  assert (x.shape.getD 1 0 = t.shape.getD 3 0)
  A.ein2 ['o', 'l', 'r', 'i'] ['b', 'i'] ['b', 'o', 'l', 'r'] t x

/-- `module.forward(input_data)`, torchmps.py:1033-1055, 1153-1176, 1246-1261, 1297-1301, 1350-1365 -/
def moduleForward : Module K → Tensor K → CM (Contractable K)
  | .inputRegion t bias, x => do
    let mats ← CM.lift (A.inputRegionMats t bias x)
    mkMatRegion mats
  | .mergedInput t, x => do
    let mats ← CM.lift (A.mergedInputMats t x)
    mkMatRegion mats
  | .inputSite t, x => do
    let mat ← CM.lift (A.inputSiteMat t x)
    mkSingleMat mat
  | .outputSite t, _ => mkOutputCore t
  | .mergedOutput t _, x => do
    let core ← CM.lift (A.mergedOutputCore t x)
    mkOutputCore core

/-- The loop over the modules, torchmps.py:630-641 -/
def runModules (x : Tensor K) : ℕ → List (Module K) → CM (List (Contractable K))
  | _, [] => return []
  | ind, m :: ms => do
    let c ← A.moduleForward m (pickInput x ind m.len)
    let cs ← runModules x (ind + m.len) ms
    return c :: cs

/-- Periodic boundaries, torchmps.py:644-663 -/
def closeRing (cs : List (Contractable K)) : CM (Tensor K) := do
  let c ← A.reduceList cs true
  CM.lift (assert ('l' ∈ c.bondStr ∧ 'r' ∈ c.bondStr))
  CM.lift (A.ein1 (traceIn c.bondStr) (traceOut c.bondStr) c.tensor)

/-- Open boundaries, torchmps.py:667-688 -/
def closeOpen [Zero K] [One K] (cs : List (Contractable K)) (parallelEval : Bool) : CM (Tensor K) :=
  match cs.head?, cs.getLast? with
  | some first, some last => do
    let dl ← CM.lift (bondSize first 'l')
    let dr ← CM.lift (bondSize last 'r')
    let vl ← CM.lift (endVec dl)
    let vr ← CM.lift (endVec dr)
    let e ← mkEdgeVec vl true
    let r ← mkEdgeVec vr false
    let c ← A.reduceList (e :: cs ++ [r]) parallelEval
    return c.tensor
  | _, _ => CM.throw .index

/-- `LinearRegion.forward`, torchmps.py:609-688 -/
def linearForward [Zero K] [One K] (ms : List (Module K)) (periodic parallelEval : Bool) (x : Tensor K) : CM (Tensor K) := do
  CM.lift (assert (x.ndim = 3))
  CM.lift (assert (x.shape.getD 1 0 = modulesLen ms))
  let cs ← A.runModules x 0 ms
  if periodic then A.closeRing cs else A.closeOpen cs parallelEval

/-- `torch.stack([x, 1 - x], dim=2)`, torchmps.py:543 -/
def embedLinear (x : Tensor K) : Tensor K :=
  ⟨x.shape ++ [2], fun idx => if idx.getD 2 0 = 0 then x.get (idx.take 2) else A.compl idx (x.get (idx.take 2))⟩

/-- `MPS.embed_input`, torchmps.py:496-545. A registered feature map is given by the user and evaluated as it is. -/
def mpsEmbed (m : MPS K) (x : Tensor K) : Except Err (Tensor K) := do
  assert (x.ndim = 2 ∨ x.ndim = 3)
  assert (x.shape.getD 1 0 = m.inputDim)
  if x.ndim = 3 then
    if x.shape.getD 2 0 ≠ m.featureDim then .error .value else .ok x
  else match m.featureMap with
    | some f => do
      let e ← embedWith f x
      assert (e.shape = [x.shape.getD 0 0, m.inputDim, m.featureDim])
      return e
    | none => if m.featureDim ≠ 2 then .error .runtime else .ok (A.embedLinear x)

/-- `MPS.forward` of a non-adaptive model, torchmps.py:453-478 -/
def mpsForward [Zero K] [One K] (m : MPS K) (x : Tensor K) : CM (Tensor K) := do
  let x ← CM.lift (followPath m.path x)
  let x ← CM.lift (A.mpsEmbed m x)
  A.linearForward m.modules m.periodic m.parallel x

/-- `TI_MPS.embed_input`, torchmps.py:202-246 -/
def tiEmbed (m : TiMps K) (x : Tensor K) : Except Err (Tensor K) := do
  assert (x.ndim = 2)
  match m.featureMap with
  | some f => do
    let e ← embedWith f x
    assert (e.shape = [x.shape.getD 0 0, x.shape.getD 1 0, m.featureDim])
    return e
  | none => if m.featureDim ≠ 2 then .error .runtime else .ok (A.embedLinear x)

/-- torchmps.py:141-142, 190-191 -/
def tiEmbedIfRaw (m : TiMps K) (x : Tensor K) : Except Err (Tensor K) := if x.ndim = 2 then A.tiEmbed m x else .ok x

/-- `TI_MPS.format_input`, torchmps.py:117-200 -/
def tiFormat [Zero K] (m : TiMps K) : TiInput K → Except Err (Tensor K)
  | .batch t => do
    let t ← A.tiEmbedIfRaw m t
    assert (t.ndim = 3)
    assert (t.shape.getD 2 0 = m.featureDim)
    return t
  | .list ts =>
    match ts with
    | [] => .error .index
    | t₀ :: _ => do
      assert (t₀.ndim = 1 ∨ t₀.ndim = 2)
      assert (∀ s ∈ ts, s.ndim = t₀.ndim)
      assert (t₀.ndim = 1 ∨ ∀ s ∈ ts, s.shape.getD 1 0 = m.featureDim)
      if ¬ (m.useBias = true ∧ m.fixedBias = true) ∧ ∃ s ∈ ts, s.shape.getD 0 0 ≠ maxLen ts then .error .value
      else do
        let b ← collate m ts t₀.ndim
        A.tiEmbedIfRaw m b
  | .other => .error .value

/-- `TI_MPS.forward`, torchmps.py:79-115, from the formatted input on -/
def tiRun [Zero K] [One K] (m : TiMps K) (x : Tensor K) : CM (Tensor K) := do
  let core ← CM.lift ((m.core.unsqueeze 0).expand [x.shape.getD 1 0, m.bondDim, m.bondDim, m.featureDim])
  let r ← CM.lift (mkInputRegion core m.useBias m.biasMat)
  let c ← A.moduleForward r x
  let e ← mkEdgeVec m.initVec true
  let t ← mkOutputMat m.termMat false
  let o ← A.reduceList [e, c, t] m.parallel
  CM.lift (assert (o.bondStr = ['b', 'o']))
  CM.lift (assert (o.tensor.shape.getD 0 0 = x.shape.getD 0 0))
  CM.lift (assert (o.tensor.shape.getD 1 0 = m.outputDim))
  return o.tensor

/-- `TI_MPS.forward`, torchmps.py:79-115 -/
def tiForward [Zero K] [One K] (m : TiMps K) (inp : TiInput K) : CM (Tensor K) := do
  let x ← CM.lift (A.tiFormat m inp)
  A.tiRun m x

end NetArith
end TorchMPS
