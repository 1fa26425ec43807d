import Verif.Model.Mps
import Verif.Model.Cost
/-
The work of `MPS.forward`: the model of `torchmps/contractables.py` and `torchmps/torchmps.py` (`Model/Contractables.lean`, `Model/Mps.lean`) instrumented: every
`torch.einsum` and `torch.bmm` adds the number of scalar multiplications it takes. `Work` is (multiplications, contractions done one after the other). The instrumented functions
return what the functions of the model return (`C105_run`).
-/
namespace TorchMPS
variable {K : Type}

/-- A computation of the model (`CM`) together with the work it does. -/
def CW (α : Type) := Option ℕ → (Except Err α × Option ℕ) × Work

namespace CW
def pure {α : Type} (a : α) : CW α := fun g => ((.ok a, g), (0, 0))
def bind {α β : Type} (x : CW α) (f : α → CW β) : CW β := fun g =>
  match x g with
  | ((.ok a, g'), w) => ((f a g').1, w + (f a g').2)
  | ((.error e, g'), w) => ((.error e, g'), w)
instance : Monad CW := { pure := CW.pure, bind := CW.bind }
/-- a computation of the model that does the work `w` -/
def of {α : Type} (w : Work) (x : CM α) : CW α := fun g => (x g, w)
/-- the result, without the work -/
def result {α : Type} (x : CW α) : CM α := fun g => (x g).1
/-- the work, without the result -/
def work {α : Type} (x : CW α) (g : Option ℕ) : Work := (x g).2
end CW

/-- One `torch.einsum` of two operands: one multiplication for every tuple of values of all its letters (their sizes as in `einsum`). -/
def einsumWork (ins : List (List Char)) (shapes : List Shape) : Work :=
  ((ins.flatten.dedup.map (letterSize ((ins.zip shapes).flatMap (fun p => p.1.zip p.2)))).prod, 1)

/-- The contraction of two objects by `Contractable.__mul__`, contractables.py:106-131. -/
def gmulWork (x y : Contractable K) : Work :=
  match mulStrings x.bondStr y.bondStr with
  | .ok (t1, t2, _) => einsumWork [t1, t2] [x.tensor.shape, y.tensor.shape]
  | .error _ => (0, 0)

/-- A region of shape [batch, sites, D, D] times a vector: one `torch.bmm` for each site, contractables.py:271-275. -/
def regionMulWork (r : Contractable K) : Work := (r.tensor.shape.prod, r.tensor.shape.getD 1 0)

/-- A product `x * y` that succeeds: region and edge vector contractables.py:254-281, two edge vectors contractables.py:405-422, an object and a scalar
contractables.py:448-469, and everything else contractables.py:73-147. -/
def starWork (x y : Contractable K) : Work :=
  if x.cls = .matRegion then regionMulWork x
  else if y.cls = .matRegion then regionMulWork y
  else if x.cls = .edgeVec ∧ y.cls = .edgeVec then (x.tensor.shape.prod, 1)
  else if x.cls = .scalar then (y.tensor.shape.prod, 1)
  else if y.cls = .scalar then (x.tensor.shape.prod, 1)
  else gmulWork x y

/-- the product of the last two items, contractables.py:226 -/
def lastWork : List (Contractable K) → Work
  | [] => (0, 0)
  | [_] => (0, 0)
  | [a, b] => starWork a b
  | _ :: b :: d :: cs => lastWork (b :: d :: cs)

/-- the product of the first two items, contractables.py:229 -/
def firstWork : List (Contractable K) → Work
  | a :: b :: _ => starWork a b
  | _ => (0, 0)

/-- One round of `ContractableList.reduce`, contractables.py:224-230. A product that raises TypeError does so before any contraction. -/
def roundWork [CommSemiring K] (cs : List (Contractable K)) (g : Option ℕ) : Work :=
  match mulLast cs g with
  | (.ok _, _) => lastWork cs
  | (.error .type, _) => firstWork cs
  | (.error _, _) => (0, 0)

/-- One round of `ContractableList.reduce`, contractables.py:224-230, with its work. -/
def roundRun [CommSemiring K] (cs : List (Contractable K)) : CW (List (Contractable K)) := fun g =>
  (CM.exceptType (mulLast cs) (mulFirst cs) g, roundWork cs g)

/-- The loop of `ContractableList.reduce`, contractables.py:224-230, with its work. -/
def reduceRun [CommSemiring K] : ℕ → List (Contractable K) → CW (List (Contractable K))
  | 0, cs => return cs
  | fuel + 1, cs =>
    if 1 < cs.length then do
      let cs ← roundRun cs
      reduceRun fuel cs
    else return cs

/-- One round of `MatRegion.reduce`, contractables.py:298-310: one einsum for all pairs of the round. -/
def pairsWork (mats : Tensor K) (size : ℕ) : Work :=
  einsumWork [['b', 's', 'l', 'u'], ['b', 's', 'u', 'r']] [(mats.sliceAx 1 0 2 (size / 2)).shape, (mats.sliceAx 1 1 2 (size / 2)).shape]

/-- The rounds of `MatRegion.reduce`, contractables.py:297-312, with their work. -/
def regionRun [CommSemiring K] : ℕ → Tensor K → ℕ → CW (Tensor K)
  | 0, mats, _ => return mats
  | fuel + 1, mats, size =>
    if 1 < size then do
      let mats ← CW.of (pairsWork mats size) (CM.lift (regionRound mats size))
      regionRun fuel mats (size / 2 + size % 2)
    else return mats

/-- `item.reduce()`, contractables.py:155-162, 286-315, with its work -/
def itemRun [CommSemiring K] (c : Contractable K) : CW (Contractable K) :=
  if c.cls = .matRegion then do
    let mats ← regionRun (c.tensor.shape.getD 1 0) c.tensor (c.tensor.shape.getD 1 0)
    CW.of (0, 0) (mkSingleMat (mats.squeeze 1))
  else return c

/-- all items reduced in order, contractables.py:218, with the work -/
def itemsRun [CommSemiring K] : List (Contractable K) → CW (List (Contractable K))
  | [] => return []
  | c :: cs => do
    let c ← itemRun c
    let cs ← itemsRun cs
    return c :: cs

/-- the optional reduction of all items, contractables.py:214-218, with its work -/
def prepRun [CommSemiring K] (cs : List (Contractable K)) (parallelEval : Bool) : CW (List (Contractable K)) :=
  if parallelEval then itemsRun cs else return cs

/-- what is left at the end, contractables.py:232 -/
def pickResult (cs res : List (Contractable K)) (parallelEval : Bool) : CW (Contractable K × List (Contractable K)) :=
  match res with
  | [] => CW.of (0, 0) (CM.throw .index)
  | c :: _ => return (c, if parallelEval then cs else res)

/-- `ContractableList.reduce`, contractables.py:210-232, with its work -/
def listRun [CommSemiring K] (cs : List (Contractable K)) (parallelEval : Bool) : CW (Contractable K × List (Contractable K)) := do
  let items ← prepRun cs parallelEval
  let res ← reduceRun items.length items
  pickResult cs res parallelEval

/-- The contractions of the `forward` method of a module with its part of the input, torchmps.py:1047, 1171-1174, 1258, 1362. -/
def Module.work : Module K → Tensor K → Work
  | .inputRegion t _, x => einsumWork [['s', 'l', 'r', 'i'], ['b', 's', 'i']] [t.shape, x.shape]
  | .mergedInput t, x =>
    einsumWork [['s', 'l', 'r', 'i', 'j'], ['b', 's', 'j']] [t.shape, (x.sliceAx 1 1 2 (x.shape.getD 1 0 / 2)).shape] +
      einsumWork [['b', 's', 'l', 'r', 'i'], ['b', 's', 'i']]
        [[x.shape.getD 0 0, t.shape.getD 0 0, t.shape.getD 1 0, t.shape.getD 2 0, t.shape.getD 3 0], (x.sliceAx 1 0 2 ((x.shape.getD 1 0 + 1) / 2)).shape]
  | .inputSite t, x => einsumWork [['l', 'r', 'i'], ['b', 'i']] [t.shape, x.shape]
  | .outputSite _, _ => (0, 0)
  | .mergedOutput t _, x => einsumWork [['o', 'l', 'r', 'i'], ['b', 'i']] [t.shape, x.shape]

/-- The loop over the modules, torchmps.py:630-641, with its work. -/
def modulesRun [CommSemiring K] (x : Tensor K) : ℕ → List (Module K) → CW (List (Contractable K))
  | _, [] => return []
  | ind, m :: ms => do
    let c ← CW.of (m.work (pickInput x ind m.len)) (m.forward (pickInput x ind m.len))
    let cs ← modulesRun x (ind + m.len) ms
    return c :: cs

/-- The list with both end vectors which is contracted for open boundaries, torchmps.py:667-685. -/
def withEnds [CommSemiring K] (cs : List (Contractable K)) : CM (List (Contractable K)) :=
  match cs.head?, cs.getLast? with
  | some first, some last => do
    let dl ← CM.lift (bondSize first 'l')
    let dr ← CM.lift (bondSize last 'r')
    let vl ← CM.lift (endVec dl)
    let vr ← CM.lift (endVec dr)
    let e ← mkEdgeVec vl true
    let r ← mkEdgeVec vr false
    return e :: cs ++ [r]
  | _, _ => CM.throw .index

/-- Periodic boundaries, torchmps.py:644-663, with the work. The trace takes no multiplications. -/
def closeRingRun [CommSemiring K] (cs : List (Contractable K)) : CW (Tensor K) := do
  let (c, _) ← listRun cs true
  CW.of (0, 0) (CM.lift (assert ('l' ∈ c.bondStr ∧ 'r' ∈ c.bondStr)))
  CW.of (0, 0) (CM.lift (einsum [traceIn c.bondStr] (traceOut c.bondStr) [c.tensor]))

/-- Open boundaries, torchmps.py:667-688, with the work. -/
def closeOpenRun [CommSemiring K] (cs : List (Contractable K)) (parallelEval : Bool) : CW (Tensor K) := do
  let l ← CW.of (0, 0) (withEnds cs)
  let (c, _) ← listRun l parallelEval
  return c.tensor

/-- `LinearRegion.forward`, torchmps.py:609-688, with its work. -/
def linearRun [CommSemiring K] (ms : List (Module K)) (periodic parallelEval : Bool) (x : Tensor K) : CW (Tensor K) := do
  CW.of (0, 0) (CM.lift (assert (x.ndim = 3)))
  CW.of (0, 0) (CM.lift (assert (x.shape.getD 1 0 = modulesLen ms)))
  let cs ← modulesRun x 0 ms
  if periodic then closeRingRun cs else closeOpenRun cs parallelEval

/-- `MPS.forward`, torchmps.py:453-478, with its work: nothing is contracted before the linear region. (What a registered feature map does is up to the user.)
The result is that of `MPS.forward`: `C105_run`. -/
def MPS.run [CommRing K] (m : MPS K) (x : Tensor K) : CW (Tensor K) := do
  let x ← CW.of (0, 0) (CM.lift (followPath m.path x))
  let x ← CW.of (0, 0) (CM.lift (m.embedInput x))
  linearRun m.modules m.periodic m.parallel x

end TorchMPS
