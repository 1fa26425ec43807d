import Verif.Model.TiMps
/-
Several threads which evaluate models at the same time (as `torch.nn.DataParallel` does).

The only state shared by evaluations of different models is the class attribute `Contractable.global_bs`
(torchmps/contractables.py:26). Here an evaluation is not a function of its value but a program which reads and assigns it
at the places where the code does, so that other threads can run in between: the functions of `Model/Contractables.lean`,
`Model/Mps.lean` and `Model/TiMps.lean` which touch the attribute are written once more, over `Prog` in place of `CM`.
(`Lemmas/ThreadsRun.lean` proves that the two versions agree when no other thread interferes.)
-/
namespace TorchMPS
variable {K : Type}

/-- The rest of an evaluation as its accesses to `Contractable.global_bs`: finished (returning or raising), about to read the
attribute, or about to assign it. Everything between two accesses is local to the thread. -/
inductive Prog (α : Type) where
  | ret (r : Except Err α)
  | read (k : Option ℕ → Prog α)
  | write (n : ℕ) (k : Prog α)

namespace Prog
variable {α β : Type}

/-- sequential composition -/
def bind : Prog α → (α → Prog β) → Prog β
  | .ret (.ok a), f => f a
  | .ret (.error e), _ => .ret (.error e)
  | .read k, f => .read (fun g => bind (k g) f)
  | .write n k, f => .write n (bind k f)

instance : Monad Prog := { pure := fun a => .ret (.ok a), bind := Prog.bind }

/-- raise an exception -/
def throw (e : Err) : Prog α := .ret (.error e)
/-- a computation that does not touch the global batch size -/
def lift (x : Except Err α) : Prog α := .ret x
/-- `try: x except TypeError: y` -/
def exceptType : Prog α → Prog α → Prog α
  | .ret (.error .type), y => y
  | .ret r, _ => .ret r
  | .read k, y => .read (fun g => exceptType (k g) y)
  | .write n k, y => .write n (exceptType k y)

/-- execution without interference -/
def run : Prog α → CM α
  | .ret r, g => (r, g)
  | .read k, g => run (k g) g
  | .write n k, _ => run k (some n)

/-- one access, with the value of the attribute before and after it; a finished thread does nothing -/
def step (g : Option ℕ) : Prog α → Option ℕ × Prog α
  | .ret r => (g, .ret r)
  | .read k => (g, k g)
  | .write n k => (some n, k)
end Prog

/-- The state of a process: the attribute `Contractable.global_bs` and its threads. -/
structure Process (α : Type) where
  globalBs : Option ℕ
  threads : List (Prog α)

/-- Thread number `i` makes its next access. -/
def Process.step {α : Type} (s : Process α) (i : ℕ) : Process α :=
  match s.threads[i]? with
  | none => s
  | some p => ⟨(p.step s.globalBs).1, s.threads.set i (p.step s.globalBs).2⟩

/-- Execution along a schedule: the numbers of the threads in the order in which they make their accesses. -/
def Process.exec {α : Type} (s : Process α) (schedule : List ℕ) : Process α := schedule.foldl Process.step s

namespace Threads

/-- `Contractable.__init__`, contractables.py:28-71: the attribute is read at line 33; the decisions of lines 37-67 use the
value read; it is assigned in line 59, and only if the value read differs from the batch size of the tensor. -/
def mkContractable (cls : Cls) (t : Tensor K) (str : List Char) : Prog (Contractable K) :=
  .read fun g =>                                                                  -- :33
    if t.shape = [] ∨ str = [] then .throw .index                                 -- :34, :38
    else if needsExpand str t.ndim then                                           -- :37-39
      match g with
      | some bs =>                                                                -- :40-41
        pure ⟨cls, ⟨bs :: t.shape, fun idx => t.get (idx.drop 1)⟩, if str.head? = some 'b' then str else 'b' :: str⟩
      | none => .throw .runtime                                                   -- :42-45
    else if str.head? ≠ some 'b' ∨ str.length ≠ t.ndim then .throw .value         -- :50-55
    else if g = some (t.shape.getD 0 0) then pure ⟨cls, t, str⟩
    else .write (t.shape.getD 0 0) (pure ⟨cls, t, str⟩)                           -- :58-59

/-- `MatRegion.__init__`, contractables.py:243-252 -/
def mkMatRegion (t : Tensor K) : Prog (Contractable K) :=
  if (t.ndim ≠ 3 ∧ t.ndim ≠ 4) ∨ t.shape.getD (t.ndim - 2) 0 ≠ t.shape.getD (t.ndim - 1) 0 then .throw .value
  else mkContractable .matRegion t ['b', 's', 'l', 'r']

/-- `OutputCore.__init__`, contractables.py:323-332 -/
def mkOutputCore (t : Tensor K) : Prog (Contractable K) :=
  if t.ndim ≠ 3 ∧ t.ndim ≠ 4 then .throw .value else mkContractable .outputCore t ['b', 'o', 'l', 'r']

/-- `SingleMat.__init__`, contractables.py:340-349 -/
def mkSingleMat (t : Tensor K) : Prog (Contractable K) :=
  if t.ndim ≠ 2 ∧ t.ndim ≠ 3 then .throw .value else mkContractable .singleMat t ['b', 'l', 'r']

/-- `OutputMat.__init__`, contractables.py:357-368 -/
def mkOutputMat (t : Tensor K) (isLeft : Bool) : Prog (Contractable K) :=
  if t.ndim ≠ 2 ∧ t.ndim ≠ 3 then .throw .value
  else mkContractable .outputMat t ['b', if isLeft then 'r' else 'l', 'o']

/-- `EdgeVec.__init__`, contractables.py:392-403 -/
def mkEdgeVec (t : Tensor K) (isLeft : Bool) : Prog (Contractable K) :=
  if t.ndim ≠ 1 ∧ t.ndim ≠ 2 then .throw .value
  else mkContractable .edgeVec t ['b', if isLeft then 'r' else 'l']

/-- `Scalar.__init__`, contractables.py:430-446 -/
def mkScalar (t : Tensor K) : Prog (Contractable K) :=
  if t.ndim ≠ 1 then .throw .value else mkContractable .scalar t ['b']

/-- Wrapping of the result of a product, contractables.py:137-147. -/
def wrapOut (t : Tensor K) (out : List Char) : Prog (Contractable K) :=
  if out = ['b', 'r'] then mkEdgeVec t true
  else if out = ['b', 'l'] then mkEdgeVec t false
  else if out = ['b', 'l', 'r'] then mkSingleMat t
  else if out = ['b', 'o', 'l', 'r'] then mkOutputCore t
  else mkContractable .contractable t out

/-- `Contractable.__mul__`, contractables.py:73-147 -/
def gmul [CommSemiring K] (self other : Contractable K) (rmul : Bool) : Prog (Option (Contractable K)) :=
  if other.cls = .scalar ∨ other.cls = .matRegion then return none
  else do
    let x := if rmul then other else self
    let y := if rmul then self else other
    .lift (checkBonds x.bondStr 'r')
    .lift (checkBonds y.bondStr 'l')
    let s ← .lift (mulStrings x.bondStr y.bondStr)
    let t ← .lift (einsum [s.1, s.2.1] s.2.2 [x.tensor, y.tensor])
    let c ← wrapOut t s.2.2
    return some c

/-- `MatRegion.__mul__`, contractables.py:254-281 -/
def regionMul [CommSemiring K] (self other : Contractable K) (rmul : Bool) : Prog (Option (Contractable K)) :=
  if other.cls ≠ .edgeVec then return none
  else do
    let n := self.tensor.shape.getD 1 0
    let d := if rmul then 1 else 2
    if n = 0 then .throw .runtime
    else do
      let sites := if rmul then List.range n else (List.range n).reverse
      let vec ← .lift (regionApply self.tensor rmul sites (other.tensor.unsqueeze d))
      let c ← mkEdgeVec (vec.squeeze d) rmul
      return some c

/-- `MatRegion.reduce`, contractables.py:286-315 -/
def regionReduce [CommSemiring K] (self : Contractable K) : Prog (Contractable K) := do
  let n := self.tensor.shape.getD 1 0
  let mats ← .lift (regionLoop n self.tensor n)
  mkSingleMat (mats.squeeze 1)

/-- `EdgeVec.__mul__`, contractables.py:405-422 -/
def edgeMul [CommSemiring K] (self other : Contractable K) : Prog (Option (Contractable K)) :=
  if other.cls ≠ .edgeVec then return none
  else do
    let p ← .lift (Tensor.bmm (self.tensor.unsqueeze 1) (other.tensor.unsqueeze 2))
    let p ← .lift (p.view [self.tensor.shape.getD 0 0])
    let c ← mkScalar p
    return some c

/-- Construction of an object of the class of `c` from a tensor alone, contractables.py:461-465 -/
def sameClass (c : Contractable K) (t : Tensor K) : Prog (Contractable K) :=
  match c.cls with
  | .contractable => mkContractable .contractable t c.bondStr
  | .matRegion => mkMatRegion t
  | .outputCore => mkOutputCore t
  | .singleMat => mkSingleMat t
  | .outputMat => .throw .type
  | .edgeVec => .throw .type
  | .scalar => mkScalar t

/-- `Scalar.__mul__` and `Scalar.__rmul__`, contractables.py:448-469 -/
def scalarMul [CommSemiring K] (self other : Contractable K) : Prog (Option (Contractable K)) := do
  let t ← .lift (einsum [other.bondStr, ['b']] other.bondStr [other.tensor, self.tensor])
  let c ← sameClass other t
  return some c

/-- `type(self).__mul__(self, other)` -/
def mulMethod [CommSemiring K] (self other : Contractable K) : Prog (Option (Contractable K)) :=
  match self.cls with
  | .matRegion => regionMul self other false
  | .outputMat => if other.cls ≠ .edgeVec then .throw .type else gmul self other false
  | .edgeVec => edgeMul self other
  | .scalar => scalarMul self other
  | _ => gmul self other false

/-- `type(self).__rmul__(self, other)` -/
def rmulMethod [CommSemiring K] (self other : Contractable K) : Prog (Option (Contractable K)) :=
  match self.cls with
  | .matRegion => regionMul self other true
  | .outputMat => if other.cls ≠ .edgeVec then .throw .type else gmul self other true
  | .edgeVec => .throw .type
  | .scalar => scalarMul self other
  | _ => gmul self other true

/-- Use the result, or go on when it is `NotImplemented`. -/
def useOr (y : Prog (Contractable K)) : Option (Contractable K) → Prog (Contractable K)
  | some c => return c
  | none => y

/-- Use the result, or go on when it is `NotImplemented`. -/
def orElse (x : Prog (Option (Contractable K))) (y : Prog (Contractable K)) : Prog (Contractable K) := x >>= useOr y

/-- The Python expression `a * b` (see `star` in Model/Contractables.lean) -/
def star [CommSemiring K] (a b : Contractable K) : Prog (Contractable K) :=
  if a.cls = b.cls then orElse (mulMethod a b) (.throw .type)
  else if a.cls = .contractable ∧ overridesRmul b.cls = true then
    orElse (rmulMethod b a) (orElse (mulMethod a b) (.throw .type))
  else orElse (mulMethod a b) (orElse (rmulMethod b a) (.throw .type))

/-- `item.reduce()`, contractables.py:155-162, 286-315 -/
def reduceItem [CommSemiring K] (c : Contractable K) : Prog (Contractable K) :=
  if c.cls = .matRegion then regionReduce c else return c

/-- all items reduced in order, contractables.py:218 -/
def reduceItems [CommSemiring K] : List (Contractable K) → Prog (List (Contractable K))
  | [] => return []
  | c :: cs => do
    let c ← reduceItem c
    let cs ← reduceItems cs
    return c :: cs

/-- `c_list[-2] = c_list[-2] * c_list[-1]; del c_list[-1]`, contractables.py:226-227 -/
def mulLast [CommSemiring K] : List (Contractable K) → Prog (List (Contractable K))
  | [] => .throw .index
  | [_] => .throw .index
  | [a, b] => do
    let c ← star a b
    return [c]
  | a :: b :: d :: cs => do
    let r ← mulLast (b :: d :: cs)
    return a :: r

/-- `c_list[1] = c_list[0] * c_list[1]; del c_list[0]`, contractables.py:229-230 -/
def mulFirst [CommSemiring K] : List (Contractable K) → Prog (List (Contractable K))
  | a :: b :: cs => do
    let c ← star a b
    return c :: cs
  | _ => .throw .index

/-- The loop of `ContractableList.reduce`, contractables.py:224-230 -/
def reduceLoop [CommSemiring K] : ℕ → List (Contractable K) → Prog (List (Contractable K))
  | 0, cs => return cs
  | fuel + 1, cs =>
    if 1 < cs.length then do
      let cs ← Prog.exceptType (mulLast cs) (mulFirst cs)
      reduceLoop fuel cs
    else return cs

/-- `c_list` after the optional reduction of all items, contractables.py:214-218 -/
def prepItems [CommSemiring K] (cs : List (Contractable K)) (parallelEval : Bool) : Prog (List (Contractable K)) :=
  if parallelEval then reduceItems cs else return cs

/-- the result of `reduce`, contractables.py:232 -/
def headOf : List (Contractable K) → Prog (Contractable K)
  | [] => .throw .index
  | c :: _ => return c

/-- `ContractableList.reduce`, contractables.py:210-232: the result. -/
def reduceList [CommSemiring K] (cs : List (Contractable K)) (parallelEval : Bool) : Prog (Contractable K) := do
  let items ← prepItems cs parallelEval
  let res ← reduceLoop items.length items
  headOf res

/-- `module.forward(input_data)`, torchmps.py:1033-1055, 1153-1176, 1246-1261, 1297-1301, 1350-1365 -/
def moduleForward [CommSemiring K] : Module K → Tensor K → Prog (Contractable K)
  | .inputRegion t bias, x => do
    let mats ← .lift (inputRegionMats t bias x)
    mkMatRegion mats
  | .mergedInput t, x => do
    let mats ← .lift (mergedInputMats t x)
    mkMatRegion mats
  | .inputSite t, x => do
    let mat ← .lift (inputSiteMat t x)
    mkSingleMat mat
  | .outputSite t, _ => mkOutputCore t
  | .mergedOutput t _, x => do
    let core ← .lift (mergedOutputCore t x)
    mkOutputCore core

/-- The loop over the modules, torchmps.py:630-641 -/
def runModules [CommSemiring K] (x : Tensor K) : ℕ → List (Module K) → Prog (List (Contractable K))
  | _, [] => return []
  | ind, m :: ms => do
    let c ← moduleForward m (pickInput x ind m.len)
    let cs ← runModules x (ind + m.len) ms
    return c :: cs

/-- Periodic boundaries, torchmps.py:644-663 -/
def closeRing [CommSemiring K] (cs : List (Contractable K)) : Prog (Tensor K) := do
  let c ← reduceList cs true
  .lift (assert ('l' ∈ c.bondStr ∧ 'r' ∈ c.bondStr))
  .lift (einsum [traceIn c.bondStr] (traceOut c.bondStr) [c.tensor])

/-- Open boundaries, torchmps.py:667-688 -/
def closeOpen [CommSemiring K] (cs : List (Contractable K)) (parallelEval : Bool) : Prog (Tensor K) :=
  match cs.head?, cs.getLast? with
  | some first, some last => do
    let dl ← .lift (bondSize first 'l')
    let dr ← .lift (bondSize last 'r')
    let vl ← .lift (endVec dl)
    let vr ← .lift (endVec dr)
    let e ← mkEdgeVec vl true
    let r ← mkEdgeVec vr false
    let c ← reduceList (e :: cs ++ [r]) parallelEval
    return c.tensor
  | _, _ => .throw .index

/-- `LinearRegion.forward`, torchmps.py:609-688 -/
def linearForward [CommSemiring K] (ms : List (Module K)) (periodic parallelEval : Bool) (x : Tensor K) : Prog (Tensor K) := do
  .lift (assert (x.ndim = 3))
  .lift (assert (x.shape.getD 1 0 = modulesLen ms))
  let cs ← runModules x 0 ms
  if periodic then closeRing cs else closeOpen cs parallelEval

/-- `MPS.forward` of a non-adaptive model, torchmps.py:453-478 -/
def mpsForward [CommRing K] (m : MPS K) (x : Tensor K) : Prog (Tensor K) := do
  let x ← .lift (followPath m.path x)
  let x ← .lift (m.embedInput x)
  linearForward m.modules m.periodic m.parallel x

/-- `TI_MPS.forward`, torchmps.py:79-115 -/
def tiForward [CommRing K] (m : TiMps K) (inp : TiInput K) : Prog (Tensor K) := do
  let x ← .lift (m.formatInput inp)
  let core ← .lift ((m.core.unsqueeze 0).expand [x.shape.getD 1 0, m.bondDim, m.bondDim, m.featureDim])
  let r ← .lift (mkInputRegion core m.useBias m.biasMat)
  let c ← moduleForward r x
  let e ← mkEdgeVec m.initVec true
  let t ← mkOutputMat m.termMat false
  let o ← reduceList [e, c, t] m.parallel
  .lift (assert (o.bondStr = ['b', 'o']))
  .lift (assert (o.tensor.shape.getD 0 0 = x.shape.getD 0 0))
  .lift (assert (o.tensor.shape.getD 1 0 = m.outputDim))
  return o.tensor

end Threads
end TorchMPS
