import Verif.Base.TensorOps
/-
Model of `torchmps/contractables.py`.

The class attribute `Contractable.global_bs` is shared, mutable state: every operation maps the current
value to a result (or exception) and the new value.
-/
namespace TorchMPS
variable {K : Type}

/-- A computation which may raise and may change `Contractable.global_bs` (also when it raises). -/
def CM (α : Type) := Option ℕ → Except Err α × Option ℕ

namespace CM
def pure {α : Type} (a : α) : CM α := fun g => (.ok a, g)
def bind {α β : Type} (x : CM α) (f : α → CM β) : CM β := fun g =>
  match x g with
  | (.ok a, g') => f a g'
  | (.error e, g') => (.error e, g')
instance : Monad CM := { pure := CM.pure, bind := CM.bind }
/-- raise an exception -/
def throw {α : Type} (e : Err) : CM α := fun g => (.error e, g)
/-- a computation that does not touch the global batch size -/
def lift {α : Type} (x : Except Err α) : CM α := fun g => (x, g)
/-- read `Contractable.global_bs` -/
def get : CM (Option ℕ) := fun g => (.ok g, g)
/-- assign `Contractable.global_bs` -/
def set (n : ℕ) : CM Unit := fun _ => (.ok (), some n)
/-- `try: x except TypeError: y` -/
def exceptType {α : Type} (x y : CM α) : CM α := fun g =>
  match x g with
  | (.error .type, g') => y g'
  | r => r
end CM

/-- The classes of contractables.py with a `tensor` attribute. -/
inductive Cls where
  | contractable | matRegion | outputCore | singleMat | outputMat | edgeVec | scalar
  deriving DecidableEq, Repr

/-- A contractable object. (`global_bs` is a class attribute, see `CM`.) -/
structure Contractable (K : Type) where
  cls : Cls
  tensor : Tensor K
  bondStr : List Char

/-- the 26 lowercase letters in order, contractables.py:92 -/
def lowercases : List Char :=
  ['a', 'b', 'c', 'd', 'e', 'f', 'g', 'h', 'i', 'j', 'k', 'l', 'm', 'n', 'o', 'p', 'q', 'r', 's', 't', 'u', 'v',
    'w', 'x', 'y', 'z']

/-- Are we in the branch "Expand along a new batch dimension", contractables.py:37-39? (`str` non-empty.) -/
def needsExpand (str : List Char) (ndim : ℕ) : Prop :=
  ('b' ∉ str ∧ str.length = ndim) ∨ (str.head? = some 'b' ∧ str.length = ndim + 1)

instance (str : List Char) (ndim : ℕ) : Decidable (needsExpand str ndim) := by
  unfold needsExpand; infer_instance

/-- `Contractable.__init__`, contractables.py:28-71. A tensor without axes makes `tensor.size(0)` raise
IndexError, an empty bond string `bond_str[0]`. The last `elif` of the code can never be reached, because the
preceding one catches every difference of batch sizes. -/
def mkContractable (cls : Cls) (t : Tensor K) (str : List Char) : CM (Contractable K) := do
  if t.shape = [] ∨ str = [] then CM.throw .index
  else if needsExpand str t.ndim then
    match ← CM.get with
    | some bs =>
      return ⟨cls, ⟨bs :: t.shape, fun idx => t.get (idx.drop 1)⟩, if str.head? = some 'b' then str else 'b' :: str⟩
    | none => CM.throw .runtime
  else if str.head? ≠ some 'b' ∨ str.length ≠ t.ndim then CM.throw .value
  else do
    CM.set (t.shape.getD 0 0)
    return ⟨cls, t, str⟩

/-- `MatRegion.__init__`, contractables.py:243-252 -/
def mkMatRegion (t : Tensor K) : CM (Contractable K) :=
  if (t.ndim ≠ 3 ∧ t.ndim ≠ 4) ∨ t.shape.getD (t.ndim - 2) 0 ≠ t.shape.getD (t.ndim - 1) 0 then CM.throw .value
  else mkContractable .matRegion t ['b', 's', 'l', 'r']

/-- `OutputCore.__init__`, contractables.py:323-332 -/
def mkOutputCore (t : Tensor K) : CM (Contractable K) :=
  if t.ndim ≠ 3 ∧ t.ndim ≠ 4 then CM.throw .value else mkContractable .outputCore t ['b', 'o', 'l', 'r']

/-- `SingleMat.__init__`, contractables.py:340-349 -/
def mkSingleMat (t : Tensor K) : CM (Contractable K) :=
  if t.ndim ≠ 2 ∧ t.ndim ≠ 3 then CM.throw .value else mkContractable .singleMat t ['b', 'l', 'r']

/-- `OutputMat.__init__`, contractables.py:357-368 -/
def mkOutputMat (t : Tensor K) (isLeft : Bool) : CM (Contractable K) :=
  if t.ndim ≠ 2 ∧ t.ndim ≠ 3 then CM.throw .value
  else mkContractable .outputMat t ['b', if isLeft then 'r' else 'l', 'o']

/-- `EdgeVec.__init__`, contractables.py:392-403 -/
def mkEdgeVec (t : Tensor K) (isLeft : Bool) : CM (Contractable K) :=
  if t.ndim ≠ 1 ∧ t.ndim ≠ 2 then CM.throw .value
  else mkContractable .edgeVec t ['b', if isLeft then 'r' else 'l']

/-- `Scalar.__init__`, contractables.py:430-446. `shape is []` is an identity test with a new list and
always false, so tensors without axes fall through to the rank check. -/
def mkScalar (t : Tensor K) : CM (Contractable K) :=
  if t.ndim ≠ 1 then CM.throw .value else mkContractable .scalar t ['b']

/-! ### Contractable.__mul__ -/

/-- The checks on the bond strings, contractables.py:100-104; `side` is the bond the string needs. -/
def checkBonds (s : List Char) (side : Char) : Except Err Unit := do
  assert (s.head? = some 'b')
  assert (s.dedup.length = s.length)
  assert (∀ c ∈ s, c ∈ lowercases)
  assert (side ∈ s)

/-- The renaming loop, contractables.py:112-114. `free` is the list of free letters in the order in which
`pop()` yields them (last letter of the alphabet first). -/
def renameLoop (s1 : List Char) : List Char → List Char → Except Err (List Char × List Char)
  | [], free => .ok ([], free)
  | c :: s2, free =>
    if c ∈ s1 ∧ c ∉ ['b', 'l', 'r'] then
      match free with
      | [] => .error .index
      | f :: free => do
        let (s, free) ← renameLoop s1 s2 free
        return (f :: s, free)
    else do
      let (s, free) ← renameLoop s1 s2 free
      return (c :: s, free)

/-- replace one letter -/
def subst (c d : Char) (s : List Char) : List Char := s.map (fun x => if x = c then d else x)

/-- The two input strings and the output string of the einsum, contractables.py:106-126. -/
def mulStrings (s1 s2 : List Char) : Except Err (List Char × List Char × List Char) := do
  let free := (lowercases.filter (fun c => c ∉ s1 ∧ c ∉ s2)).reverse
  let (s2', free) ← renameLoop s1 s2 free
  match free with
  | [] => .error .index
  | σ :: _ =>
    let t1 := subst 'r' σ s1
    let t2 := subst 'l' σ s2'
    let keep := fun c => c ≠ 'b' ∧ c ≠ 'l' ∧ c ≠ 'r' ∧ c ≠ σ
    return (t1, t2, 'b' :: (t1.filter keep ++ t2.filter keep ++ (if 'l' ∈ t1 then ['l'] else []) ++
      (if 'r' ∈ t2 then ['r'] else [])))

/-- Wrapping of the result, contractables.py:137-147. -/
def wrapOut (t : Tensor K) (out : List Char) : CM (Contractable K) :=
  if out = ['b', 'r'] then mkEdgeVec t true
  else if out = ['b', 'l'] then mkEdgeVec t false
  else if out = ['b', 'l', 'r'] then mkSingleMat t
  else if out = ['b', 'o', 'l', 'r'] then mkOutputCore t
  else mkContractable .contractable t out

/-- `Contractable.__mul__`, contractables.py:73-147; `none` is Python's `NotImplemented`. (Objects
without a `tensor` attribute are not of type `Contractable` here; see `listMul` for them.) -/
def gmul [CommSemiring K] (self other : Contractable K) (rmul : Bool) : CM (Option (Contractable K)) :=
  if other.cls = .scalar ∨ other.cls = .matRegion then return none
  else do
    let x := if rmul then other else self
    let y := if rmul then self else other
    CM.lift (checkBonds x.bondStr 'r')
    CM.lift (checkBonds y.bondStr 'l')
    let (t1, t2, out) ← CM.lift (mulStrings x.bondStr y.bondStr)
    let t ← CM.lift (einsum [t1, t2] out [x.tensor, y.tensor])
    let c ← wrapOut t out
    return some c

/-! ### MatRegion -/

/-- The loop of matrix-vector products, contractables.py:271-275: `vec` is multiplied by the matrices with the
listed site numbers, from the right (`rmul`, row vectors) or from the left. -/
def regionApply [CommSemiring K] (mats : Tensor K) (rmul : Bool) : List ℕ → Tensor K → Except Err (Tensor K)
  | [], vec => .ok vec
  | s :: ss, vec => do
    let vec ← if rmul then Tensor.bmm vec (mats.select 1 s) else Tensor.bmm (mats.select 1 s) vec
    regionApply mats rmul ss vec

/-- `MatRegion.__mul__`, contractables.py:254-281. `torch.chunk` raises RuntimeError for zero chunks. -/
def regionMul [CommSemiring K] (self other : Contractable K) (rmul : Bool) : CM (Option (Contractable K)) :=
  if other.cls ≠ .edgeVec then return none
  else do
    let n := self.tensor.shape.getD 1 0
    let d := if rmul then 1 else 2
    if n = 0 then CM.throw .runtime
    else do
      let sites := if rmul then List.range n else (List.range n).reverse
      let vec ← CM.lift (regionApply self.tensor rmul sites (other.tensor.unsqueeze d))
      let c ← mkEdgeVec (vec.squeeze d) rmul
      return some c

/-- One round of `MatRegion.reduce`, contractables.py:298-310. -/
def regionRound [CommSemiring K] (mats : Tensor K) (size : ℕ) : Except Err (Tensor K) := do
  let half := size / 2
  let even := mats.sliceAx 1 0 2 half
  let odd := mats.sliceAx 1 1 2 half
  let leftover := mats.sliceAx 1 (2 * half) 1 (mats.shape.getD 1 0 - 2 * half)
  let prod ← einsum [['b', 's', 'l', 'u'], ['b', 's', 'u', 'r']] ['b', 's', 'l', 'r'] [even, odd]
  prod.cat leftover 1

/-- The loop of `MatRegion.reduce`, contractables.py:297-312; `fuel` bounds the number of rounds (the size
is halved in every round, so `fuel = size` is never exhausted). -/
def regionLoop [CommSemiring K] : ℕ → Tensor K → ℕ → Except Err (Tensor K)
  | 0, mats, _ => .ok mats
  | fuel + 1, mats, size =>
    if 1 < size then do
      let mats ← regionRound mats size
      regionLoop fuel mats (size / 2 + size % 2)
    else .ok mats

/-- `MatRegion.reduce`, contractables.py:286-315. -/
def regionReduce [CommSemiring K] (self : Contractable K) : CM (Contractable K) := do
  let n := self.tensor.shape.getD 1 0
  let mats ← CM.lift (regionLoop n self.tensor n)
  mkSingleMat (mats.squeeze 1)

/-! ### EdgeVec, Scalar, OutputMat -/

/-- `EdgeVec.__mul__`, contractables.py:405-422. -/
def edgeMul [CommSemiring K] (self other : Contractable K) : CM (Option (Contractable K)) :=
  if other.cls ≠ .edgeVec then return none
  else do
    let p ← CM.lift (Tensor.bmm (self.tensor.unsqueeze 1) (other.tensor.unsqueeze 2))
    let p ← CM.lift (p.view [self.tensor.shape.getD 0 0])
    let c ← mkScalar p
    return some c

/-- Construction of an object of the class of `c` from a tensor alone, contractables.py:461-465; the
constructors of EdgeVec and OutputMat need a second argument, so Python raises TypeError. -/
def sameClass (c : Contractable K) (t : Tensor K) : CM (Contractable K) :=
  match c.cls with
  | .contractable => mkContractable .contractable t c.bondStr
  | .matRegion => mkMatRegion t
  | .outputCore => mkOutputCore t
  | .singleMat => mkSingleMat t
  | .outputMat => CM.throw .type
  | .edgeVec => CM.throw .type
  | .scalar => mkScalar t

/-- `Scalar.__mul__` and `Scalar.__rmul__`, contractables.py:448-469. -/
def scalarMul [CommSemiring K] (self other : Contractable K) : CM (Option (Contractable K)) := do
  let t ← CM.lift (einsum [other.bondStr, ['b']] other.bondStr [other.tensor, self.tensor])
  let c ← sameClass other t
  return some c

/-! ### The Python operator `*` -/

/-- `type(self).__mul__(self, other)`; in OutputMat `raise NotImplemented` is a TypeError (contractables.py:374). -/
def mulMethod [CommSemiring K] (self other : Contractable K) : CM (Option (Contractable K)) :=
  match self.cls with
  | .matRegion => regionMul self other false
  | .outputMat => if other.cls ≠ .edgeVec then CM.throw .type else gmul self other false
  | .edgeVec => edgeMul self other
  | .scalar => scalarMul self other
  | _ => gmul self other false

/-- `type(self).__rmul__(self, other)`. EdgeVec inherits `__rmul__` from Contractable, which calls
`self.__mul__(other, rmul=True)`; EdgeVec's `__mul__` has no such parameter: TypeError. -/
def rmulMethod [CommSemiring K] (self other : Contractable K) : CM (Option (Contractable K)) :=
  match self.cls with
  | .matRegion => regionMul self other true
  | .outputMat => if other.cls ≠ .edgeVec then CM.throw .type else gmul self other true
  | .edgeVec => CM.throw .type
  | .scalar => scalarMul self other
  | _ => gmul self other true

/-- Use the result, or go on when it is `NotImplemented`. -/
def orElse (x : CM (Option (Contractable K))) (y : CM (Contractable K)) : CM (Contractable K) := do
  match ← x with
  | some c => return c
  | none => y

/-- Does the class override `__rmul__` of `Contractable`? contractables.py:283, 378, 466 -/
def overridesRmul : Cls → Bool
  | .matRegion => true
  | .outputMat => true
  | .scalar => true
  | _ => false

/-- The Python expression `a * b`: `a.__mul__(b)`, then `b.__rmul__(a)` if the classes differ; the order
is reversed when the class of `b` is a proper subclass of that of `a` and overrides `__rmul__`. -/
def star [CommSemiring K] (a b : Contractable K) : CM (Contractable K) :=
  if a.cls = b.cls then orElse (mulMethod a b) (CM.throw .type)
  else if a.cls = .contractable ∧ overridesRmul b.cls = true then
    orElse (rmulMethod b a) (orElse (mulMethod a b) (CM.throw .type))
  else orElse (mulMethod a b) (orElse (rmulMethod b a) (CM.throw .type))

/-! ### ContractableList -/

/-- `ContractableList.__init__` for a list of contractables, contractables.py:175-184. `contractable_list is []`
compares identities with a new list and is always false, so no list is rejected. -/
def mkList (cs : List (Contractable K)) : Except Err (List (Contractable K)) := .ok cs

/-- `item.reduce()`: MatRegion's own, otherwise the identity (contractables.py:155-162, 286-315). -/
def reduceItem [CommSemiring K] (c : Contractable K) : CM (Contractable K) :=
  if c.cls = .matRegion then regionReduce c else return c

/-- all items reduced in order, contractables.py:218 -/
def reduceItems [CommSemiring K] : List (Contractable K) → CM (List (Contractable K))
  | [] => return []
  | c :: cs => do
    let c ← reduceItem c
    let cs ← reduceItems cs
    return c :: cs

/-- `c_list[-2] = c_list[-2] * c_list[-1]; del c_list[-1]`, contractables.py:226-227 (lists of length ≥ 2) -/
def mulLast [CommSemiring K] : List (Contractable K) → CM (List (Contractable K))
  | [] => CM.throw .index
  | [_] => CM.throw .index
  | [a, b] => do
    let c ← star a b
    return [c]
  | a :: b :: d :: cs => do
    let r ← mulLast (b :: d :: cs)
    return a :: r

/-- `c_list[1] = c_list[0] * c_list[1]; del c_list[0]`, contractables.py:229-230 (lists of length ≥ 2) -/
def mulFirst [CommSemiring K] : List (Contractable K) → CM (List (Contractable K))
  | a :: b :: cs => do
    let c ← star a b
    return c :: cs
  | _ => CM.throw .index

/-- The loop of `ContractableList.reduce`, contractables.py:224-230; every round shortens the list by one, so
`fuel` = length of the list suffices. -/
def reduceLoop [CommSemiring K] : ℕ → List (Contractable K) → CM (List (Contractable K))
  | 0, cs => return cs
  | fuel + 1, cs =>
    if 1 < cs.length then do
      let cs ← CM.exceptType (mulLast cs) (mulFirst cs)
      reduceLoop fuel cs
    else return cs

/-- `c_list` after the optional reduction of all items, contractables.py:214-218 -/
def prepItems [CommSemiring K] (cs : List (Contractable K)) (parallelEval : Bool) : CM (List (Contractable K)) :=
  if parallelEval then reduceItems cs else return cs

/-- `ContractableList.reduce`, contractables.py:210-232: the result and the value of
`self.contractable_list` afterwards. Without `parallel_eval` the local name `c_list` is the attribute itself, so the
stored list is consumed. (Lists inside lists are not modelled; the library never builds them.) -/
def reduceList [CommSemiring K] (cs : List (Contractable K)) (parallelEval : Bool) :
    CM (Contractable K × List (Contractable K)) := do
  let items ← prepItems cs parallelEval
  let res ← reduceLoop items.length items
  match res with
  | [] => CM.throw .index
  | c :: _ => return (c, if parallelEval then cs else res)

/-- `item * tensor` for a plain torch tensor: `__mul__` of the item, then `torch.Tensor.__rmul__`,
which knows no contractables. Contractable and EdgeVec and MatRegion return NotImplemented
(contractables.py:86-89, 258, 410), OutputMat raises TypeError, Scalar looks up `tensor.tensor`: AttributeError. -/
def itemTimesTensor (c : Contractable K) : Err :=
  match c.cls with
  | .scalar => .attribute
  | _ => .type

/-- `ContractableList.__mul__` and `__rmul__`, contractables.py:185-208: the raw tensor of the argument is
"multiplied" by the first (or last) item, which fails; with an empty list the raw tensor is returned. -/
def listMul (cs : List (Contractable K)) (other : Contractable K) (rmul : Bool) : Except Err (Tensor K) :=
  match (if rmul then cs else cs.reverse) with
  | [] => .ok other.tensor
  | c :: _ => .error (itemTimesTensor c)

end TorchMPS
