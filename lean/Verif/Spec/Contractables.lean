import Verif.Model.Contractables
import Verif.Spec.MatProd
/-
Specification vocabulary for contractables: tensors whose axes are labelled by letters, `b` being the batch,
`l` and `r` the left and right bond.
-/
namespace TorchMPS.Spec
variable {K : Type}

/-- the letters other than batch and bonds -/
def others (s : List Char) : List Char := s.filter (fun c => c ≠ 'b' ∧ c ≠ 'l' ∧ c ≠ 'r')

/-- The multi-index with the values `b`, `l`, `r` at the letters of these names and the values `x` (in order) at
the other letters. -/
def place : List Char → ℕ → ℕ → ℕ → List ℕ → List ℕ
  | [], _, _, _, _ => []
  | c :: s, b, l, r, x =>
    if c = 'b' then b :: place s b l r x
    else if c = 'l' then l :: place s b l r x
    else if c = 'r' then r :: place s b l r x
    else x.headD 0 :: place s b l r x.tail

/-- the size of the axis labelled by a letter -/
def axis (c : Contractable K) (d : Char) : ℕ := c.tensor.shape.getD (c.bondStr.idxOf d) 0

/-- the sizes of the axes other than batch and bonds -/
def otherSizes (c : Contractable K) : Shape := (others c.bondStr).map (axis c)

/-- the entry at batch `b`, bonds `l`, `r`, and the values `x` of all other indices -/
def entry (c : Contractable K) (b l r : ℕ) (x : List ℕ) : K := c.tensor.get (place c.bondStr b l r x)

/-- A contractable whose bond string labels each axis by a different lowercase letter, the first one by `b`. -/
structure Labelled (c : Contractable K) : Prop where
  batchFirst : c.bondStr.head? = some 'b'
  distinct : c.bondStr.Nodup
  lower : ∀ d ∈ c.bondStr, d ∈ lowercases
  order : c.tensor.shape.length = c.bondStr.length

/-- letters (besides batch and bonds) used by both strings -/
def clashes (s1 s2 : List Char) : List Char := (others s2).filter (· ∈ s1)

/-- Enough letters for renaming the clashing ones and for the summed bond. -/
def EnoughLetters (s1 s2 : List Char) : Prop :=
  (clashes s1 s2).length < (lowercases.filter (fun c => c ∉ s1 ∧ c ∉ s2)).length

/-- Pairs of classes whose product is the contraction along the common bond. -/
def CanMultiply : Cls → Cls → Prop
  | .contractable, .contractable | .contractable, .outputCore | .contractable, .singleMat
  | .contractable, .edgeVec => True
  | .outputCore, .contractable | .outputCore, .outputCore | .outputCore, .singleMat | .outputCore, .edgeVec
  | .outputCore, .outputMat => True
  | .singleMat, .contractable | .singleMat, .outputCore | .singleMat, .singleMat | .singleMat, .edgeVec
  | .singleMat, .outputMat => True
  | .edgeVec, .contractable | .edgeVec, .outputCore | .edgeVec, .singleMat | .edgeVec, .outputMat => True
  | .outputMat, .edgeVec => True
  | _, _ => False

end TorchMPS.Spec

namespace TorchMPS.Spec
variable {K : Type}

/-- The bond string belongs to the class, as arranged by the constructors. -/
def ClassString (c : Contractable K) : Prop :=
  match c.cls with
  | .contractable => True
  | .matRegion => c.bondStr = ['b', 's', 'l', 'r'] ∧ axis c 'l' = axis c 'r'
  | .outputCore => c.bondStr = ['b', 'o', 'l', 'r']
  | .singleMat => c.bondStr = ['b', 'l', 'r']
  | .outputMat => c.bondStr = ['b', 'l', 'o'] ∨ c.bondStr = ['b', 'r', 'o']
  | .edgeVec => c.bondStr = ['b', 'l'] ∨ c.bondStr = ['b', 'r']
  | .scalar => c.bondStr = ['b']

/-- The class of a product with the given bond string. -/
def classFor (out : List Char) : Cls :=
  if out = ['b', 'r'] ∨ out = ['b', 'l'] then .edgeVec
  else if out = ['b', 'l', 'r'] then .singleMat
  else if out = ['b', 'o', 'l', 'r'] then .outputCore
  else .contractable

/-! ### Chains of contractables as products of matrices -/

/-- number of rows: size of the left bond, 1 without left bond -/
def rows (c : Contractable K) : ℕ := if 'l' ∈ c.bondStr then axis c 'l' else 1

/-- number of columns: size of the right bond, 1 without right bond -/
def cols (c : Contractable K) : ℕ := if 'r' ∈ c.bondStr then axis c 'r' else 1

/-- The matrix of a contractable for sample `b`, with the value `o` for its further index (if any). -/
def matOf [Zero K] (c : Contractable K) (b o : ℕ) : Mat K := Mat.of (rows c) (cols c) (fun i j => entry c b i j [o])

/-- The matrices a contractable contributes to the ordered product for sample `b` and output `o`: those of all
sites in order for a matrix region, otherwise its only matrix. -/
def factors [Zero K] (c : Contractable K) (b o : ℕ) : List (Mat K) :=
  match c.cls with
  | .matRegion => (List.range (axis c 's')).map (fun s => matOf c b s)
  | _ => [matOf c b o]

/-- ordered product of a list of matrices (`none` for the empty list) -/
def orderedProd [Semiring K] : List (Mat K) → Option (Mat K)
  | [] => none
  | m :: ms => some (matProd m ms)

/-- A contractable of batch size `B` as its constructors arrange it; matrix regions have at least one site. -/
structure Piece (B : ℕ) (c : Contractable K) : Prop where
  labelled : Labelled c
  string : ClassString c
  batch : axis c 'b' = B
  sites : c.cls = .matRegion → 1 ≤ axis c 's'

/-- every right bond fits the left bond of the successor -/
def Joined : List (Contractable K) → Prop
  | [] => True
  | [_] => True
  | x :: y :: l => axis x 'r' = axis y 'l' ∧ Joined (y :: l)

/-- matrix regions and single matrices -/
def IsMid (c : Contractable K) : Prop := c.cls = .matRegion ∨ c.cls = .singleMat

/-- Matrix regions, single matrices and exactly one output core of output size `O`, in any order. -/
def OneOutput (O : ℕ) (cs : List (Contractable K)) : Prop :=
  ∃ as oc bs, cs = as ++ oc :: bs ∧ (∀ a ∈ as, IsMid a) ∧ (∀ a ∈ bs, IsMid a) ∧ oc.cls = .outputCore ∧ axis oc 'o' = O


/-! ### Histories of constructions -/

/-- A call of one of the constructors. -/
inductive Make (K : Type) where
  | contractable (t : Tensor K) (str : List Char)
  | matRegion (t : Tensor K)
  | outputCore (t : Tensor K)
  | singleMat (t : Tensor K)
  | outputMat (t : Tensor K) (isLeft : Bool)
  | edgeVec (t : Tensor K) (isLeft : Bool)
  | scalar (t : Tensor K)

/-- perform the call -/
def Make.run : Make K → CM (Contractable K)
  | .contractable t str => mkContractable .contractable t str
  | .matRegion t => mkMatRegion t
  | .outputCore t => mkOutputCore t
  | .singleMat t => mkSingleMat t
  | .outputMat t l => mkOutputMat t l
  | .edgeVec t l => mkEdgeVec t l
  | .scalar t => mkScalar t

/-- The global batch size after a sequence of calls, exceptions being caught by the caller. -/
def batchAfter (g : Option ℕ) : List (Make K) → Option ℕ
  | [] => g
  | m :: ms => batchAfter (m.run g).2 ms

/-- The tensor of the call. -/
def Make.tensor : Make K → Tensor K
  | .contractable t _ => t
  | .matRegion t => t
  | .outputCore t => t
  | .singleMat t => t
  | .outputMat t _ => t
  | .edgeVec t _ => t
  | .scalar t => t

/-- the bond string of the resulting object -/
def Make.str : Make K → List Char
  | .contractable _ str => str
  | .matRegion _ => ['b', 's', 'l', 'r']
  | .outputCore _ => ['b', 'o', 'l', 'r']
  | .singleMat _ => ['b', 'l', 'r']
  | .outputMat _ l => ['b', if l then 'r' else 'l', 'o']
  | .edgeVec _ l => ['b', if l then 'r' else 'l']
  | .scalar _ => ['b']

/-- matrices of a region must be square -/
def Make.square : Make K → Prop
  | .matRegion t => t.shape.getD (t.shape.length - 2) 0 = t.shape.getD (t.shape.length - 1) 0
  | _ => True

/-- The call has an explicit batch axis: one axis per letter, the first letter being `b`. -/
def Make.Batched (m : Make K) : Prop :=
  m.str.head? = some 'b' ∧ m.tensor.shape.length = m.str.length ∧ m.square

/-- The call lacks just the batch axis. -/
def Make.Unbatched (m : Make K) : Prop :=
  m.tensor.shape ≠ [] ∧ m.str ≠ [] ∧ m.square ∧
    ((m.str.head? = some 'b' ∧ m.str.length = m.tensor.shape.length + 1) ∨
      ('b' ∉ m.str ∧ m.str.length = m.tensor.shape.length))

/-- The contractable with `B` copies of its first sample. -/
def repeatSample (B : ℕ) (c : Contractable K) : Contractable K :=
  ⟨c.cls, ⟨B :: c.tensor.shape.tail, fun idx => c.tensor.get (0 :: idx.tail)⟩, c.bondStr⟩

end TorchMPS.Spec
