import Verif.Base.View
import Verif.Base.Mat
/-
Model of `torchmps/utils.py`: `svd_flex`.
-/
namespace TorchMPS

/-- The result `U, s, V` of `torch.svd`. -/
structure SVD where
  U : Mat ℝ
  s : List ℝ
  V : Mat ℝ

/-- `string.split("->")`, used in torchmps/utils.py:60. -/
def splitArrow : List Char → List (List Char)
  | [] => [[]]
  | '-' :: '>' :: r => [] :: splitArrow r
  | c :: r =>
    match splitArrow r with
    | h :: t => (c :: h) :: t
    | [] => [[c]]

/-- `string.split(",")`, used in torchmps/utils.py:61. -/
def splitComma : List Char → List (List Char)
  | [] => [[]]
  | c :: r =>
    if c = ',' then [] :: splitComma r
    else match splitComma r with
      | h :: t => (c :: h) :: t
      | [] => [[c]]

/-- Parsing of `svd_string`, torchmps/utils.py:59-61. Unpacking into two names raises ValueError unless there
are exactly two parts. -/
def parseSvd (s : List Char) : Except Err (List Char × List Char × List Char) :=
  match splitArrow (s.filter (· ≠ ' ')) with
  | [ini, post] =>
    match splitComma post with
    | [l, r] => .ok (ini, l, r)
    | _ => .error .value
  | _ => .error .value

/-- The three assertions of `svd_flex`, torchmps/utils.py:64-68. `set(...)` is `List.dedup`. Simplification:
`str.islower` is ASCII (non-ASCII letters are rejected later by `torch.einsum`). -/
def checkSvd (ini l r : List Char) : Except Err Unit := do
  assert (∀ c ∈ ini ++ l ++ r, c.isLower = true)
  assert ((ini ++ l ++ r).dedup.length = ini.length + 1)
  assert (ini.dedup.length + l.dedup.length + r.dedup.length = ini.length + l.length + r.length)

/-- `set(left_str).intersection(set(right_str)).pop()`, torchmps/utils.py:71. Which element `set.pop` returns is
unspecified: `pop` is any function choosing a member. `pop` on the empty set raises KeyError. -/
def bondChar (pop : List Char → Char) (l r : List Char) : Except Err Char :=
  match l.dedup.filter (· ∈ r) with
  | [] => .error .key
  | c :: cs => .ok (pop (c :: cs))

/-- Truncation or zero-padding to `max_D`, torchmps/utils.py:91-102. `W` is the transposed `V`.
`max_D` is used as a truth value, so 0 means no limit. -/
def resizeSvd (maxD : ℕ) (U : Mat ℝ) (s : List ℝ) (W : Mat ℝ) : Mat ℝ × List ℝ × Mat ℝ :=
  if maxD ≠ 0 ∧ s.length > maxD then
    (⟨U.r, min maxD U.c, U.e⟩, s.take maxD, ⟨min maxD W.r, W.c, W.e⟩)
  else if maxD ≠ 0 ∧ s.length < maxD then
    (⟨U.r, maxD, fun i k => if k < U.c then U.e i k else 0⟩, s ++ List.replicate (maxD - s.length) 0,
      ⟨maxD, W.c, fun k j => if k < W.r then W.e k j else 0⟩)
  else (U, s, W)

/-- The loop computing `truncation`, torchmps/utils.py:114-118. -/
noncomputable def truncLen (cutoff : ℝ) : List ℝ → ℕ
  | [] => 0
  | s :: ss => open Classical in if s < cutoff then 0 else truncLen cutoff ss + 1

/-- The truncation itself, torchmps/utils.py:126-135: zeroing beyond `tr` when `max_D` was given,
slicing otherwise. -/
def truncSvd (maxD tr : ℕ) (U : Mat ℝ) (s : List ℝ) (W : Mat ℝ) : Mat ℝ × List ℝ × Mat ℝ :=
  if maxD ≠ 0 then
    (⟨U.r, U.c, fun i k => if k < tr then U.e i k else 0⟩,
      s.take tr ++ List.replicate (s.length - tr) 0,
      ⟨W.r, W.c, fun k j => if k < tr then W.e k j else 0⟩)
  else (⟨U.r, min tr U.c, U.e⟩, s.take tr, ⟨min tr W.r, W.c, W.e⟩)

/-- A matrix as a tensor with two axes. -/
def Mat.toTensor {K : Type} [Zero K] (A : Mat K) : Tensor K := ⟨[A.r, A.c], fun idx => A.e (idx.getD 0 0) (idx.getD 1 0)⟩

/-- The result of `svd_flex`; `svVec` is the content of `sv_vec` afterwards (modified in place). -/
structure SvdOut where
  left : Tensor ℝ
  right : Tensor ℝ
  bondDim : ℕ
  svVec : Option (Tensor ℝ)

/-- Copying the singular values into `sv_vec`, torchmps/utils.py:105-111. -/
def writeSvVec (sv : Option (Tensor ℝ)) (s : List ℝ) : Except Err (Option (Tensor ℝ)) :=
  match sv with
  | none => .ok none
  | some v =>
    if v.shape = [s.length] then .ok (some ⟨[s.length], fun idx => s.getD (idx.getD 0 0) 0⟩)
    else .error .type

/-- `torch.sort(svs, descending=True)`, torchmps/utils.py:87. -/
noncomputable def sortDesc (s : List ℝ) : List ℝ :=
  open Classical in s.mergeSort (fun a b => decide (b ≤ a))

/-- Permuting the axes of an output when its index string differs from the natural one,
torchmps/utils.py:148-155. -/
def permuteOut (have_ want : List Char) (t : Tensor ℝ) : Except Err (Tensor ℝ) :=
  if want ≠ have_ then einsum [have_] want [t] else .ok t

/-- The matrix handed to `torch.svd`, torchmps/utils.py:76-83, with the two shapes. -/
def svdMatrix (t : Tensor ℝ) (ini lp rp : List Char) : Except Err (Mat ℝ × Shape × Shape) := do
  let t1 ← einsum [ini] (lp ++ rp) [t]
  let ls := t1.shape.take lp.length
  let rs := t1.shape.drop lp.length
  let t2 ← t1.view [ls.prod, rs.prod]
  return (Mat.of ls.prod rs.prod (fun i j => t2.get [i, j]), ls, rs)

/-- From the matrices to the output tensors, torchmps/utils.py:138-155. `D` is `max_D`, or the truncation
index when it was not given. -/
def svdOutputs (svRight : Bool) (D : ℕ) (ls rs : Shape) (l r lp rp : List Char) (c : Char)
    (U : Mat ℝ) (s : List ℝ) (W : Mat ℝ) : Except Err (Tensor ℝ × Tensor ℝ) := do
  let W' : Mat ℝ := if svRight then ⟨W.r, W.c, fun k j => s.getD k 0 * W.e k j⟩ else W
  let U' : Mat ℝ := if svRight then U else ⟨U.r, U.c, fun i k => U.e i k * s.getD k 0⟩
  let lt ← U'.toTensor.view (ls ++ [D])
  let rt ← W'.toTensor.view (D :: rs)
  let lt ← permuteOut (lp ++ [c]) l lt
  let rt ← permuteOut (c :: rp) r rt
  return (lt, rt)

/-- `svd_flex`, torchmps/utils.py:5-157. `torch.svd` is the parameter `svd` (its contract is
`Spec.IsSVD`); `maxD = 0` stands for both `None` and `0`. Simplifications: real entries; an exception leaves
`sv_vec` unspecified. -/
noncomputable def svdFlex (svd : Mat ℝ → SVD) (pop : List Char → Char) (t : Tensor ℝ) (svdString : List Char)
    (maxD : ℕ) (cutoff : ℝ) (svRight : Bool) (svVec : Option (Tensor ℝ)) : Except Err SvdOut := do
  let (ini, l, r) ← parseSvd svdString
  checkSvd ini l r
  let c ← bondChar pop l r
  let lp := l.filter (· ≠ c)
  let rp := r.filter (· ≠ c)
  let (A, ls, rs) ← svdMatrix t ini lp rp
  let d := svd A
  let (U, s, W) := resizeSvd maxD d.U (sortDesc d.s) d.V.transpose
  let sv ← writeSvVec svVec s
  let tr := truncLen cutoff s
  if tr = 0 then .error .runtime
  else do
    let D := if maxD ≠ 0 then maxD else tr
    let (U, s, W) := truncSvd maxD tr U s W
    let (lt, rt) ← svdOutputs svRight D ls rs l r lp rp c U s W
    return ⟨lt, rt, tr, sv⟩

end TorchMPS
