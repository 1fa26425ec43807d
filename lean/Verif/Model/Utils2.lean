import Verif.Base.Tensor
/-
Model of `torchmps/utils2.py` (shape and batch handling).
-/
namespace TorchMPS
variable {K : Type}

/-- `shape_broadcast`, torchmps/utils2.py:154-157 : one axis of the inner loop. `x` is the size
in the shape being merged, `o` the current `out[i]`. -/
def mergeAxis (x o : ℕ) : Except Err ℕ :=
  if x ≠ 1 ∧ x ≠ o then
    if o ≠ 1 then .error .value else .ok x
  else .ok o

/-- `shape_broadcast`, torchmps/utils2.py:153-157 : the loop
`for i, x in enumerate(shp, -len(shp))`. Both lists are given from the right (last axis first),
which is what the negative indices `out[i]` do. The Python loop visits the axes from left
to right; only one exception class can be raised, so the order is not observable.
`out` is never shorter than `shp` (it starts as the longest shape), the last case
would be Python's IndexError. -/
def mergeRev : List ℕ → List ℕ → Except Err (List ℕ)
  | [], out => .ok out
  | x :: xs, o :: os => do
      let o' ← mergeAxis x o
      let os' ← mergeRev xs os
      return o' :: os'
  | _ :: _, [] => .error .index

/-- `max(shape_list, key=len)`, torchmps/utils2.py:148: position and value of the first longest
shape. -/
def firstLongest : List Shape → Option (ℕ × Shape)
  | [] => none
  | s :: ss =>
    match firstLongest ss with
    | none => some (0, s)
    | some (i, m) => if s.length < m.length then some (i + 1, m) else some (0, s)

/-- The outer loop of `shape_broadcast`, torchmps/utils2.py:150-157, over the shapes with their
positions; `skip` is the position of `max_shp` (`if shp is max_shp: continue`). `out` is
kept reversed. Simplification: object identity is modelled as equality of positions (skipping
further aliases of the same object would not change the result). -/
def broadcastLoop (skip : ℕ) : ℕ → List Shape → List ℕ → Except Err (List ℕ)
  | _, [], out => .ok out
  | i, s :: ss, out =>
    if i = skip then broadcastLoop skip (i + 1) ss out
    else do
      let out' ← mergeRev s.reverse out
      broadcastLoop skip (i + 1) ss out'

/-- `shape_broadcast`, torchmps/utils2.py:134-158. `max` of an empty list raises ValueError. -/
def shapeBroadcast (shapes : List Shape) : Except Err Shape :=
  match firstLongest shapes with
  | none => .error .value
  | some (i, m) => do
      let out ← broadcastLoop i 0 shapes m.reverse
      return out.reverse

/-- `safe_expand`, torchmps/utils2.py:122-123. -/
def safeExpand (t : Tensor K) (shp : Shape) : Except Err (Tensor K) :=
  if shp.length = 0 then .ok t else t.expand shp

/-- `batch_broadcast`, torchmps/utils2.py:79-131. `nnb` are the numbers of non-batch axes, natural
numbers here, so the assertion of line 104 cannot fail. -/
def batchBroadcast (ts : List (Tensor K)) (nnb : List ℕ) : Except Err (List (Tensor K)) := do
  assert (ts.length = nnb.length)                                                  -- :103
  assert (∀ p ∈ ts.zip nnb, p.2 ≤ p.1.ndim)                                        -- :105
  if ts.length < 2 then return ts                                                  -- :108-109
  let bShapes := List.zipWith (fun t k => t.shape.take (t.ndim - k)) ts nnb        -- :112
  -- :113-119 (the ValueError of shape_broadcast is re-raised as a ValueError)
  let fullBatch ← shapeBroadcast bShapes
  let bdims := fullBatch.length
  let ts' := List.zipWith (fun t k => t.unsqueezeFront (bdims + k - t.ndim)) ts nnb -- :125-127
  let shapes := ts'.map (fun t => fullBatch ++ t.shape.drop bdims)                  -- :128
  (ts'.zip shapes).mapM (fun p => safeExpand p.1 p.2)                               -- :129

/-- `batch_to`, torchmps/utils2.py:58-76. The entries of the reference tensor (`torch.empty`) are
arbitrary: `ref`. -/
def batchTo (t : Tensor K) (batchShape : Shape) (numNonbatch : ℕ) (ref : List ℕ → K) :
    Except Err (Tensor K) := do
  let outs ← batchBroadcast [t, ⟨batchShape, ref⟩] [numNonbatch, 0]
  match outs with
  | [out, _] => return out
  | _ => .error .value      -- Python: wrong number of values to unpack (cannot happen)

/-- A `TensorSeq`: one tensor or a sequence of tensors (torchmps/utils2.py:30). -/
inductive TensorSeq (K : Type) where
  | single (t : Tensor K)
  | seq (ts : List (Tensor K))

/-- How torch resolves the argument `dim` of `torch.stack` on tensors of rank `r`: the result has rank
`r + 1`, negative values count from its end, values outside `[-(r+1), r]` raise IndexError. -/
def stackPos (r : ℕ) (dim : ℤ) : Except Err ℕ :=
  if -(r + 1 : ℤ) ≤ dim ∧ dim ≤ r then
    .ok (if 0 ≤ dim then dim.toNat else (dim + (r + 1)).toNat)
  else .error .index

/-- `bundle_tensors`, torchmps/utils2.py:33-55. `len(set(t.shape for t in tensors)) > 1` means that
some two shapes differ, i.e. some shape differs from the first one. -/
def bundleTensors (dim : ℤ) : TensorSeq K → Except Err (TensorSeq K)
  | .single t => .ok (.single t)
  | .seq [] => .ok (.seq [])
  | .seq (t :: ts) =>
    if ∃ s ∈ ts, s.shape ≠ t.shape then .ok (.seq (t :: ts))
    else do
      let pos ← stackPos t.ndim dim
      return .single (t.stack ts pos)

end TorchMPS
