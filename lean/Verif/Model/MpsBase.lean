import Verif.Base.Mat
import Verif.Base.Einsum
import Verif.Model.Utils2
import Mathlib.Data.EReal.Basic
import Mathlib.Analysis.Complex.Basic
import Mathlib.Analysis.SpecialFunctions.Complex.Log
/-
Model of `torchmps/mps_base.py` and of the complex helpers of `torchmps/utils2.py`.

Batched torch operations (`matmul`, `abs().sum`, `/`, `log`) act independently on the elements of a
batch: the reductions are written for one batch element, and the batch level functions apply them
at every batch index. A computation whose floating point result is NaN yields `none`.
-/
namespace TorchMPS
variable {K : Type}

/-! ### Complex helpers (utils2.py) -/

/-- `tensor.is_complex()`: the scalar field has an imaginary unit. -/
def isComplex (K : Type) [RCLike K] : Prop := (RCLike.I : K) ≠ 0

/-- `phaseify`, torchmps/utils2.py:161-165; `u` is the drawn `torch.rand_like(tensor)`. -/
noncomputable def phaseify (t : Tensor ℝ) (u : List ℕ → ℝ) : Tensor ℂ :=
  ⟨t.shape, fun idx => (t.get idx : ℂ) * Complex.exp (2 * Complex.I * Real.pi * (u idx : ℂ))⟩

open Classical in
/-- `realify`, torchmps/utils2.py:179-189, on a scalar tensor. `torch.allclose(imag, 0, atol=1e-4)` is
`|imag| ≤ 1e-4 + rtol * |0|`; it is false for NaN (`none`), which is returned unchanged for real dtypes. -/
noncomputable def realify [RCLike K] : Option K → Except Err (Option ℝ)
  | none => if isComplex K then .error .assertion else .ok none
  | some x =>
    if isComplex K then
      if |RCLike.im x| ≤ 1e-4 then .ok (some (RCLike.re x)) else .error .assertion
    else .ok (some (RCLike.re x))

/-- `realify`, torchmps/utils2.py:179-189, on a tensor (without NaN entries). -/
noncomputable def realifyTensor [RCLike K] (t : Tensor K) : Except Err (Tensor ℝ) :=
  open Classical in
  if isComplex K ∧ ¬ ∀ idx, InRange idx t.shape → |RCLike.im (t.get idx)| ≤ 1e-4 then
    .error .assertion
  else .ok ⟨t.shape, fun idx => RCLike.re (t.get idx)⟩

/-- `torch.trace` of a matrix given as a tensor of shape `[n, n']` -/
def traceT [Semiring K] (t : Tensor K) : K :=
  match t.shape with
  | [n, m] => ∑ i ∈ Finset.range (min n m), t.get [i, i]
  | _ => 0

/-- `hermitian_trace`, torchmps/utils2.py:168-176. -/
noncomputable def hermitianTrace [RCLike K] : Option (Tensor K) → Except Err (Option ℝ)
  | none => realify (none : Option K)
  | some t => realify (some (traceT t))

/-- `floor2`, torchmps/utils2.py:192-198, on one positive element (`torch.log` is the natural logarithm). -/
noncomputable def floor2 (x : ℝ) : ℝ := 2 ^ (⌊Real.log x⌋ : ℤ)

/-- `CIndex.__getitem__`, torchmps/utils2.py:214-219, for the value found at one index. -/
noncomputable def cindex [RCLike K] (x : K) : K :=
  open Classical in
  if isComplex K then (RCLike.re x : K) + RCLike.I * (RCLike.im x : K) else x

/-! ### Sequential inputs -/

/-- A `seq_input` tensor: integer tokens or floating point feature vectors. -/
inductive SeqInput (K : Type) where
  | ints (t : Tensor ℤ)
  | floats (t : Tensor K)

def SeqInput.shape : SeqInput K → Shape
  | .ints t => t.shape
  | .floats t => t.shape

/-- torch's resolution of one integer index into an axis of size `n` (negative counts from the end). -/
def resolveIdx (n : ℕ) (i : ℤ) : Option ℕ :=
  if 0 ≤ i ∧ i < n then some i.toNat
  else if -(n : ℤ) ≤ i ∧ i < 0 then some (i + n).toNat
  else none

/-- `get_mat_slices`, torchmps/mps_base.py:337-381. The result has shape `(batch, seq_len, D, E)`.
An integer tensor contracted by `einsum` with a float core is a dtype error (RuntimeError); a float
tensor used as index is an IndexError. -/
noncomputable def getMatSlices [RCLike K] (x : SeqInput K) (core : Tensor K) :
    Except Err (Tensor K) := do
  assert (x.shape.length = 2 ∨ x.shape.length = 3)                               -- :355
  assert (core.ndim = 3 ∨ core.ndim = 4)                                         -- :356
  match x, x.shape, core.shape with
  | .ints t, [B, T], [d, D, E] =>                                                -- :370-371
    if ∀ b < B, ∀ s < T, (resolveIdx d (t.get [b, s])).isSome then
      return ⟨[B, T, D, E], fun idx => match idx with
        | [b, s, i, j] => core.get [(resolveIdx d (t.get [b, s])).getD 0, i, j]
        | _ => 0⟩
    else .error .index
  | .ints t, [B, T], [n, d, D, E] =>                                             -- :372-374
    if ∀ b < B, ∀ s < T, s < n ∧ (resolveIdx d (t.get [b, s])).isSome then
      return ⟨[B, T, D, E], fun idx => match idx with
        | [b, s, i, j] => cindex (core.get [s, (resolveIdx d (t.get [b, s])).getD 0, i, j])
        | _ => 0⟩
    else .error .index
  | .floats t, [_, _, _], [_, _, _] =>                                           -- :376-377
    einsum ["bti".toList, "ide".toList] "btde".toList [t, core]
  | .floats t, [_, _, _], [_, _, _, _] =>                                        -- :378-379
    einsum ["bti".toList, "tide".toList] "btde".toList [t, core]
  | .floats _, [_, _], _ => .error .index
  | _, _, _ => .error .runtime

/-! ### Matrix reductions, on one batch element -/

/-- one iteration of the loop of `mat_reduce_seq`, torchmps/mps_base.py:323-330 -/
noncomputable def seqStep [RCLike K] (st : Option (Mat K × ℝ)) (m : Mat K) :
    Option (Mat K × ℝ) :=
  match st with
  | none => none
  | some (product, logScale) =>
    let product := product.mul m                                                 -- :324
    let targetNorm := Real.sqrt ((product.r * product.c : ℕ) : ℝ)                -- :327
    let rescale := product.absSum / targetNorm                                   -- :328
    if rescale = 0 then none                                                     -- 0 / 0 = NaN
    else some (product.divReal rescale, logScale + Real.log rescale)             -- :329-330

/-- `mat_reduce_seq`, torchmps/mps_base.py:302-334, on one batch element, for a non-empty list of
matrices `m :: ms` with compatible sizes. -/
noncomputable def matReduceSeq [RCLike K] (m : Mat K) (ms : List (Mat K)) : Option (Mat K × ℝ) :=
  let last := (m :: ms).getLast (by simp)
  if last.c < m.r then                                                           -- :316-318 (r2l)
    match (m :: ms).reverse.map Mat.transpose with
    | [] => none
    | m' :: ms' =>
      (ms'.foldl seqStep (some (m', 0))).map (fun p => (p.1.transpose, p.2))     -- :321-333
  else ms.foldl seqStep (some (m, 0))                                            -- :321-330

/-- the slice `l[0::2]` -/
def everyOther {α : Type} : List α → List α
  | [] => []
  | [a] => [a]
  | a :: _ :: l => a :: everyOther l

/-- the products of one iteration of `mat_reduce_par`, torchmps/mps_base.py:281-291 -/
def parPairs [Semiring K] (ms : List (Mat K)) : List (Mat K) :=
  let halfN := ms.length / 2
  let floorN := halfN * 2
  let evens := everyOther (ms.take floorN)                                       -- :285
  let odds := everyOther ((ms.take floorN).drop 1)                               -- :286
  let leftover := ms.drop floorN                                                 -- :287
  List.zipWith Mat.mul evens odds ++ leftover                                    -- :290-291

/-- one iteration of the loop of `mat_reduce_par`, torchmps/mps_base.py:280-297 -/
noncomputable def parStep [RCLike K] (D : ℕ) (ms : List (Mat K)) (logScale : ℝ) :
    Option (List (Mat K) × ℝ) :=
  let ms' := parPairs ms
  let rescales := ms'.map (fun m => m.absSum / (D : ℝ))                          -- :295
  if ∃ r ∈ rescales, r = 0 then none                                             -- 0 / 0 = NaN
  else some (ms'.map (fun m => m.divReal (m.absSum / (D : ℝ))),                  -- :297
    logScale + (rescales.map Real.log).sum)                                      -- :296

theorem everyOther_length {α : Type} : ∀ l : List α, (everyOther l).length = (l.length + 1) / 2
  | [] => by simp [everyOther]
  | [_] => by simp [everyOther]
  | _ :: _ :: l => by
    simp only [everyOther, List.length_cons, everyOther_length l]; omega

theorem parPairs_length [Semiring K] (ms : List (Mat K)) :
    (parPairs ms).length = ms.length - ms.length / 2 := by
  simp only [parPairs, List.length_append, List.length_zipWith, everyOther_length,
    List.length_take, List.length_drop]
  omega

/-- the `while n_mats > 1` loop of `mat_reduce_par`, torchmps/mps_base.py:280-299 -/
noncomputable def parLoop [RCLike K] (D : ℕ) (ms : List (Mat K)) (logScale : ℝ) :
    Option (Mat K × ℝ) :=
  if _h : 1 < ms.length then
    match _hs : parStep D ms logScale with
    | none => none
    | some (ms', l') => parLoop D ms' l'
  else
    match ms with
    | m :: _ => some (m, logScale)
    | [] => none
termination_by ms.length
decreasing_by
  have hs := _hs
  simp only [parStep] at hs
  split at hs
  · exact absurd hs (by simp)
  · simp only [Option.some.injEq, Prod.mk.injEq] at hs
    rw [← hs.1, List.length_map, parPairs_length]
    omega

/-- `mat_reduce_par`, torchmps/mps_base.py:248-299, on one batch element; `D = matrices.shape[-1]`. -/
noncomputable def matReducePar [RCLike K] (D : ℕ) (ms : List (Mat K)) : Option (Mat K × ℝ) :=
  match ms with
  | [] => some (Mat.eye D, 0)                                                    -- :270-273
  | [m] => some (m, 0)                                                           -- :274-275
  | _ => parLoop D ms 0

/-! ### `contract_matseq` -/

/-- The value computed for one batch element: the product and its log scale. -/
structure ContractOutOf (K S : Type) where
  product : Tensor (Option K)
  logScale : Tensor (Option S)

/-- the same with real log scales -/
abbrev ContractOut (K : Type) := ContractOutOf K ℝ

/-- What is left to contract once the batch dimensions have been broadcast: the common batch shape, the
matrices, and the boundary vectors as matrices with a dummy axis (`v[..., None, :]`, `v[..., None]`). -/
structure MatSeq (K : Type) where
  batch : Shape
  sameShape : Bool
  mats : List (BMat K)
  left : Option (BMat K)
  right : Option (BMat K)

/-- `v[..., None, :]` for a tensor of shape `batch ++ [d]` -/
def rowView (v : Tensor K) : BMat K := ⟨1, v.shape.getLastD 0, fun b _ j => v.get (b ++ [j])⟩

/-- `v[..., None]` for a tensor of shape `batch ++ [d]` -/
def colView (v : Tensor K) : BMat K := ⟨v.shape.getLastD 0, 1, fun b i _ => v.get (b ++ [i])⟩

/-- a tensor of shape `batch ++ [r, c]` -/
def matView (t : Tensor K) : BMat K :=
  ⟨t.shape.getD (t.ndim - 2) 0, t.shape.getD (t.ndim - 1) 0, fun b i j => t.get (b ++ [i, j])⟩

/-- `matrices[..., i, :, :]` for all `i`, of a tensor of shape `batch ++ [n, r, c]` -/
def matsView (t : Tensor K) : List (BMat K) :=
  (List.range (t.shape.getD (t.ndim - 3) 0)).map (fun k =>
    ⟨t.shape.getD (t.ndim - 2) 0, t.shape.getD (t.ndim - 1) 0,
      fun b i j => t.get (b ++ [k, i, j])⟩)

/-- The batch broadcasting of `contract_matseq`, torchmps/mps_base.py:186-203, for a single tensor of
matrices. -/
def broadcastSame (t : Tensor K) (lv rv : Option (Tensor K)) : Except Err (MatSeq K) :=
  match lv, rv with
  | none, none =>                                          -- nothing to broadcast
    .ok ⟨t.shape.take (t.ndim - 3), true, matsView t, none, none⟩
  | some v, none => do                                     -- :189-197
    match ← batchBroadcast [v, t] [1, 3] with
    | [v, t] => return ⟨t.shape.take (t.ndim - 3), true, matsView t, some (rowView v), none⟩
    | _ => .error .value
  | none, some v => do                                     -- :189-197
    match ← batchBroadcast [v, t] [1, 3] with
    | [v, t] => return ⟨t.shape.take (t.ndim - 3), true, matsView t, none, some (colView v)⟩
    | _ => .error .value
  | some v, some w => do                                   -- :198-200
    match ← batchBroadcast [v, w, t] [1, 1, 3] with
    | [v, w, t] =>
      return ⟨t.shape.take (t.ndim - 3), true, matsView t, some (rowView v), some (colView w)⟩
    | _ => .error .value

/-- The batch broadcasting of `contract_matseq`, torchmps/mps_base.py:186-203, for a sequence of
matrices of different shapes (or an empty one). -/
def broadcastSeq (ts : List (Tensor K)) (lv rv : Option (Tensor K)) : Except Err (MatSeq K) :=
  let two := List.replicate ts.length 2
  match lv, rv with
  | none, none => do                                       -- :187-188
    match ← batchBroadcast ts two with
    | t :: outs => return ⟨t.shape.take (t.ndim - 2), false, (t :: outs).map matView, none, none⟩
    | [] => return ⟨[], false, [], none, none⟩
  | some v, none => do                                     -- :189-197
    match ← batchBroadcast (v :: ts) (1 :: two) with
    | v :: outs =>
      return ⟨v.shape.take (v.ndim - 1), false, outs.map matView, some (rowView v), none⟩
    | _ => .error .value
  | none, some v => do                                     -- :189-197
    match ← batchBroadcast (v :: ts) (1 :: two) with
    | v :: outs =>
      return ⟨v.shape.take (v.ndim - 1), false, outs.map matView, none, some (colView v)⟩
    | _ => .error .value
  | some v, some w => do                                   -- :201-203
    match ← batchBroadcast (v :: w :: ts) (1 :: 1 :: two) with
    | v :: w :: outs =>
      return ⟨v.shape.take (v.ndim - 1), false, outs.map matView, some (rowView v), some (colView w)⟩
    | _ => .error .value

/-- the matrices with the boundary vectors prepended / appended, torchmps/mps_base.py:221-229 -/
def MatSeq.full (s : MatSeq K) : List (BMat K) := s.left.toList ++ s.mats ++ s.right.toList

/-- value at one batch element with parallel evaluation, torchmps/mps_base.py:205-213 -/
noncomputable def elemPar [RCLike K] (s : MatSeq K) (D : ℕ) (b : List ℕ) : Option (Mat K × ℝ) :=
  match matReducePar D (s.mats.map (·.at b)) with                                -- :207
  | none => none
  | some (p, l) =>
    let p := match s.left with
      | some v => (v.at b).mul p                                                 -- :210-211
      | none => p
    let p := match s.right with
      | some v => p.mul (v.at b)                                                 -- :212-213
      | none => p
    some (p, l)

/-- value at one batch element with sequential evaluation, torchmps/mps_base.py:215-232 -/
noncomputable def elemSeq [RCLike K] (s : MatSeq K) (b : List ℕ) : Option (Mat K × ℝ) :=
  match s.full.map (·.at b) with
  | [] => none
  | m :: ms => matReduceSeq m ms

/-- The output tensors, with the dummy axes squeezed away, torchmps/mps_base.py:234-240. `r` and `c` are
the sizes of the product matrix. -/
noncomputable def packOut {S : Type} (s : MatSeq K) (r c : ℕ)
    (val : List ℕ → Option (Mat K × S)) : ContractOutOf K S :=
  let nb := s.batch.length
  let rows := if s.left.isNone then [r] else []
  let cols := if s.right.isNone then [c] else []
  let row (idx : List ℕ) : ℕ := if s.left.isNone then idx.getD nb 0 else 0
  let col (idx : List ℕ) : ℕ :=
    if s.right.isNone then idx.getD (nb + rows.length) 0 else 0
  { product := ⟨s.batch ++ rows ++ cols,
      fun idx => (val (idx.take nb)).map (fun p => p.1.e (row idx) (col idx))⟩
    logScale := ⟨s.batch ++ rows.map (fun _ => 1) ++ cols.map (fun _ => 1),
      fun idx => (val (idx.take nb)).map (fun p => p.2)⟩ }

/-- Evaluation of `contract_matseq` after broadcasting, torchmps/mps_base.py:205-240. `D` is the size of the last
axis of the tensor of matrices (used for the identity when there are none). -/
noncomputable def evalMatSeq [RCLike K] (s : MatSeq K) (parallelEval : Bool) (D : ℕ) :
    Except Err (ContractOut K) :=
  let useParallel := s.sameShape && (parallelEval || (s.left.isNone && s.right.isNone))  -- :184
  if useParallel then
    -- :278 assert square; :209-213 matmul size checks (RuntimeError)
    match s.mats with
    | [] =>
      if (∀ l ∈ s.left, l.c = D) ∧ (∀ w ∈ s.right, w.r = D) then
        .ok (packOut s D D (elemPar s D))
      else .error .runtime
    | m :: ms =>
      if ms ≠ [] ∧ m.r ≠ m.c then .error .assertion
      else if (∀ l ∈ s.left, l.c = m.r) ∧ (∀ w ∈ s.right, w.r = m.c) then
        .ok (packOut s m.r m.c (elemPar s m.c))
      else .error .runtime
  else
    match s.full with
    | [] => .error .value                                                        -- :216-219
    | m :: ms =>
      if List.IsChain (fun a b => a.c = b.r) (m :: ms) then                      -- :324 matmul size checks
        .ok (packOut s m.r ((m :: ms).getLast (by simp)).c (elemSeq s))
      else .error .runtime

/-- `contract_matseq` with `log_format=True`, torchmps/mps_base.py:118-243. -/
noncomputable def contractMatseq [RCLike K] (ms : TensorSeq K) (lv rv : Option (Tensor K))
    (parallelEval : Bool) : Except Err (ContractOut K) := do
  match ← bundleTensors (-3) ms with                                             -- :177-180
  | .single t =>
    if t.ndim < 3 then .error .index                                             -- :181
    else
      let s ← broadcastSame t lv rv
      evalMatSeq s parallelEval (t.shape.getD (t.ndim - 1) 0)
  | .seq ts =>
      let s ← broadcastSeq ts lv rv
      evalMatSeq s parallelEval 0

/-- `contract_matseq` with `log_format=False`, torchmps/mps_base.py:244-245:
`product * torch.exp(log_scale)`. -/
noncomputable def contractMatseqVal [RCLike K] (ms : TensorSeq K) (lv rv : Option (Tensor K))
    (parallelEval : Bool) : Except Err (Tensor (Option K)) := do
  let o ← contractMatseq ms lv rv parallelEval
  return ⟨o.product.shape, fun idx =>
    (o.product.get idx).bind (fun p =>
      (o.logScale.get (Tensor.clampIdx o.logScale.shape idx)).map (fun l => p * (Real.exp l : K)))⟩

/-! ### `slim_eval_fun` -/

/-- one iteration of the loop of `slim_eval_fun`, torchmps/mps_base.py:103-110, on one batch element -/
noncomputable def slimStep [RCLike K] (D : ℕ) (st : Option (Mat K × ℝ)) (m : Mat K) :
    Option (Mat K × ℝ) :=
  match st with
  | none => none
  | some (v, l) =>
    let v := v.mul m                                                             -- :105
    let rescale := v.absSum / (D : ℝ)                                            -- :108
    if rescale = 0 then none                                                     -- 0 / 0 = NaN
    else some (v.divReal rescale, l + Real.log rescale)                          -- :109-110

/-- the core used at site `s` by `slim_eval_fun`, torchmps/mps_base.py:91-94: `all_cores = core_tensor` is iterated
over its first axis, `repeat(core_tensor)` gives the whole tensor at each step -/
def siteCore (core : Tensor K) (s : ℕ) : Tensor K :=
  match core.shape with
  | [_, d, D, E] => ⟨[d, D, E], fun idx => core.get (s :: idx)⟩
  | _ => core

/-- `seq_input.transpose(0, 1)[s]` for vector inputs of shape `[B, _, d]` -/
def siteVecs (t : Tensor K) (B d s : ℕ) : Tensor K :=
  ⟨[B, d], fun idx => t.get [idx.getD 0 0, s, idx.getD 1 0]⟩

/-- the slices used at step `s` by `slim_eval_fun`, torchmps/mps_base.py:90-98, and the size check of the
matrix product of line 105 (`vecs` has `D = core.shape[-1]` entries) -/
noncomputable def slimSlice [RCLike K] (x : SeqInput K) (core : Tensor K) (s : ℕ) :
    Except Err (Tensor K) := do
  let coreS := siteCore core s
  let mats ← (match x, x.shape, coreS.shape with
    | .ints t, [B, _], [d, D, E] =>                                              -- core[inps]
      if ∀ b < B, (resolveIdx d (t.get [b, s])).isSome then
        .ok ⟨[B, D, E], fun idx => match idx with
          | [b, i, j] => coreS.get [(resolveIdx d (t.get [b, s])).getD 0, i, j]
          | _ => 0⟩
      else .error .index
    | .floats t, [B, _, d], _ =>
      einsum ["bi".toList, "ide".toList] "bde".toList [siteVecs t B d s, coreS]
    | .floats _, _, _ => .error .index
    | .ints _, _, _ => .error .runtime : Except Err (Tensor K))
  if coreS.shape.getD 1 0 = coreS.shape.getD 2 0 then return mats else .error .runtime   -- :105

/-- the loop and the final contraction of `slim_eval_fun`, torchmps/mps_base.py:101-113, at batch element `b`,
for the slices `mats` of all steps -/
noncomputable def slimValue [RCLike K] (mats : List (Tensor K)) (bound : Tensor K) (D b : ℕ) :
    Option (K × ℝ) :=
  ((mats.map (fun m => Mat.of D D (fun i j => m.get [b, i, j]))).foldl (slimStep D)
    (some (Mat.of 1 D (fun _ i => bound.get [0, i]), 0))).map
    (fun p => ((p.1.mul (Mat.of D 1 (fun i _ => bound.get [1, i]))).e 0 0, p.2))

/-- `slim_eval_fun`, torchmps/mps_base.py:45-115. Both outputs have shape `(batch,)`. -/
noncomputable def slimEvalFun [RCLike K] (x : SeqInput K) (core bound : Tensor K) :
    Except Err (ContractOut K) := do
  if x.shape.length < 2 then throw .index                                        -- :68
  if core.ndim = 0 then throw .index                                             -- :73
  let B := x.shape.getD 0 0
  let T := x.shape.getD 1 0
  assert (bound.ndim = 2)                                                        -- :74
  assert (x.shape.length = 2 ∨ x.shape.length = 3)                               -- :75
  assert (core.ndim = 3 ∨ core.ndim = 4)                                         -- :76
  assert (bound.shape.getD 0 0 = 2)                                              -- :77
  let D := core.shape.getD (core.ndim - 1) 0
  assert (bound.shape.getD 1 0 = D)                                              -- :78
  if core.ndim ≠ 3 then assert (core.shape.getD 0 0 = T)                         -- :81-82
  if x.shape.length = 3 then
    assert (x.shape.getD 2 0 = core.shape.getD (core.ndim - 3) 0)                -- :83-84
  let mats ← (List.range T).mapM (slimSlice x core)
  -- :114; without any step `vecs` still has batch size 1
  assert (0 < T ∨ B = 1)
  return ⟨⟨[B], fun idx => (slimValue mats bound D (idx.getD 0 0)).map Prod.fst⟩,
    ⟨[B], fun idx => (slimValue mats bound D (idx.getD 0 0)).map Prod.snd⟩⟩

/-! ### `get_log_norm` -/

/-- `torch.log` of a real number: `-inf` at 0, NaN (`none`) for negative numbers -/
noncomputable def torchLog (x : ℝ) : Option EReal :=
  if 0 < x then some (Real.log x : ℝ) else if x = 0 then some ⊥ else none

/-- entrywise complex conjugate -/
noncomputable def conjT [RCLike K] (t : Tensor K) : Tensor K :=
  ⟨t.shape, fun idx => star (t.get idx)⟩

/-- The transfer operator `t_op`, torchmps/mps_base.py:438-447; `lamb_mat.ndim ≤ 2` is checked before. -/
noncomputable def transferOp [RCLike K] (lamb : Option (Tensor K)) (dm ct : Tensor K) :
    Except Err (Tensor K) :=
  match lamb with
  | none => einsum ["ilr".toList, "lp".toList, "ipq".toList] "rq".toList [ct, dm, conjT ct]
  | some lam =>
    match lam.shape with
    | [] => do
      let o ← einsum ["ilr".toList, "lp".toList, "ipq".toList] "rq".toList [ct, dm, conjT ct]
      return ⟨o.shape, fun idx => lam.get [] * o.get idx⟩
    | [_] => einsum ["i".toList, "ilr".toList, "lp".toList, "ipq".toList] "rq".toList
        [lam, ct, dm, conjT ct]
    | _ => einsum ["ij".toList, "ilr".toList, "lp".toList, "jpq".toList] "rq".toList
        [lam, ct, dm, conjT ct]

/-- `transfer_op` in the fixed-length case, torchmps/mps_base.py:450-458. State: the density matrix and the
log norm (`none` = NaN). A vanishing trace makes the density matrix `x / 0` and the log norm
`-inf`; the final result is then NaN (or an AssertionError of `realify` for complex dtypes), which is what
the `none` density matrix gives. A negative trace makes the log norm NaN. -/
noncomputable def transferStep [RCLike K] (lamb : Option (Tensor K))
    (st : Option (Tensor K) × Option ℝ) (ct : Tensor K) :
    Except Err (Option (Tensor K) × Option ℝ) :=
  match st with
  | (none, l) => do
    let _ ← hermitianTrace (none : Option (Tensor K))
    return (none, l)
  | (some dm, l) => do
    let dm ← transferOp lamb dm ct
    match ← hermitianTrace (some dm) with
    | none => return (none, none)
    | some tr =>
      if tr = 0 then return (none, none)
      else return (some ⟨dm.shape, fun idx => dm.get idx / (tr : K)⟩,
        if 0 < tr then l.map (· + Real.log tr) else none)

/-- iterating over the first axis of a tensor -/
def unbind0 (t : Tensor K) : List (Tensor K) :=
  (List.range (t.shape.headD 0)).map (fun s => ⟨t.shape.tail, fun idx => t.get (s :: idx)⟩)

/-- the argument checks of `get_log_norm`, torchmps/mps_base.py:421-432. Simplification: `boundary_vecs` is
required to have two axes (other ranks: IndexError). -/
noncomputable def logNormCheck (core bound : Tensor K) (length : Option ℤ) (lamb : Option (Tensor K)) :
    Except Err Unit := do
  assert (core.ndim = 3 ∨ core.ndim = 4)                                         -- :423
  if bound.ndim = 0 then throw .index
  assert (bound.shape.getD (bound.ndim - 1) 0 = core.shape.getD (core.ndim - 1) 0)  -- :424
  assert (core.ndim = 3 ∨ length = none ∨ length = some (core.shape.headD 0 : ℤ))  -- :425
  assert (∀ l ∈ lamb, l.ndim ≤ 2)                                                -- :426
  assert (¬ (core.ndim = 3 ∧ length = none))                                     -- :427
  if bound.ndim ≠ 2 then throw .index
  if bound.shape.getD 0 0 ≠ 2 then throw .value                                  -- :432
  if core.ndim = 3 ∧ length = some (-1) then throw .notImplemented               -- :428, :474

/-- `left_vec[:, None] @ left_vec[None, :].conj()`, torchmps/mps_base.py:433 -/
noncomputable def densMat [RCLike K] (bound : Tensor K) (D : ℕ) : Tensor K :=
  ⟨[D, D], fun idx => match idx with
    | [l, p] => bound.get [0, l] * star (bound.get [0, p])
    | _ => 0⟩

/-- `r_vec`, torchmps/mps_base.py:432 -/
def rightVec [RCLike K] (bound : Tensor K) (D : ℕ) : Tensor K :=
  ⟨[D], fun idx => match idx with
    | [i] => bound.get [1, i]
    | _ => 0⟩

/-- the realified `correction`, torchmps/mps_base.py:471-472 -/
noncomputable def logNormCorr [RCLike K] (bound : Tensor K) (D : ℕ) : Option (Tensor K) → Except Err (Option ℝ)
  | none => realify (none : Option K)
  | some dm => do
    let c ← einsum ["r".toList, "rq".toList, "q".toList] []
      [rightVec bound D, dm, conjT (rightVec bound D)]
    realify (some (c.get []))

/-- `log_norm + torch.log(correction)`, torchmps/mps_base.py:472 -/
noncomputable def addLog (corr l : Option ℝ) : Option EReal := do
  let c ← corr
  let l ← l
  let lc ← torchLog c
  return (l : EReal) + lc

/-- `get_log_norm`, torchmps/mps_base.py:384-478. -/
noncomputable def getLogNorm [RCLike K] (core bound : Tensor K) (length : Option ℤ)
    (lamb : Option (Tensor K)) : Except Err (Option EReal) := do
  logNormCheck core bound length lamb
  let D := core.shape.getD (core.ndim - 1) 0
  -- :435-436; `(core_tensor,) * length` is empty for negative `length`
  let cores := if core.ndim = 3 then List.replicate (length.getD 0).toNat core else unbind0 core
  let st ← cores.foldlM (transferStep lamb) (some (densMat bound D), some (0 : ℝ))   -- :468-469
  let corr ← logNormCorr bound D st.1                                            -- :471
  return addLog corr st.2                                                        -- :472

/-! ### Initialisers -/

/-- the shape check shared by `near_eye_init` and `normal_init`, torchmps/mps_base.py:503-514 and
:541-552 (the warning in the other branch is not modelled) -/
def initCheck (shape : Shape) : Except Err Unit := do
  assert (3 ≤ shape.length)
  if shape.getD (shape.length - 2) 0 ≠ shape.getD (shape.length - 1) 0 ∧
      (shape.take (shape.length - 3)).prod ≠ 1 then
    throw .value

/-- `torch.eye(r, c)` -/
def eyeT [Zero K] [One K] (r c : ℕ) : Tensor K := ⟨[r, c], fun idx => match idx with
    | [i, j] => if i = j then 1 else 0
    | _ => 0⟩

/-- `near_eye_init`, torchmps/mps_base.py:486-522. `z` is the drawn `torch.randn(shape)`, `u` the draw of
`phaseify`, `ref` the uninitialised `torch.empty` of `batch_to`. -/
noncomputable def nearEyeInit (shape : Shape) (isComplex : Bool) (noise : ℝ) (z u : List ℕ → ℝ)
    (ref : List ℕ → ℂ) : Except Err (Tensor ℂ) := do
  initCheck shape
  let r := shape.getD (shape.length - 2) 0
  let c := shape.getD (shape.length - 1) 0
  let eyeCore ← batchTo (eyeT r c : Tensor ℂ) (shape.take (shape.length - 2)) 2 ref
  let noise := noise / Real.sqrt ((r * c : ℕ) : ℝ)
  let delta : Tensor ℝ := ⟨shape, fun idx => noise * z idx⟩
  let deltaC : Tensor ℂ :=
    if isComplex then phaseify delta u else ⟨shape, fun idx => (delta.get idx : ℂ)⟩
  return ⟨shape, fun idx => eyeCore.get idx + deltaC.get idx⟩

/-- `normal_init`, torchmps/mps_base.py:525-559 (the argument `rel_std` is not used by the code). -/
noncomputable def normalInit (shape : Shape) (isComplex : Bool) (_relStd : ℝ) (z u : List ℕ → ℝ) :
    Except Err (Tensor ℂ) := do
  initCheck shape
  let std := 1 / (shape.getD (shape.length - 1) 0 : ℝ)
  let core : Tensor ℝ := ⟨shape, fun idx => std * z idx⟩
  return if isComplex then phaseify core u else ⟨shape, fun idx => (core.get idx : ℂ)⟩

end TorchMPS
