import Verif.Model.Autodiff
import Verif.Model.ProbMps
/-
Automatic differentiation of `ProbMPS.forward`: the code of `get_mat_slices`, `slim_eval_fun`, `get_log_norm` and `forward` on dual numbers (see
`Model/Autodiff.lean`). Indices are not differentiated.
-/
namespace TorchMPS
variable {K : Type}

/-- `.conj()` -/
noncomputable def dualConj [RCLike K] (a : DualNumber K) : DualNumber K := jet (star a.fst) (star a.snd)

/-- `.real` -/
noncomputable def dualRe [RCLike K] (a : DualNumber K) : DualNumber ℝ := jet (RCLike.re a.fst) (RCLike.re a.snd)

/-- `CIndex.__getitem__`, torchmps/utils2.py:214-219: linear over the reals -/
noncomputable def dualCindex [RCLike K] (a : DualNumber K) : DualNumber K := jet (cindex a.fst) (cindex a.snd)

/-- entrywise `.conj()` -/
noncomputable def dualConjT [RCLike K] (t : Tensor (DualNumber K)) : Tensor (DualNumber K) := ⟨t.shape, fun idx => dualConj (t.get idx)⟩

/-- `get_mat_slices`, torchmps/mps_base.py:337-381 -/
noncomputable def dualSlices [RCLike K] (x : SeqInput (DualNumber K)) (core : Tensor (DualNumber K)) : Except Err (Tensor (DualNumber K)) := do
  assert (x.shape.length = 2 ∨ x.shape.length = 3)                               -- :355
  assert (core.ndim = 3 ∨ core.ndim = 4)                                         -- :356
  match x, x.shape, core.shape with
  | .ints t, [B, T], [d, D, E] =>                                                -- :370-371
    if ∀ b < B, ∀ s < T, (resolveIdx d (t.get [b, s])).isSome then
      return ⟨[B, T, D, E], fun idx => match idx with
        | [b, s, i, j] => core.get [(resolveIdx d (t.get [b, s])).getD 0, i, j]
        | _ => 0⟩
    else .error .index
  | .ints t, [B, T], [n, d, D, E] =>                                             -- :372-374
    if ∀ b < B, ∀ s < T, s < n ∧ (resolveIdx d (t.get [b, s])).isSome then
      return ⟨[B, T, D, E], fun idx => match idx with
        | [b, s, i, j] => dualCindex (core.get [s, (resolveIdx d (t.get [b, s])).getD 0, i, j])
        | _ => 0⟩
    else .error .index
  | .floats t, [_, _, _], [_, _, _] =>                                           -- :376-377
    einsum ["bti".toList, "ide".toList] "btde".toList [t, core]
  | .floats t, [_, _, _], [_, _, _, _] =>                                        -- :378-379
    einsum ["bti".toList, "tide".toList] "btde".toList [t, core]
  | .floats _, [_, _], _ => .error .index
  | _, _, _ => .error .runtime

/-! ### `slim_eval_fun` -/

open Classical in
/-- one iteration of the loop of `slim_eval_fun`, torchmps/mps_base.py:103-110, over an arbitrary arithmetic -/
noncomputable def Arith.slimStep {S : Type} (ops : Arith K S) (D : ℕ) (st : Option (Mat K × S)) (m : Mat K) : Option (Mat K × S) :=
  match st with
  | none => none
  | some (v, l) =>
    let v := ops.mm v m                                                          -- :105
    let rescale := ops.scale (D : ℝ) v                                           -- :108
    if ops.isZero rescale then none                                              -- 0 / 0 = NaN
    else some (ops.div v rescale, ops.logAdd l [rescale])                        -- :109-110

/-- the slices used at step `s` by `slim_eval_fun`, torchmps/mps_base.py:90-98, and the size check of line 105 (see `slimSlice`) -/
noncomputable def dualSlimSlice (x : SeqInput (DualNumber K)) [RCLike K] (core : Tensor (DualNumber K)) (s : ℕ) : Except Err (Tensor (DualNumber K)) := do
  let coreS := siteCore core s
  let mats ← (match x, x.shape, coreS.shape with
    | .ints t, [B, _], [d, D, E] =>                                              -- core[inps]
      if ∀ b < B, (resolveIdx d (t.get [b, s])).isSome then
        .ok ⟨[B, D, E], fun idx => match idx with
          | [b, i, j] => coreS.get [(resolveIdx d (t.get [b, s])).getD 0, i, j]
          | _ => 0⟩
      else .error .index
    | .floats t, [B, _, d], _ =>
      einsum ["bi".toList, "ide".toList] "bde".toList [siteVecs t B d s, coreS]
    | .floats _, _, _ => .error .index
    | .ints _, _, _ => .error .runtime : Except Err (Tensor (DualNumber K)))
  if coreS.shape.getD 1 0 = coreS.shape.getD 2 0 then return mats else .error .runtime   -- :105

/-- the loop and the final contraction of `slim_eval_fun`, torchmps/mps_base.py:101-113, at batch element `b` -/
noncomputable def dualSlimValue [RCLike K] (dAbs : Mat (DualNumber K) → ℝ) (mats : List (Tensor (DualNumber K))) (bound : Tensor (DualNumber K)) (D b : ℕ) :
    Option (DualNumber K × DualNumber ℝ) :=
  ((mats.map (fun m => Mat.of D D (fun i j => m.get [b, i, j]))).foldl ((dualOps dAbs).slimStep D)
    (some (Mat.of 1 D (fun _ i => bound.get [0, i]), 0))).map
    (fun p => ((p.1.mul (Mat.of D 1 (fun i _ => bound.get [1, i]))).e 0 0, p.2))

/-- `slim_eval_fun`, torchmps/mps_base.py:45-115 -/
noncomputable def dualSlimEval [RCLike K] (dAbs : Mat (DualNumber K) → ℝ) (x : SeqInput (DualNumber K)) (core bound : Tensor (DualNumber K)) :
    Except Err (ContractOutOf (DualNumber K) (DualNumber ℝ)) := do
  if x.shape.length < 2 then throw .index                                        -- :68
  if core.ndim = 0 then throw .index                                             -- :73
  let B := x.shape.getD 0 0
  let T := x.shape.getD 1 0
  assert (bound.ndim = 2)                                                        -- :74
  assert (x.shape.length = 2 ∨ x.shape.length = 3)                               -- :75
  assert (core.ndim = 3 ∨ core.ndim = 4)                                         -- :76
  assert (bound.shape.getD 0 0 = 2)                                              -- :77
  let D := core.shape.getD (core.ndim - 1) 0
  assert (bound.shape.getD 1 0 = D)                                              -- :78
  if core.ndim ≠ 3 then assert (core.shape.getD 0 0 = T)                         -- :81-82
  if x.shape.length = 3 then
    assert (x.shape.getD 2 0 = core.shape.getD (core.ndim - 3) 0)                -- :83-84
  let mats ← (List.range T).mapM (dualSlimSlice x core)
  assert (0 < T ∨ B = 1)                                                         -- :114
  return ⟨⟨[B], fun idx => (dualSlimValue dAbs mats bound D (idx.getD 0 0)).map Prod.fst⟩,
    ⟨[B], fun idx => (dualSlimValue dAbs mats bound D (idx.getD 0 0)).map Prod.snd⟩⟩

/-! ### `get_log_norm` -/

open Classical in
/-- `realify`, torchmps/utils2.py:179-189, on a scalar tensor: the check looks at the values only -/
noncomputable def dualRealify [RCLike K] : Option (DualNumber K) → Except Err (Option (DualNumber ℝ))
  | none => if isComplex K then .error .assertion else .ok none
  | some x =>
    if isComplex K then
      if |RCLike.im x.fst| ≤ 1e-4 then .ok (some (dualRe x)) else .error .assertion
    else .ok (some (dualRe x))

/-- `hermitian_trace`, torchmps/utils2.py:168-176 -/
noncomputable def dualTrace [RCLike K] : Option (Tensor (DualNumber K)) → Except Err (Option (DualNumber ℝ))
  | none => dualRealify (none : Option (DualNumber K))
  | some t => dualRealify (some (traceT t))

/-- the transfer operator `t_op`, torchmps/mps_base.py:438-447 -/
noncomputable def dualTransferOp [RCLike K] (lamb : Option (Tensor (DualNumber K))) (dm ct : Tensor (DualNumber K)) : Except Err (Tensor (DualNumber K)) :=
  match lamb with
  | none => einsum ["ilr".toList, "lp".toList, "ipq".toList] "rq".toList [ct, dm, dualConjT ct]
  | some lam =>
    match lam.shape with
    | [] => do
      let o ← einsum ["ilr".toList, "lp".toList, "ipq".toList] "rq".toList [ct, dm, dualConjT ct]
      return ⟨o.shape, fun idx => lam.get [] * o.get idx⟩
    | [_] => einsum ["i".toList, "ilr".toList, "lp".toList, "ipq".toList] "rq".toList [lam, ct, dm, dualConjT ct]
    | _ => einsum ["ij".toList, "ilr".toList, "lp".toList, "jpq".toList] "rq".toList [lam, ct, dm, dualConjT ct]

/-- `l + torch.log(x)` for `x > 0` -/
noncomputable def dualAddLog (l x : DualNumber ℝ) : DualNumber ℝ := jet (l.fst + Real.log x.fst) (l.snd + x.snd / x.fst)

/-- `transfer_op` in the fixed-length case, torchmps/mps_base.py:450-458 (see `transferStep`) -/
noncomputable def dualTransferStep [RCLike K] (lamb : Option (Tensor (DualNumber K))) (st : Option (Tensor (DualNumber K)) × Option (DualNumber ℝ))
    (ct : Tensor (DualNumber K)) : Except Err (Option (Tensor (DualNumber K)) × Option (DualNumber ℝ)) :=
  match st with
  | (none, l) => do
    let _ ← dualTrace (none : Option (Tensor (DualNumber K)))
    return (none, l)
  | (some dm, l) => do
    let dm ← dualTransferOp lamb dm ct
    match ← dualTrace (some dm) with
    | none => return (none, none)
    | some tr =>
      if tr.fst = 0 then return (none, none)
      else return (some ⟨dm.shape, fun idx => dualDiv (dm.get idx) tr⟩, if 0 < tr.fst then l.map (dualAddLog · tr) else none)

/-- `left_vec[:, None] @ left_vec[None, :].conj()`, torchmps/mps_base.py:433 -/
noncomputable def dualDensMat [RCLike K] (bound : Tensor (DualNumber K)) (D : ℕ) : Tensor (DualNumber K) :=
  ⟨[D, D], fun idx => match idx with
    | [l, p] => bound.get [0, l] * dualConj (bound.get [0, p])
    | _ => 0⟩

/-- `r_vec`, torchmps/mps_base.py:432 -/
def dualRightVec [RCLike K] (bound : Tensor (DualNumber K)) (D : ℕ) : Tensor (DualNumber K) :=
  ⟨[D], fun idx => match idx with
    | [i] => bound.get [1, i]
    | _ => 0⟩

/-- the realified `correction`, torchmps/mps_base.py:471-472 -/
noncomputable def dualCorr [RCLike K] (bound : Tensor (DualNumber K)) (D : ℕ) : Option (Tensor (DualNumber K)) → Except Err (Option (DualNumber ℝ))
  | none => dualRealify (none : Option (DualNumber K))
  | some dm => do
    let c ← einsum ["r".toList, "rq".toList, "q".toList] [] [dualRightVec bound D, dm, dualConjT (dualRightVec bound D)]
    dualRealify (some (c.get []))

/-- `log_norm + torch.log(correction)`, torchmps/mps_base.py:472; `none` when it is not finite -/
noncomputable def dualFinalLog (corr l : Option (DualNumber ℝ)) : Option (DualNumber ℝ) := do
  let c ← corr
  let l ← l
  if 0 < c.fst then some (dualAddLog l c) else none

/-- `get_log_norm`, torchmps/mps_base.py:384-478 -/
noncomputable def dualLogNorm [RCLike K] (core bound : Tensor (DualNumber K)) (length : Option ℤ) (lamb : Option (Tensor (DualNumber K))) :
    Except Err (Option (DualNumber ℝ)) := do
  logNormCheck core bound length lamb
  let D := core.shape.getD (core.ndim - 1) 0
  let cores := if core.ndim = 3 then List.replicate (length.getD 0).toNat core else unbind0 core
  let st ← cores.foldlM (dualTransferStep lamb) (some (dualDensMat bound D), some (0 : DualNumber ℝ))   -- :468-469
  let corr ← dualCorr bound D st.1                                               -- :471
  return dualFinalLog corr st.2                                                  -- :472

/-! ### `forward` -/

/-- the (unnormalised) amplitudes, torchmps/prob_mps.py:174-193 and :402-421 -/
noncomputable def dualEvalPsi [RCLike K] (dAbs : Mat (DualNumber K) → ℝ) (m : ProbMPS (DualNumber K)) (x : SeqInput (DualNumber K)) (slimEval parallelEval : Bool) :
    Except Err (ContractOutOf (DualNumber K) (DualNumber ℝ)) := do
  if slimEval then
    if m.bias.isSome then throw .value                                           -- :175-176
    dualSlimEval dAbs x m.core m.edge                                            -- :177-179
  else
    let mats ← dualSlices x m.core                                               -- :182
    (dualOps dAbs).contractMatseq (.single (addBias mats m.bias)) (some (rowOf m.edge 0)) (some (rowOf m.edge 1))
      parallelEval                                                               -- :183-193

/-- `log_norm`, torchmps/prob_mps.py:232-255 and :435-460 -/
noncomputable def dualModelLogNorm [RCLike K] (m : ProbMPS (DualNumber K)) (dataLen : ℕ) : Except Err (Option (DualNumber ℝ)) := do
  let lamb ← (match m.embedding with
    | none => .ok none
    | some e => match e.lamb with
      | none => .error .attribute
      | some l => .ok (some l) : Except Err (Option (Tensor (DualNumber K))))    -- :253
  dualLogNorm (addBias m.core m.bias) m.edge (if m.uniform then some (dataLen : ℤ) else none) lamb

/-- `2 * (torch.log(torch.abs(psi)) + log_scale) - log_norm`, torchmps/prob_mps.py:201-204; `none` when it is not finite -/
noncomputable def dualLogProb [RCLike K] (psi : Option (DualNumber K)) (scale : Option (DualNumber ℝ)) (logNorm : DualNumber ℝ) : Option (DualNumber ℝ) :=
  open Classical in do
  let p ← psi
  let l ← scale
  if p.fst = 0 then none else some (2 * dualLogAbs l p - logNorm)

open Classical in
/-- the end of `forward`, torchmps/prob_mps.py:196-204 and :424-433 -/
noncomputable def dualFinish [RCLike K] (m : ProbMPS (DualNumber K)) (batch : ℕ) (out : ContractOutOf (DualNumber K) (DualNumber ℝ))
    (logNorm : Option (DualNumber ℝ)) : Except Err (Tensor (Option (DualNumber ℝ))) := do
  assert (logNorm.isSome)                                                        -- :197
  assert (∀ idx, InRange idx out.product.shape → (out.product.get idx).isSome)   -- :198
  if m.uniform then assert (out.product.shape = [batch])                         -- :430
  return ⟨out.product.shape, fun idx =>
    dualLogProb (out.product.get idx) (out.logScale.get idx) (logNorm.getD 0)⟩   -- :201-204

/-- `forward` on data which has already been embedded, torchmps/prob_mps.py:174-204 and :402-433: the log probabilities with their tangents -/
noncomputable def dualBody [RCLike K] (dAbs : Mat (DualNumber K) → ℝ) (m : ProbMPS (DualNumber K)) (x : SeqInput (DualNumber K)) (batch seqLen : ℕ)
    (slimEval parallelEval : Bool) : Except Err (Tensor (Option (DualNumber ℝ))) := do
  let out ← dualEvalPsi dAbs m x slimEval parallelEval
  let ln ← dualModelLogNorm m seqLen
  dualFinish m batch out ln

/-- `loss`, torchmps/prob_mps.py:206-230; `none` when it is not finite -/
noncomputable def dualLoss (out : Tensor (Option (DualNumber ℝ))) : Option (DualNumber ℝ) :=
  let n := out.shape.getD 0 0
  if n = 0 then none
  else ((List.range n).mapM (fun b => out.get [b])).map (fun l => -((1 / (n : ℝ)) • l.sum))

/-! ### Embeddings -/

open Classical in
/-- the compression of the lambda matrix, torchmps/embeddings.py:130-135: the comparisons look at the values only, and what is dropped loses its tangent -/
noncomputable def dualCompress [RCLike K] (t : Tensor (DualNumber K)) : Tensor (DualNumber K) :=
  let d := t.shape.getD 0 0
  let v : Tensor K := ⟨t.shape, fun idx => (t.get idx).fst⟩
  if ∀ i < d, ∀ j < d, closeTo (if i = j then v.get [i, i] else 0) (v.get [i, j]) then
    if ∀ i < d, closeTo (diagMean v d) (v.get [i, i]) then ⟨[], fun _ => (1 / (d : K)) • ∑ i ∈ Finset.range d, t.get [i, i]⟩
    else ⟨[d], fun idx => t.get [idx.getD 0 0, idx.getD 0 0]⟩
  else t

end TorchMPS
