import Verif.Model.Rounded
import Verif.Model.AutodiffProb
import Verif.Model.ProbMps
/-
`slim_eval_fun`, `get_log_norm` of `torchmps/mps_base.py` and `forward` of `torchmps/prob_mps.py` over arbitrary (rounded) real arithmetic: the same
algorithms as in `Model/MpsBase.lean` and `Model/ProbMps.lean`, with the operations on numbers as parameters. Restricted to real parameters, index inputs, and models without embedding and bias
matrix (so that all slices are exact copies of parameters).
-/
namespace TorchMPS

/-- the operations of a number format used by a probabilistic MPS with real parameters -/
structure ProbArith where
  /-- those of `contract_matseq`, and division and logarithms -/
  base : FlOps ℝ
  /-- `left_vec[:, None] @ left_vec[None, :]` for a vector of `D` entries -/
  outer : ℕ → (ℕ → ℝ) → Mat ℝ
  /-- `einsum("ilr,lp,ipq->rq", ct, dm, ct)` -/
  transfer : Tensor ℝ → Mat ℝ → Mat ℝ
  /-- `torch.trace` -/
  trace : Mat ℝ → ℝ
  /-- `einsum("r,rq,q->", r_vec, dm, r_vec)` -/
  quad : (ℕ → ℝ) → Mat ℝ → ℝ
  /-- `2 * (torch.log(torch.abs(psi)) + log_scale) - log_norm` for `psi` not zero -/
  finish : ℝ → ℝ → ℝ → ℝ

/-- exact arithmetic -/
noncomputable def exactProbArith : ProbArith where
  base := exactOps ℝ
  outer D v := ⟨D, D, fun l p => v l * v p⟩
  transfer ct A := ⟨A.r, A.c, fun r q => ∑ i ∈ Finset.range (ct.shape.headD 0), ∑ l ∈ Finset.range A.r, ∑ p ∈ Finset.range A.c,
    ct.get [i, l, r] * A.e l p * ct.get [i, p, q]⟩
  trace A := ∑ i ∈ Finset.range A.r, A.e i i
  quad w A := ∑ r ∈ Finset.range A.r, ∑ q ∈ Finset.range A.c, w r * A.e r q * w q
  finish p l z := 2 * (Real.log |p| + l) - z

/-- a positive number saturated at `e^-S` and `e^S` -/
noncomputable def saturate (S x : ℝ) : ℝ := if 0 < x then max (Real.exp (-S)) (min (Real.exp S) x) else x

/-- The arithmetic with a rounding function `rnd`, applied after every elementary operation; rescaling factors saturate at `e^-S` and `e^S`. -/
noncomputable def rndProbArith (rnd : ℝ → ℝ) (S : ℝ) : ProbArith where
  base := rndOps rnd S
  outer D v := ⟨D, D, fun l p => rnd (v l * v p)⟩
  transfer ct A := ⟨A.r, A.c, fun r q => flSum rnd ((List.range (ct.shape.headD 0)).flatMap fun i => (List.range A.r).flatMap fun l => (List.range A.c).map fun p =>
    rnd (rnd (ct.get [i, l, r] * A.e l p) * ct.get [i, p, q]))⟩
  trace A := saturate S (flSum rnd ((List.range A.r).map fun i => A.e i i))
  quad w A := flSum rnd ((List.range A.r).flatMap fun r => (List.range A.c).map fun q => rnd (rnd (w r * A.e r q) * w q))
  finish p l z := rnd (rnd (2 * rnd (rnd (Real.log |p|) + l)) - z)

namespace ProbArith
variable (a : ProbArith)

/-- the loop and the final contraction of `slim_eval_fun`, torchmps/mps_base.py:101-113, at batch element `b` (see `slimValue`) -/
noncomputable def slimValue (mats : List (Tensor ℝ)) (bound : Tensor ℝ) (D b : ℕ) : Option (ℝ × ℝ) :=
  ((mats.map (fun m => Mat.of D D (fun i j => m.get [b, i, j]))).foldl (a.base.slimStep D)
    (some (Mat.of 1 D (fun _ i => bound.get [0, i]), 0))).map
    (fun p => ((a.base.mm p.1 (Mat.of D 1 (fun i _ => bound.get [1, i]))).e 0 0, p.2))

/-- `slim_eval_fun`, torchmps/mps_base.py:45-115 (see `slimEvalFun`) -/
noncomputable def slimEval (x : SeqInput ℝ) (core bound : Tensor ℝ) : Except Err (ContractOut ℝ) := do
  if x.shape.length < 2 then throw .index                                        -- :68
  if core.ndim = 0 then throw .index                                             -- :73
  let B := x.shape.getD 0 0
  let T := x.shape.getD 1 0
  assert (bound.ndim = 2)                                                        -- :74
  assert (x.shape.length = 2 ∨ x.shape.length = 3)                               -- :75
  assert (core.ndim = 3 ∨ core.ndim = 4)                                         -- :76
  assert (bound.shape.getD 0 0 = 2)                                              -- :77
  let D := core.shape.getD (core.ndim - 1) 0
  assert (bound.shape.getD 1 0 = D)                                              -- :78
  if core.ndim ≠ 3 then assert (core.shape.getD 0 0 = T)                         -- :81-82
  if x.shape.length = 3 then
    assert (x.shape.getD 2 0 = core.shape.getD (core.ndim - 3) 0)                -- :83-84
  let mats ← (List.range T).mapM (slimSlice x core)
  assert (0 < T ∨ B = 1)                                                         -- :114
  return ⟨⟨[B], fun idx => (a.slimValue mats bound D (idx.getD 0 0)).map Prod.fst⟩,
    ⟨[B], fun idx => (a.slimValue mats bound D (idx.getD 0 0)).map Prod.snd⟩⟩

open Classical in
/-- `transfer_op` in the fixed-length case, torchmps/mps_base.py:450-458; `none` when the log norm is not finite any more -/
noncomputable def transferStep (st : Option (Mat ℝ × ℝ)) (ct : Tensor ℝ) : Option (Mat ℝ × ℝ) :=
  match st with
  | none => none
  | some (dm, l) =>
    let dm := a.transfer ct dm                                                   -- :452
    let tr := a.trace dm                                                         -- :453
    if 0 < tr then some (a.base.div dm tr, a.base.logAdd l [tr])                 -- :454-455
    else none

open Classical in
/-- the final correction of `get_log_norm`, torchmps/mps_base.py:471-472; `none` when it is not finite -/
noncomputable def finalNorm (w : ℕ → ℝ) (st : Option (Mat ℝ × ℝ)) : Option ℝ :=
  match st with
  | none => none
  | some (dm, l) => if 0 < a.quad w dm then some (a.base.logAdd l [a.quad w dm]) else none

/-- `get_log_norm` without `lamb_mat`, torchmps/mps_base.py:384-478; `none` when the result is not finite. Simplification: the argument checks are those of `getLogNorm`, but shapes which `einsum` refuses are
not considered. -/
noncomputable def logNorm (core bound : Tensor ℝ) (length : Option ℤ) : Except Err (Option ℝ) := do
  logNormCheck core bound length none
  let D := core.shape.getD (core.ndim - 1) 0
  let cores := if core.ndim = 3 then List.replicate (length.getD 0).toNat core else unbind0 core   -- :435-436
  return a.finalNorm (fun i => bound.get [1, i])
    (cores.foldl a.transferStep (some (a.outer D (fun i => bound.get [0, i]), 0)))                 -- :433, :468-472

/-- the amplitudes, torchmps/prob_mps.py:174-193 and :402-421, without bias matrix -/
noncomputable def evalPsi (m : ProbMPS ℝ) (x : SeqInput ℝ) (slim par : Bool) : Except Err (ContractOut ℝ) := do
  if slim then a.slimEval x m.core m.edge                                        -- :177-179
  else
    let mats ← getMatSlices x m.core                                             -- :182
    a.base.contractMatseq (.single mats) (some (rowOf m.edge 0)) (some (rowOf m.edge 1)) par   -- :183-193

open Classical in
/-- `2 * (torch.log(torch.abs(psi)) + log_scale) - log_norm`, torchmps/prob_mps.py:201-204 -/
noncomputable def logProb (psi scale : Option ℝ) (z : ℝ) : Option EReal := do
  let p ← psi
  let l ← scale
  return if p = 0 then ⊥ else ((a.finish p l z : ℝ) : EReal)

open Classical in
/-- `forward` of a model without embedding and bias matrix on index inputs, torchmps/prob_mps.py:148-204 and :374-433 -/
noncomputable def forward (m : ProbMPS ℝ) (t : Tensor ℤ) (slim par : Bool) : Except Err (Tensor (Option EReal)) := do
  if m.uniform = true ∧ t.shape.length < 2 then throw .value                     -- :396
  let out ← a.evalPsi m (.ints t) slim par                                       -- :174-193
  let ln ← a.logNorm m.core m.edge (if m.uniform then some ((t.shape.getD 1 0 : ℕ) : ℤ) else none)   -- :196
  assert (ln.isSome)                                                             -- :197
  assert (∀ idx, InRange idx out.product.shape → (out.product.get idx).isSome)   -- :198
  if m.uniform then assert (out.product.shape = [t.shape.getD 0 0])              -- :430
  return ⟨out.product.shape, fun idx => a.logProb (out.product.get idx) (out.logScale.get idx) (ln.getD 0)⟩   -- :201-204

end ProbArith
end TorchMPS
