import Verif.Model.MpsBase
/-
`mat_reduce_seq`, `mat_reduce_par` and `contract_matseq` of `torchmps/mps_base.py` over arbitrary (rounded) arithmetic: the same algorithms as in
`Model/MpsBase.lean`, with the matrix product, the rescaling factors, the division and the logarithms as parameters.
-/
namespace TorchMPS
variable {K : Type}

/-- The arithmetic of a number format. NaN arises only from a rescaling factor 0; there is no overflow. -/
structure Arith (K S : Type) where
  /-- `torch.matmul` of two matrices -/
  mm : Mat K → Mat K → Mat K
  /-- `m.abs().sum(dim=(-2, -1)) / t` -/
  scale : ℝ → Mat K → S
  /-- `m / s` -/
  div : Mat K → S → Mat K
  /-- `log_scale + torch.log(rescales).sum()` -/
  logAdd : S → List S → S
  /-- division by this scalar is division by zero -/
  isZero : S → Prop

/-- arithmetic with real scales and logarithms -/
abbrev FlOps (K : Type) := Arith K ℝ

/-- exact arithmetic -/
noncomputable def exactOps (K : Type) [RCLike K] : FlOps K where
  mm := Mat.mul
  scale t A := A.absSum / t
  div := Mat.divReal
  logAdd s rs := s + (rs.map Real.log).sum
  isZero s := s = 0

namespace Arith
variable {S : Type} (ops : Arith K S)

open Classical in
/-- one iteration of the loop of `mat_reduce_seq`, torchmps/mps_base.py:323-330 -/
noncomputable def seqStep (st : Option (Mat K × S)) (m : Mat K) : Option (Mat K × S) :=
  match st with
  | none => none
  | some (product, logScale) =>
    let product := ops.mm product m                                              -- :324
    let targetNorm := Real.sqrt ((product.r * product.c : ℕ) : ℝ)                -- :327
    let rescale := ops.scale targetNorm product                                  -- :328
    if ops.isZero rescale then none                                                     -- 0 / 0 = NaN
    else some (ops.div product rescale, ops.logAdd logScale [rescale])           -- :329-330

/-- `mat_reduce_seq`, torchmps/mps_base.py:302-334 -/
noncomputable def reduceSeq [Zero S] (m : Mat K) (ms : List (Mat K)) : Option (Mat K × S) :=
  let last := (m :: ms).getLast (by simp)
  if last.c < m.r then                                                           -- :316-318 (r2l)
    match (m :: ms).reverse.map Mat.transpose with
    | [] => none
    | m' :: ms' =>
      (ms'.foldl ops.seqStep (some (m', 0))).map (fun p => (p.1.transpose, p.2)) -- :321-333
  else ms.foldl ops.seqStep (some (m, 0))                                        -- :321-330

/-- the products of one iteration of `mat_reduce_par`, torchmps/mps_base.py:281-291 -/
def parPairs (ms : List (Mat K)) : List (Mat K) :=
  let halfN := ms.length / 2
  let floorN := halfN * 2
  let evens := everyOther (ms.take floorN)                                       -- :285
  let odds := everyOther ((ms.take floorN).drop 1)                               -- :286
  let leftover := ms.drop floorN                                                 -- :287
  List.zipWith ops.mm evens odds ++ leftover                                     -- :290-291

open Classical in
/-- one iteration of the loop of `mat_reduce_par`, torchmps/mps_base.py:280-297 -/
noncomputable def parStep (D : ℕ) (ms : List (Mat K)) (logScale : S) : Option (List (Mat K) × S) :=
  let ms' := ops.parPairs ms
  let rescales := ms'.map (ops.scale (D : ℝ))                                    -- :295
  if ∃ r ∈ rescales, ops.isZero r then none                                             -- 0 / 0 = NaN
  else some (ms'.map (fun m => ops.div m (ops.scale (D : ℝ) m)), ops.logAdd logScale rescales)  -- :296-297

theorem parPairs_length (ms : List (Mat K)) : (ops.parPairs ms).length = ms.length - ms.length / 2 := by
  simp only [parPairs, List.length_append, List.length_zipWith, everyOther_length, List.length_take, List.length_drop]
  omega

/-- the `while n_mats > 1` loop of `mat_reduce_par`, torchmps/mps_base.py:280-299 -/
noncomputable def parLoop (D : ℕ) (ms : List (Mat K)) (logScale : S) : Option (Mat K × S) :=
  if _h : 1 < ms.length then
    match _hs : ops.parStep D ms logScale with
    | none => none
    | some (ms', l') => parLoop D ms' l'
  else
    match ms with
    | m :: _ => some (m, logScale)
    | [] => none
termination_by ms.length
decreasing_by
  have hs := _hs
  simp only [parStep] at hs
  split at hs
  · exact absurd hs (by simp)
  · simp only [Option.some.injEq, Prod.mk.injEq] at hs
    rw [← hs.1, List.length_map, parPairs_length]
    omega

/-- `mat_reduce_par`, torchmps/mps_base.py:248-299, `D = matrices.shape[-1]`; the identity is exact. -/
noncomputable def reducePar [Zero S] [Semiring K] (D : ℕ) (ms : List (Mat K)) : Option (Mat K × S) :=
  match ms with
  | [] => some (Mat.eye D, 0)                                                    -- :270-273
  | [m] => some (m, 0)                                                           -- :274-275
  | _ => ops.parLoop D ms 0

/-- value at one batch element with parallel evaluation, torchmps/mps_base.py:205-213 -/
noncomputable def elemPar [Zero S] [Semiring K] (s : MatSeq K) (D : ℕ) (b : List ℕ) : Option (Mat K × S) :=
  match ops.reducePar D (s.mats.map (·.at b)) with                               -- :207
  | none => none
  | some (p, l) =>
    let p := match s.left with
      | some v => ops.mm (v.at b) p                                              -- :210-211
      | none => p
    let p := match s.right with
      | some v => ops.mm p (v.at b)                                              -- :212-213
      | none => p
    some (p, l)

/-- value at one batch element with sequential evaluation, torchmps/mps_base.py:215-232 -/
noncomputable def elemSeq [Zero S] [Zero K] (s : MatSeq K) (b : List ℕ) : Option (Mat K × S) :=
  match s.full.map (·.at b) with
  | [] => none
  | m :: ms => ops.reduceSeq m ms

/-- Evaluation of `contract_matseq` after broadcasting, torchmps/mps_base.py:205-240. -/
noncomputable def evalMatSeq [Zero S] [Semiring K] (s : MatSeq K) (parallelEval : Bool) (D : ℕ) : Except Err (ContractOutOf K S) :=
  let useParallel := s.sameShape && (parallelEval || (s.left.isNone && s.right.isNone))  -- :184
  if useParallel then
    match s.mats with
    | [] =>
      if (∀ l ∈ s.left, l.c = D) ∧ (∀ w ∈ s.right, w.r = D) then
        .ok (packOut s D D (ops.elemPar s D))
      else .error .runtime
    | m :: ms =>
      if ms ≠ [] ∧ m.r ≠ m.c then .error .assertion
      else if (∀ l ∈ s.left, l.c = m.r) ∧ (∀ w ∈ s.right, w.r = m.c) then
        .ok (packOut s m.r m.c (ops.elemPar s m.c))
      else .error .runtime
  else
    match s.full with
    | [] => .error .value
    | m :: ms =>
      if List.IsChain (fun a b => a.c = b.r) (m :: ms) then
        .ok (packOut s m.r ((m :: ms).getLast (by simp)).c (ops.elemSeq s))
      else .error .runtime

/-- `contract_matseq` with `log_format=True`, torchmps/mps_base.py:118-243. -/
noncomputable def contractMatseq [Zero S] [Semiring K] (ms : TensorSeq K) (lv rv : Option (Tensor K)) (parallelEval : Bool) : Except Err (ContractOutOf K S) := do
  match ← bundleTensors (-3) ms with
  | .single t =>
    if t.ndim < 3 then .error .index
    else
      let s ← broadcastSame t lv rv
      ops.evalMatSeq s parallelEval (t.shape.getD (t.ndim - 1) 0)
  | .seq ts =>
      let s ← broadcastSeq ts lv rv
      ops.evalMatSeq s parallelEval 0

end Arith

/-- the sum of a list, rounded after every addition -/
def flSum (rnd : ℝ → ℝ) (xs : List ℝ) : ℝ := xs.foldl (fun a x => rnd (a + x)) 0

/-- The arithmetic with a rounding function `rnd`, applied after every elementary operation; rescaling factors saturate at `e^-S` and `e^S`. -/
noncomputable def rndOps (rnd : ℝ → ℝ) (S : ℝ) : FlOps ℝ where
  mm A B := ⟨A.r, B.c, fun i j => flSum rnd ((List.range A.c).map (fun k => rnd (A.e i k * B.e k j)))⟩
  scale t A :=
    let x := rnd (flSum rnd ((List.range A.r).map (fun i => flSum rnd ((List.range A.c).map (fun j => |A.e i j|)))) / t)
    if x = 0 then 0 else max (Real.exp (-S)) (min (Real.exp S) x)
  div A s := ⟨A.r, A.c, fun i j => rnd (A.e i j / s)⟩
  logAdd s rs := rnd (s + flSum rnd (rs.map (fun r => rnd (Real.log r))))
  isZero s := s = 0

end TorchMPS
