import Verif.Model.AutodiffProb
import Verif.Lemmas.AutodiffSeq
import Verif.Props.LogNorm
/-
Automatic differentiation of `get_log_norm`.
-/
namespace TorchMPS
open Spec
variable {K : Type} [RCLike K]

/-! ### Values: differentiation does not change them -/

/-- the values of an optional tensor -/
def primalOpt (t : Option (Tensor (DualNumber K))) : Option (Tensor K) := t.map primalT

theorem sumOver_fst (sz : Char → ℕ) (cs : List Char) (env : Env) (f : Env → DualNumber K) :
    (sumOver sz cs env f).fst = sumOver sz cs env (fun e => (f e).fst) := by
  induction cs generalizing env with
  | nil => rfl
  | cons c cs ih =>
    simp only [sumOver, TrivSqZeroExt.fst_sum]
    exact Finset.sum_congr rfl fun i _ => ih _

theorem fst_list_prod (l : List (DualNumber K)) : l.prod.fst = (l.map (·.fst)).prod := by
  induction l with
  | nil => rfl
  | cons a l ih => rw [List.prod_cons, TrivSqZeroExt.fst_mul, ih, List.map_cons, List.prod_cons]

theorem zip_map_primal {α : Type} (ins : List α) (ops : List (Tensor (DualNumber K))) :
    ins.zip (ops.map primalT) = (ins.zip ops).map (fun p => (p.1, primalT p.2)) := by
  rw [List.zip_map_right]
  rfl

theorem einsum_primal (ins : List (List Char)) (out : List Char) (ops : List (Tensor (DualNumber K))) :
    einsum ins out (ops.map primalT) = (einsum ins out ops).map primalT := by
  unfold einsum
  have hu : (ins.zip (ops.map primalT)).flatMap (fun p => p.1.zip p.2.shape) = (ins.zip ops).flatMap (fun p => p.1.zip p.2.shape) := by
    rw [zip_map_primal, List.flatMap_map]
    rfl
  have hz : (∀ p ∈ ins.zip (ops.map primalT), p.1.length = p.2.ndim) ↔ ∀ p ∈ ins.zip ops, p.1.length = p.2.ndim := by
    rw [zip_map_primal]
    simp only [List.forall_mem_map]
    exact Iff.rfl
  simp only [hu, hz, List.length_map]
  split
  · simp only [Except.map, primalT]
    congr 1
    congr 1
    funext idx
    rw [sumOver_fst]
    congr 1
    funext env
    rw [fst_list_prod, zip_map_primal, List.map_map, List.map_map]
    rfl
  · rfl

theorem primalT_conj (t : Tensor (DualNumber K)) : primalT (dualConjT t) = conjT (primalT t) := rfl

theorem dualTransferOp_primal (lamb : Option (Tensor (DualNumber K))) (dm ct : Tensor (DualNumber K)) :
    transferOp (primalOpt lamb) (primalT dm) (primalT ct) = (dualTransferOp lamb dm ct).map primalT := by
  cases lamb with
  | none => exact einsum_primal _ _ [ct, dm, dualConjT ct]
  | some lam =>
    unfold transferOp dualTransferOp primalOpt
    simp only [Option.map_some]
    have hs : (primalT lam).shape = lam.shape := rfl
    rw [hs]
    rcases h : lam.shape with _ | ⟨a, _ | ⟨b, l⟩⟩
    · simp only
      rw [show einsum ["ilr".toList, "lp".toList, "ipq".toList] "rq".toList [primalT ct, primalT dm, conjT (primalT ct)] = _ from
        einsum_primal _ _ [ct, dm, dualConjT ct]]
      cases einsum ["ilr".toList, "lp".toList, "ipq".toList] "rq".toList [ct, dm, dualConjT ct] with
      | error e => rfl
      | ok o => rfl
    · exact einsum_primal _ _ [lam, ct, dm, dualConjT ct]
    · exact einsum_primal _ _ [lam, ct, dm, dualConjT ct]

theorem dualRealify_primal (x : Option (DualNumber K)) :
    realify (x.map (·.fst)) = (dualRealify x).map (Option.map (fun r : DualNumber ℝ => r.fst)) := by
  cases x with
  | none =>
    simp only [Option.map_none, realify, dualRealify]
    split <;> rfl
  | some x =>
    simp only [Option.map_some, realify, dualRealify]
    split
    · split <;> rfl
    · rfl

theorem traceT_primal (t : Tensor (DualNumber K)) : traceT (primalT t) = (traceT t).fst := by
  unfold traceT
  have hs : (primalT t).shape = t.shape := rfl
  rw [hs]
  rcases t.shape with _ | ⟨a, _ | ⟨b, _ | ⟨c, l⟩⟩⟩
  · rfl
  · rfl
  · simp only [TrivSqZeroExt.fst_sum]
    rfl
  · rfl

theorem dualTrace_primal (t : Option (Tensor (DualNumber K))) :
    hermitianTrace (primalOpt t) = (dualTrace t).map (Option.map (fun r : DualNumber ℝ => r.fst)) := by
  cases t with
  | none => exact dualRealify_primal none
  | some t =>
    simp only [primalOpt, Option.map_some, hermitianTrace, dualTrace, traceT_primal]
    exact dualRealify_primal (some (traceT t))

/-- the values of a state of the loop of `get_log_norm` -/
def primalState (st : Option (Tensor (DualNumber K)) × Option (DualNumber ℝ)) : Option (Tensor K) × Option ℝ := (primalOpt st.1, st.2.map (·.fst))

theorem dualTransferStep_primal (lamb : Option (Tensor (DualNumber K))) (st : Option (Tensor (DualNumber K)) × Option (DualNumber ℝ)) (ct : Tensor (DualNumber K)) :
    transferStep (primalOpt lamb) (primalState st) (primalT ct) = (dualTransferStep lamb st ct).map primalState := by
  obtain ⟨_ | dm, l⟩ := st
  · have h := dualTrace_primal (K := K) none
    simp only [primalOpt, Option.map_none] at h
    simp only [primalState, primalOpt, Option.map_none, transferStep, dualTransferStep, h]
    cases dualTrace (none : Option (Tensor (DualNumber K))) <;> rfl
  · simp only [primalState, primalOpt, Option.map_some, transferStep, dualTransferStep]
    rw [show (Option.map primalT lamb) = primalOpt lamb from rfl, dualTransferOp_primal]
    cases hop : dualTransferOp lamb dm ct with
    | error e => rfl
    | ok dm' =>
      have h := dualTrace_primal (some dm')
      simp only [primalOpt, Option.map_some] at h
      simp only [Except.map, bind, Except.bind, h]
      cases dualTrace (some dm') with
      | error e => rfl
      | ok tr =>
        cases tr with
        | none => rfl
        | some tr =>
          simp only [Option.map_some]
          split
          · rfl
          · simp only [pure, Except.pure]
            congr 1
            congr 1
            split
            · cases l <;> rfl
            · rfl

theorem dualFold_primal (lamb : Option (Tensor (DualNumber K))) (cts : List (Tensor (DualNumber K))) (st : Option (Tensor (DualNumber K)) × Option (DualNumber ℝ)) :
    (cts.map primalT).foldlM (transferStep (primalOpt lamb)) (primalState st) = (cts.foldlM (dualTransferStep lamb) st).map primalState := by
  induction cts generalizing st with
  | nil => rfl
  | cons ct cts ih =>
    rw [List.map_cons, List.foldlM_cons, List.foldlM_cons, dualTransferStep_primal]
    cases dualTransferStep lamb st ct with
    | error e => rfl
    | ok st' => exact ih st'

theorem dualCorr_primal (bound : Tensor (DualNumber K)) (D : ℕ) (dm : Option (Tensor (DualNumber K))) :
    logNormCorr (primalT bound) D (primalOpt dm) = (dualCorr bound D dm).map (Option.map (fun r : DualNumber ℝ => r.fst)) := by
  cases dm with
  | none => exact dualRealify_primal none
  | some dm =>
    simp only [primalOpt, Option.map_some, logNormCorr, dualCorr]
    have hr : rightVec (primalT bound) D = primalT (dualRightVec bound D) := by
      unfold rightVec dualRightVec primalT
      congr 1
      funext idx
      rcases idx with _ | ⟨a, _ | ⟨b, l⟩⟩ <;> rfl
    rw [hr, show einsum ["r".toList, "rq".toList, "q".toList] [] [primalT (dualRightVec bound D), primalT dm, conjT (primalT (dualRightVec bound D))] = _ from
      einsum_primal _ _ [dualRightVec bound D, dm, dualConjT (dualRightVec bound D)]]
    cases einsum ["r".toList, "rq".toList, "q".toList] [] [dualRightVec bound D, dm, dualConjT (dualRightVec bound D)] with
    | error e => rfl
    | ok c => exact dualRealify_primal (some (c.get []))

theorem densMat_primal (bound : Tensor (DualNumber K)) (D : ℕ) : densMat (primalT bound) D = primalT (dualDensMat bound D) := by
  unfold densMat dualDensMat primalT
  congr 1
  funext idx
  rcases idx with _ | ⟨a, _ | ⟨b, _ | ⟨c, l⟩⟩⟩ <;> rfl

theorem unbind0_primal (t : Tensor (DualNumber K)) : unbind0 (primalT t) = (unbind0 t).map primalT := by
  unfold unbind0
  rw [List.map_map]
  rfl

theorem logNormCheck_primal (core bound : Tensor (DualNumber K)) (length : Option ℤ) (lamb : Option (Tensor (DualNumber K))) :
    logNormCheck (primalT core) (primalT bound) length (primalOpt lamb) = logNormCheck core bound length lamb := by
  have h : (∀ l ∈ primalOpt lamb, l.ndim ≤ 2) ↔ ∀ l ∈ lamb, l.ndim ≤ 2 := by
    cases lamb with
    | none => simp [primalOpt]
    | some l =>
      simp only [primalOpt, Option.map_some, Option.mem_def, Option.some.injEq, forall_eq']
      exact Iff.rfl
  have e : assert (∀ l ∈ primalOpt lamb, l.ndim ≤ 2) = assert (∀ l ∈ lamb, l.ndim ≤ 2) := by
    by_cases hh : ∀ l ∈ lamb, l.ndim ≤ 2
    · rw [assert_true _ hh, assert_true _ (h.2 hh)]
    · rw [assert_false _ hh, assert_false _ (fun x => hh (h.1 x))]
  unfold logNormCheck
  rw [e]
  rfl

/-- what the differentiated `get_log_norm` returns, and what the plain one does -/
def SameLogNorm (d : Except Err (Option (DualNumber ℝ))) (r : Except Err (Option EReal)) : Prop :=
  match d with
  | .error e => r = .error e
  | .ok (some L) => r = .ok (some ((L.fst : ℝ) : EReal))
  | .ok none => r = .ok none ∨ r = .ok (some ⊥)

theorem dualLogNorm_primal (core bound : Tensor (DualNumber K)) (length : Option ℤ) (lamb : Option (Tensor (DualNumber K))) :
    SameLogNorm (dualLogNorm core bound length lamb) (getLogNorm (primalT core) (primalT bound) length (primalOpt lamb)) := by
  unfold getLogNorm dualLogNorm
  rw [logNormCheck_primal]
  cases logNormCheck core bound length lamb with
  | error e => exact rfl
  | ok u =>
    have hn : (primalT core).ndim = core.ndim := rfl
    have hs : (primalT core).shape = core.shape := rfl
    have hc : (if core.ndim = 3 then List.replicate (length.getD 0).toNat (primalT core) else unbind0 (primalT core)) =
        (if core.ndim = 3 then List.replicate (length.getD 0).toNat core else unbind0 core).map primalT := by
      split
      · rw [List.map_replicate]
      · exact unbind0_primal core
    simp only [bind, Except.bind, hn, hs, hc]
    have := dualFold_primal lamb (if core.ndim = 3 then List.replicate (length.getD 0).toNat core else unbind0 core)
      (some (dualDensMat bound (core.shape.getD (core.ndim - 1) 0)), some 0)
    simp only [primalState, primalOpt, Option.map_some, ← densMat_primal] at this
    rw [show ((0 : DualNumber ℝ).fst) = 0 from rfl, show (Option.map primalT lamb) = primalOpt lamb from rfl] at this
    rw [this]
    cases (if core.ndim = 3 then List.replicate (length.getD 0).toNat core else unbind0 core).foldlM (dualTransferStep lamb)
      (some (dualDensMat bound (core.shape.getD (core.ndim - 1) 0)), some 0) with
    | error e => exact rfl
    | ok st =>
      simp only [Except.map]
      rw [show (primalState st).1 = primalOpt st.1 from rfl, show (primalState st).2 = st.2.map (·.fst) from rfl, dualCorr_primal]
      cases dualCorr bound (core.shape.getD (core.ndim - 1) 0) st.1 with
      | error e => exact rfl
      | ok corr =>
        simp only [Except.map, pure, Except.pure]
        obtain ⟨st1, st2⟩ := st
        cases corr with
        | none => exact Or.inl rfl
        | some c =>
          cases st2 with
          | none => exact Or.inl rfl
          | some l =>
            simp only [Option.map_some, addLog, dualFinalLog, bind, Option.bind, torchLog, pure]
            by_cases h0 : 0 < c.fst
            · rw [if_pos h0, if_pos h0]
              show Except.ok _ = Except.ok _
              simp only [← EReal.coe_add]
              rfl
            · rw [if_neg h0, if_neg h0]
              by_cases h1 : c.fst = 0
              · rw [if_pos h1]
                right
                show Except.ok (some (((l.fst : ℝ) : EReal) + ⊥)) = _
                rw [EReal.add_bot]
              · rw [if_neg h1]
                exact Or.inl rfl

end TorchMPS
