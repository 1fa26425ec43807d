import Verif.Lemmas.AutodiffNorm
/-
The derivative of `get_log_norm`.
-/
namespace TorchMPS
open Spec
variable {K : Type} [RCLike K]

theorem except_bind_inv {α β : Type} {x : Except Err α} {f : α → Except Err β} {b : β} (h : (x >>= f) = .ok b) : ∃ a, x = .ok a ∧ f a = .ok b := by
  cases x with
  | error e => cases h
  | ok a => exact ⟨a, rfl, h⟩

/-! ### The unnormalised transfer -/

/-- the entry `(i, j)` of the lambda matrix denoted by the three formats -/
def lambEntry {R : Type} [Zero R] [One R] (lamb : Option (Tensor R)) (i j : ℕ) : R :=
  match lamb with
  | none => if i = j then 1 else 0
  | some t =>
    match t.shape with
    | [] => if i = j then t.get [] else 0
    | [_] => if i = j then t.get [i] else 0
    | _ => t.get [i, j]

/-- the three formats -/
def LambShape {R : Type} (lamb : Option (Tensor R)) (d : ℕ) : Prop := ∀ t ∈ lamb, t.shape = [] ∨ t.shape = [d] ∨ t.shape = [d, d]

/-- one application of the transfer operator, without normalisation -/
def transferSum {R : Type} [CommSemiring R] (σ : R → R) (Λ : ℕ → ℕ → R) (d D : ℕ) (ct : Tensor R) (M : ℕ → ℕ → R) (r q : ℕ) : R :=
  ∑ i ∈ Finset.range d, ∑ j ∈ Finset.range d, ∑ l ∈ Finset.range D, ∑ p ∈ Finset.range D, Λ i j * (ct.get [i, l, r] * (M l p * σ (ct.get [j, p, q])))

/-- the transfer operators of all sites, without normalisation -/
def transferIter {R : Type} [CommSemiring R] (σ : R → R) (Λ : ℕ → ℕ → R) (d D : ℕ) : List (Tensor R) → (ℕ → ℕ → R) → ℕ → ℕ → R
  | [], M => M
  | ct :: cts, M => transferIter σ Λ d D cts (transferSum σ Λ d D ct M)

/-- the final contraction with the right boundary vector -/
def transferFinal {R : Type} [CommSemiring R] (σ : R → R) (D : ℕ) (r : ℕ → R) (M : ℕ → ℕ → R) : R :=
  ∑ i ∈ Finset.range D, ∑ j ∈ Finset.range D, r i * (M i j * σ (r j))

theorem transferSum_congr {R : Type} [CommSemiring R] (σ : R → R) (Λ : ℕ → ℕ → R) (d D : ℕ) (ct : Tensor R) (M M' : ℕ → ℕ → R)
    (h : ∀ r < D, ∀ q < D, M r q = M' r q) (r q : ℕ) : transferSum σ Λ d D ct M r q = transferSum σ Λ d D ct M' r q := by
  unfold transferSum
  refine Finset.sum_congr rfl fun i _ => Finset.sum_congr rfl fun j _ => Finset.sum_congr rfl fun l hl => Finset.sum_congr rfl fun p hp => ?_
  rw [h l (Finset.mem_range.1 hl) p (Finset.mem_range.1 hp)]

theorem transferIter_congr {R : Type} [CommSemiring R] (σ : R → R) (Λ : ℕ → ℕ → R) (d D : ℕ) (cts : List (Tensor R)) : ∀ (M M' : ℕ → ℕ → R),
    (∀ r < D, ∀ q < D, M r q = M' r q) → ∀ r < D, ∀ q < D, transferIter σ Λ d D cts M r q = transferIter σ Λ d D cts M' r q := by
  induction cts with
  | nil => intro M M' h; exact h
  | cons ct cts ih => intro M M' h; exact ih _ _ (fun r _ q _ => transferSum_congr σ Λ d D ct M M' h r q)

theorem transferSum_smul {R : Type} [CommSemiring R] (σ : R → R) (Λ : ℕ → ℕ → R) (d D : ℕ) (ct : Tensor R) (c : R) (M : ℕ → ℕ → R) (r q : ℕ) :
    transferSum σ Λ d D ct (fun r q => c * M r q) r q = c * transferSum σ Λ d D ct M r q := by
  unfold transferSum
  simp only [Finset.mul_sum]
  refine Finset.sum_congr rfl fun i _ => Finset.sum_congr rfl fun j _ => Finset.sum_congr rfl fun l _ => Finset.sum_congr rfl fun p _ => ?_
  ring

/-! ### The dual run -/

theorem dualTransferOp_spec (lamb : Option (Tensor (DualNumber K))) (d D : ℕ) (dm ct : Tensor (DualNumber K)) (hL : LambShape lamb d) (hdm : dm.shape = [D, D])
    (hct : ct.shape = [d, D, D]) : ∃ o, dualTransferOp lamb dm ct = .ok o ∧ o.shape = [D, D] ∧
      ∀ r < D, ∀ q < D, o.get [r, q] = transferSum dualConj (lambEntry lamb) d D ct (fun l p => dm.get [l, p]) r q := by
  unfold transferSum
  cases lamb with
  | none =>
    obtain ⟨o, h1, h2, h3⟩ := einsum_transfer ct dm (dualConjT ct) d D D D D hct hdm hct
    refine ⟨o, h1, h2, ?_⟩
    intro r hr q hq
    rw [h3 r hr q hq, Finset.sum_comm, sum_diag]
    · refine Finset.sum_congr rfl fun i hi => ?_
      simp only [lambEntry, if_pos, one_mul, dualConjT]
    · intro i hi j hj hne
      simp only [lambEntry, if_neg hne, zero_mul, Finset.sum_const_zero]
  | some lam =>
    rcases hL lam rfl with hs | hs | hs
    · obtain ⟨o, h1, h2, h3⟩ := einsum_transfer ct dm (dualConjT ct) d D D D D hct hdm hct
      refine ⟨⟨o.shape, fun idx => lam.get [] * o.get idx⟩, ?_, h2, ?_⟩
      · simp only [dualTransferOp, hs, h1]; rfl
      · intro r hr q hq
        simp only
        rw [h3 r hr q hq, Finset.sum_comm, sum_diag, Finset.mul_sum]
        · refine Finset.sum_congr rfl fun i hi => ?_
          simp only [lambEntry, hs, if_pos, dualConjT, Finset.mul_sum]
        · intro i hi j hj hne
          simp only [lambEntry, hs, if_neg hne, zero_mul, Finset.sum_const_zero]
    · obtain ⟨o, h1, h2, h3⟩ := einsum_transfer_diag lam ct dm (dualConjT ct) d D D D D hs hct hdm hct
      refine ⟨o, ?_, h2, ?_⟩
      · simp only [dualTransferOp, hs, h1]
      · intro r hr q hq
        rw [h3 r hr q hq, Finset.sum_comm, sum_diag]
        · refine Finset.sum_congr rfl fun i hi => ?_
          simp only [lambEntry, hs, if_pos, dualConjT]
        · intro i hi j hj hne
          simp only [lambEntry, hs, if_neg hne, zero_mul, Finset.sum_const_zero]
    · obtain ⟨o, h1, h2, h3⟩ := einsum_transfer_mat lam ct dm (dualConjT ct) d D D D D hs hct hdm hct
      refine ⟨o, ?_, h2, ?_⟩
      · simp only [dualTransferOp, hs, h1]
      · intro r hr q hq
        rw [h3 r hr q hq]
        refine Finset.sum_congr rfl fun i hi => ?_
        rw [Finset.sum_comm]
        refine Finset.sum_congr rfl fun j hj => ?_
        simp only [lambEntry, hs, dualConjT]

theorem dualExp_div (l tr : DualNumber ℝ) (x : DualNumber K) (h : 0 < tr.fst) : dualExp (dualAddLog l tr) * dualDiv x tr = dualExp l * x := by
  have e : (Real.exp (l.fst + Real.log tr.fst) : ℝ) = Real.exp l.fst * tr.fst := by rw [Real.exp_add, Real.exp_log h]
  have h' : (tr.fst : K) ≠ 0 := by exact_mod_cast h.ne'
  refine dual_ext ?_ ?_
  · rw [TrivSqZeroExt.fst_mul, TrivSqZeroExt.fst_mul]
    show ((Real.exp (l.fst + Real.log tr.fst) : ℝ) : K) * (x.fst / (tr.fst : K)) = ((Real.exp l.fst : ℝ) : K) * x.fst
    rw [e]
    push_cast
    field_simp
  · rw [DualNumber.snd_mul, DualNumber.snd_mul]
    show ((Real.exp (l.fst + Real.log tr.fst) : ℝ) : K) * (x.snd / (tr.fst : K) - x.fst * (tr.snd : K) / ((tr.fst : K) * (tr.fst : K))) +
      ((Real.exp (l.fst + Real.log tr.fst) * (l.snd + tr.snd / tr.fst) : ℝ) : K) * (x.fst / (tr.fst : K)) =
      ((Real.exp l.fst : ℝ) : K) * x.snd + ((Real.exp l.fst * l.snd : ℝ) : K) * x.fst
    rw [e]
    push_cast
    field_simp
    ring

theorem dualFold_stuck (lamb : Option (Tensor (DualNumber K))) (cts : List (Tensor (DualNumber K))) :
    ∀ st st', (st.1 = none ∨ st.2 = none) → cts.foldlM (dualTransferStep lamb) st = .ok st' → st'.1 = none ∨ st'.2 = none := by
  induction cts with
  | nil =>
    intro st st' h e
    have : st = st' := Except.ok.inj e
    exact this ▸ h
  | cons ct cts ih =>
    intro st st' h e
    rw [List.foldlM_cons] at e
    obtain ⟨st1, e1, e2⟩ := except_bind_inv e
    refine ih st1 st' ?_ e2
    obtain ⟨dm, l⟩ := st
    cases dm with
    | none =>
      simp only [dualTransferStep] at e1
      obtain ⟨_, -, e1⟩ := except_bind_inv e1
      have : st1 = (none, l) := (Except.ok.inj e1).symm
      exact Or.inl (by rw [this])
    | some dm =>
      simp only [reduceCtorEq, false_or] at h
      subst h
      simp only [dualTransferStep] at e1
      obtain ⟨dm', -, e1⟩ := except_bind_inv e1
      obtain ⟨tr, -, e1⟩ := except_bind_inv e1
      cases tr with
      | none => exact Or.inl (by rw [← Except.ok.inj e1])
      | some tr =>
        simp only at e1
        split at e1
        · exact Or.inl (by rw [← Except.ok.inj e1])
        · right
          rw [← Except.ok.inj e1]
          simp

theorem dualFold_exact (lamb : Option (Tensor (DualNumber K))) (d D : ℕ) (hL : LambShape lamb d) (cts : List (Tensor (DualNumber K))) :
    ∀ (dm : Tensor (DualNumber K)) (l : DualNumber ℝ) (dm' : Tensor (DualNumber K)) (l' : DualNumber ℝ), (∀ ct ∈ cts, ct.shape = [d, D, D]) → dm.shape = [D, D] →
      cts.foldlM (dualTransferStep lamb) (some dm, some l) = .ok (some dm', some l') →
      dm'.shape = [D, D] ∧ ∀ r < D, ∀ q < D, dualExp l' * dm'.get [r, q] =
        transferIter dualConj (lambEntry lamb) d D cts (fun r q => dualExp l * dm.get [r, q]) r q := by
  induction cts with
  | nil =>
    intro dm l dm' l' _ hdm e
    have e : (some dm, some l) = (some dm', some l') := Except.ok.inj e
    simp only [Prod.mk.injEq, Option.some.injEq] at e
    obtain ⟨rfl, rfl⟩ := e
    exact ⟨hdm, fun r _ q _ => rfl⟩
  | cons ct cts ih =>
    intro dm l dm' l' hct hdm e
    rw [List.foldlM_cons] at e
    obtain ⟨⟨dm1, l1⟩, e1, e2⟩ := except_bind_inv e
    cases dm1 with
    | none => rcases dualFold_stuck lamb cts _ _ (Or.inl rfl) e2 with h | h <;> simp at h
    | some dm1 =>
      cases l1 with
      | none => rcases dualFold_stuck lamb cts _ _ (Or.inr rfl) e2 with h | h <;> simp at h
      | some l1 =>
        obtain ⟨o, ho, hos, hog⟩ := dualTransferOp_spec lamb d D dm ct hL hdm (hct ct (by simp))
        simp only [dualTransferStep] at e1
        rw [ho] at e1
        obtain ⟨o', h', e1⟩ := except_bind_inv e1
        obtain rfl : o = o' := Except.ok.inj h'
        obtain ⟨tr, htr, e1⟩ := except_bind_inv e1
        cases tr with
        | none => simp [pure, Except.pure] at e1
        | some tr =>
          simp only at e1
          split at e1
          · simp [pure, Except.pure] at e1
          · have e1 := Except.ok.inj e1
            by_cases hpos : 0 < tr.fst
            · simp only [if_pos hpos, Option.map_some, Prod.mk.injEq, Option.some.injEq] at e1
              obtain ⟨rfl, rfl⟩ := e1
              obtain ⟨g1, g2⟩ := ih ⟨o.shape, fun idx => dualDiv (o.get idx) tr⟩ _ dm' l' (fun c hc => hct c (by simp [hc])) hos e2
              refine ⟨g1, fun r hr q hq => ?_⟩
              rw [g2 r hr q hq]
              refine transferIter_congr _ _ d D cts _ _ (fun r hr q hq => ?_) r hr q hq
              rw [dualExp_div l tr _ hpos, hog r hr q hq, ← transferSum_smul]
            · simp [if_neg hpos] at e1

theorem dualRealify_some {x : DualNumber K} {c : DualNumber ℝ} (h : dualRealify (some x) = .ok (some c)) : c = dualRe x := by
  simp only [dualRealify] at h
  split at h
  · split at h
    · exact (Option.some.inj (Except.ok.inj h)).symm
    · cases h
  · exact (Option.some.inj (Except.ok.inj h)).symm

/-- the cores over which `get_log_norm` iterates -/
def normCores {R : Type} (core : Tensor R) (n : ℕ) : List (Tensor R) := if core.ndim = 3 then List.replicate n core else unbind0 core

theorem normCores_shape {R : Type} {core : Tensor R} {n d D : ℕ} (h : core.shape = [d, D, D] ∨ core.shape = [n, d, D, D]) : ∀ ct ∈ normCores core n, ct.shape = [d, D, D] := by
  intro ct hct
  unfold normCores at hct
  rcases h with h | h
  · rw [if_pos (by simp [Tensor.ndim, h])] at hct
    rw [List.eq_of_mem_replicate hct, h]
  · rw [if_neg (by simp [Tensor.ndim, h])] at hct
    simp only [unbind0, List.mem_map] at hct
    obtain ⟨s, -, rfl⟩ := hct
    simp [h]

/-- the sum of squares, computed without normalisation -/
def normValue {R : Type} [CommSemiring R] (σ : R → R) (core bound : Tensor R) (n d D : ℕ) (Λ : ℕ → ℕ → R) : R :=
  transferFinal σ D (fun i => bound.get [1, i]) (transferIter σ Λ d D (normCores core n) (fun l p => bound.get [0, l] * σ (bound.get [0, p])))

/-- the length argument used for sequences of length `n` -/
theorem cores_eq {R : Type} {core : Tensor R} {n d D : ℕ} {length : Option ℤ} (h : core.shape = [d, D, D] ∨ core.shape = [n, d, D, D])
    (hlen : (core.shape.length = 3 ∧ length = some (n : ℤ)) ∨ (core.shape.length = 4 ∧ (length = none ∨ length = some (n : ℤ)))) :
    (if core.ndim = 3 then List.replicate (length.getD 0).toNat core else unbind0 core) = normCores core n := by
  unfold normCores
  rcases h with h | h
  · rcases hlen with h' | h'
    · rw [h'.2]; rfl
    · simp [h] at h'
  · rw [if_neg (by simp [Tensor.ndim, h]), if_neg (by simp [Tensor.ndim, h])]

theorem dualLogNorm_exact (core bound : Tensor (DualNumber K)) (n d D : ℕ) (hc : core.shape = [d, D, D] ∨ core.shape = [n, d, D, D]) (length : Option ℤ)
    (hlen : (core.shape.length = 3 ∧ length = some (n : ℤ)) ∨ (core.shape.length = 4 ∧ (length = none ∨ length = some (n : ℤ))))
    (lamb : Option (Tensor (DualNumber K))) (hL : LambShape lamb d) (L : DualNumber ℝ) (h : dualLogNorm core bound length lamb = .ok (some L)) :
    0 < RCLike.re (normValue dualConj core bound n d D (lambEntry lamb)).fst ∧
      L = jet (Real.log (RCLike.re (normValue dualConj core bound n d D (lambEntry lamb)).fst))
        (RCLike.re (normValue dualConj core bound n d D (lambEntry lamb)).snd / RCLike.re (normValue dualConj core bound n d D (lambEntry lamb)).fst) := by
  unfold dualLogNorm at h
  obtain ⟨_, -, h⟩ := except_bind_inv h
  simp only at h
  rw [cores_eq hc hlen] at h
  have hD : core.shape.getD (core.ndim - 1) 0 = D := by rcases hc with h | h <;> simp [Tensor.ndim, h]
  rw [hD] at h
  obtain ⟨⟨dm, l⟩, h1, h⟩ := except_bind_inv h
  obtain ⟨corr, h2, h⟩ := except_bind_inv h
  replace h := Except.ok.inj h
  cases corr with
  | none => simp [dualFinalLog] at h
  | some c =>
    cases l with
    | none => simp [dualFinalLog] at h
    | some l =>
      simp only [dualFinalLog, bind, Option.bind] at h
      by_cases hpos : 0 < c.fst
      · rw [if_pos hpos] at h
        have hfin := Option.some.inj h
        cases dm with
        | none =>
          simp only [dualCorr, dualRealify] at h2
          split at h2 <;> cases h2
        | some dm =>
          obtain ⟨g1, g2⟩ := dualFold_exact lamb d D hL _ _ _ dm l (normCores_shape hc) rfl h1
          simp only [dualCorr] at h2
          obtain ⟨o, k1, -, k3⟩ := einsum_final (dualRightVec bound D) dm (dualConjT (dualRightVec bound D)) D D rfl g1 rfl
          rw [k1] at h2
          obtain ⟨o', h', h2⟩ := except_bind_inv h2
          obtain rfl : o = o' := Except.ok.inj h'
          have hce := dualRealify_some h2
          have hZ : dualExp l * o.get [] = normValue dualConj core bound n d D (lambEntry lamb) := by
            rw [k3]
            simp only [Finset.mul_sum, normValue, transferFinal]
            refine Finset.sum_congr rfl fun i hi => Finset.sum_congr rfl fun j hj => ?_
            have := g2 i (Finset.mem_range.1 hi) j (Finset.mem_range.1 hj)
            have e0 : (fun r q => dualExp 0 * (dualDensMat bound D).get [r, q] : ℕ → ℕ → DualNumber K) = fun l p => bound.get [0, l] * dualConj (bound.get [0, p]) := by
              funext r q
              have : (dualExp 0 : DualNumber K) = 1 := by refine dual_ext ?_ ?_ <;> simp [dualExp]
              rw [this, one_mul]
              rfl
            rw [e0] at this
            rw [← this]
            show dualExp l * (bound.get [1, i] * (dm.get [i, j] * dualConj (bound.get [1, j]))) = bound.get [1, i] * (dualExp l * dm.get [i, j] * dualConj (bound.get [1, j]))
            ring
          have z1 : RCLike.re (normValue dualConj core bound n d D (lambEntry lamb)).fst = Real.exp l.fst * c.fst := by
            rw [← hZ, TrivSqZeroExt.fst_mul, hce]
            show RCLike.re (((Real.exp l.fst : ℝ) : K) * (o.get []).fst) = Real.exp l.fst * RCLike.re (o.get []).fst
            rw [RCLike.re_ofReal_mul]
          have z2 : RCLike.re (normValue dualConj core bound n d D (lambEntry lamb)).snd = Real.exp l.fst * c.snd + Real.exp l.fst * l.snd * c.fst := by
            rw [← hZ, DualNumber.snd_mul, hce]
            show RCLike.re (((Real.exp l.fst : ℝ) : K) * (o.get []).snd + ((Real.exp l.fst * l.snd : ℝ) : K) * (o.get []).fst) =
              Real.exp l.fst * RCLike.re (o.get []).snd + Real.exp l.fst * l.snd * RCLike.re (o.get []).fst
            rw [map_add, RCLike.re_ofReal_mul, RCLike.re_ofReal_mul]
          rw [z1, z2]
          refine ⟨mul_pos (Real.exp_pos _) hpos, ?_⟩
          rw [← hfin]
          have he := (Real.exp_pos l.fst).ne'
          refine dual_ext ?_ ?_
          · show l.fst + Real.log c.fst = _
            rw [jet_fst, Real.log_mul he hpos.ne', Real.log_exp]
          · show l.snd + c.snd / c.fst = (Real.exp l.fst * c.snd + Real.exp l.fst * l.snd * c.fst) / (Real.exp l.fst * c.fst)
            have := hpos.ne'
            field_simp
            ring
      · rw [if_neg hpos] at h
        cases h

/-! ### Curves -/

theorem Spec.Follows.conj {f : ℝ → K} {a : DualNumber K} {t₀ : ℝ} (h : Follows f a t₀) : Follows (fun t => star (f t)) (dualConj a) t₀ := by
  have h1 : f t₀ = a.fst := h.1
  refine ⟨by simp only [h1]; rfl, ?_⟩
  exact (RCLike.conjCLE (K := K)).hasFDerivAt.comp_hasDerivAt t₀ h.2

theorem transferSum_follows {d D : ℕ} {ct : ℝ → Tensor K} {dct : Tensor (DualNumber K)} {Λ : ℝ → ℕ → ℕ → K} {dΛ : ℕ → ℕ → DualNumber K} {M : ℝ → ℕ → ℕ → K}
    {dM : ℕ → ℕ → DualNumber K} {t₀ : ℝ} (hs : dct.shape = [d, D, D]) (hct : TensorFollows ct dct t₀)
    (hΛ : ∀ i < d, ∀ j < d, Follows (fun t => Λ t i j) (dΛ i j) t₀) (hM : ∀ r < D, ∀ q < D, Follows (fun t => M t r q) (dM r q) t₀) :
    ∀ r < D, ∀ q < D, Follows (fun t => transferSum star (Λ t) d D (ct t) (M t) r q) (transferSum dualConj dΛ d D dct dM r q) t₀ := by
  intro r hr q hq
  unfold transferSum
  refine Spec.Follows.sum _ fun i hi => Spec.Follows.sum _ fun j hj => Spec.Follows.sum _ fun l hl => Spec.Follows.sum _ fun p hp => ?_
  rw [Finset.mem_range] at hi hj hl hp
  exact (hΛ i hi j hj).mul ((hct.2 [i, l, r] (by simp [hs, hi, hl, hr])).mul ((hM l hl p hp).mul (hct.2 [j, p, q] (by simp [hs, hj, hp, hq])).conj))

theorem transferIter_follows {d D : ℕ} {Λ : ℝ → ℕ → ℕ → K} {dΛ : ℕ → ℕ → DualNumber K} {t₀ : ℝ}
    (hΛ : ∀ i < d, ∀ j < d, Follows (fun t => Λ t i j) (dΛ i j) t₀) {cts : List (ℝ → Tensor K)} {dcts : List (Tensor (DualNumber K))}
    (h : List.Forall₂ (fun g x => TensorFollows g x t₀) cts dcts) : ∀ {M : ℝ → ℕ → ℕ → K} {dM : ℕ → ℕ → DualNumber K}, (∀ x ∈ dcts, x.shape = [d, D, D]) →
    (∀ r < D, ∀ q < D, Follows (fun t => M t r q) (dM r q) t₀) →
    ∀ r < D, ∀ q < D, Follows (fun t => transferIter star (Λ t) d D (cts.map (· t)) (M t) r q) (transferIter dualConj dΛ d D dcts dM r q) t₀ := by
  induction h with
  | nil => intro M dM _ hM; exact hM
  | cons h1 h2 ih =>
    intro M dM hs hM
    simp only [List.map_cons, transferIter]
    exact ih (fun x hx => hs x (by simp [hx])) (transferSum_follows (hs _ (by simp)) h1 hΛ hM)

theorem normCores_follows {core : ℝ → Tensor K} {dcore : Tensor (DualNumber K)} {n d D : ℕ} {t₀ : ℝ} (hc : dcore.shape = [d, D, D] ∨ dcore.shape = [n, d, D, D])
    (h : TensorFollows core dcore t₀) :
    ∃ cs : List (ℝ → Tensor K), (∀ t, normCores (core t) n = cs.map (· t)) ∧ List.Forall₂ (fun g x => TensorFollows g x t₀) cs (normCores dcore n) := by
  have hn : ∀ t, (core t).ndim = dcore.ndim := fun t => by unfold Tensor.ndim; rw [h.1 t]
  unfold normCores
  rcases hc with hc | hc
  · have h3 : dcore.ndim = 3 := by simp [Tensor.ndim, hc]
    refine ⟨List.replicate n core, fun t => ?_, ?_⟩
    · rw [hn, if_pos h3, List.map_replicate]
    · rw [if_pos h3]
      clear hc h3 hn
      induction n with
      | zero => exact .nil
      | succ n ih => rw [List.replicate_succ, List.replicate_succ]; exact .cons h ih
  · have h3 : dcore.ndim ≠ 3 := by simp [Tensor.ndim, hc]
    refine ⟨(List.range n).map (fun s t => ⟨(core t).shape.tail, fun idx => (core t).get (s :: idx)⟩), fun t => ?_, ?_⟩
    · rw [hn, if_neg h3]
      unfold unbind0
      rw [h.1 t, hc, List.map_map]
      simp only [List.headD_cons]
      rw [List.map_congr_left]
      intro s _
      simp only [Function.comp, h.1 t, hc]
    · rw [if_neg h3]
      unfold unbind0
      rw [hc]
      simp only [List.headD_cons]
      rw [List.forall₂_map_left_iff, List.forall₂_map_right_iff, List.forall₂_same]
      intro s hs
      refine ⟨fun t => by simp [h.1 t, hc], fun idx hidx => ?_⟩
      refine h.2 (s :: idx) ?_
      rw [hc]
      simp only [List.tail_cons] at hidx
      rw [inRange_cons]
      exact ⟨List.mem_range.1 hs, hidx⟩

theorem normValue_follows {core bound : ℝ → Tensor K} {dcore dbound : Tensor (DualNumber K)} {n d D : ℕ} {t₀ : ℝ}
    (hc : dcore.shape = [d, D, D] ∨ dcore.shape = [n, d, D, D]) (hb : dbound.shape = [2, D]) (h : TensorFollows core dcore t₀) (hbf : TensorFollows bound dbound t₀)
    {Λ : ℝ → ℕ → ℕ → K} {dΛ : ℕ → ℕ → DualNumber K} (hΛ : ∀ i < d, ∀ j < d, Follows (fun t => Λ t i j) (dΛ i j) t₀) :
    Follows (fun t => normValue star (core t) (bound t) n d D (Λ t)) (normValue dualConj dcore dbound n d D dΛ) t₀ := by
  obtain ⟨cs, c1, c2⟩ := normCores_follows hc h
  unfold normValue transferFinal
  simp only [c1]
  have e : ∀ i < 2, ∀ j < D, Follows (fun t => (bound t).get [i, j]) (dbound.get [i, j]) t₀ := fun i hi j hj => hbf.2 _ (by simp [hb, hi, hj])
  refine Spec.Follows.sum _ fun i hi => Spec.Follows.sum _ fun j hj => ?_
  rw [Finset.mem_range] at hi hj
  exact (e 1 (by omega) i hi).mul ((transferIter_follows hΛ c2 (normCores_shape hc)
    (fun r hr q hq => (e 0 (by omega) r hr).mul (e 0 (by omega) q hq).conj) i hi j hj).mul (e 1 (by omega) j hj).conj)

/-! ### The value is the weighted sum of squares -/

theorem transferSum_family (d D : ℕ) (Λ : ℕ → ℕ → K) (ct : Tensor K) {ι : Type} [Fintype ι] (w : ι → ℝ) (v : ι → ℕ → K)
    (hΛ : ∀ i < d, ∀ j < d, Λ i j = ∑ a, (w a : K) * (v a i * star (v a j))) {X : Type} [Fintype X] (W : X → ℝ) (u : X → Fin D → K) (M : ℕ → ℕ → K)
    (hM : ∀ r q : Fin D, M r q = ∑ x, (W x : K) * (u x r * star (u x q))) (hct : ct.shape = [d, D, D]) (r q : Fin D) :
    transferSum star Λ d D ct M r q = ∑ p : X × ι, ((W p.1 * w p.2 : ℝ) : K) * (Matrix.vecMul (u p.1) (feat3 ct d D (v p.2)) r *
      star (Matrix.vecMul (u p.1) (feat3 ct d D (v p.2)) q)) := by
  let dm : Tensor K := ⟨[D, D], fun idx => M (idx.getD 0 0) (idx.getD 1 0)⟩
  let lt : Tensor K := ⟨[d, d], fun idx => Λ (idx.getD 0 0) (idx.getD 1 0)⟩
  have hL : LambdaIs (some lt) d Λ := Or.inr (Or.inr ⟨rfl, fun i _ j _ => rfl⟩)
  obtain ⟨o, h1, h2⟩ := transferOp_family (some lt) d D Λ dm ct hL w v hΛ W u ⟨rfl, hM⟩ hct
  obtain ⟨o', g1, -, g3⟩ := transferOp_spec (some lt) d D Λ dm ct hL rfl hct
  rw [h1] at g1
  obtain rfl : o = o' := Except.ok.inj g1
  rw [← h2.get r q, g3 r r.2 q q.2]
  rfl

theorem transferIter_family (d D : ℕ) (Λ : ℕ → ℕ → K) {ι : Type} [Fintype ι] (w : ι → ℝ) (v : ι → ℕ → K)
    (hΛ : ∀ i < d, ∀ j < d, Λ i j = ∑ a, (w a : K) * (v a i * star (v a j))) (rv : ℕ → K) (cts : List (Tensor K)) (hct : ∀ ct ∈ cts, ct.shape = [d, D, D]) :
    ∀ {X : Type} [Fintype X] (W : X → ℝ) (u : X → Fin D → K) (M : ℕ → ℕ → K), (∀ r q : Fin D, M r q = ∑ x, (W x : K) * (u x r * star (u x q))) →
    transferFinal star D rv (transferIter star Λ d D cts M) =
      ((∑ x, W x * totM w (fun i : Fin D => rv i) (cts.map fun ct a => feat3 ct d D (v a)) (u x) : ℝ) : K) := by
  induction cts with
  | nil =>
    intro X _ W u M hM
    have hf := family_final (dm := ⟨[D, D], fun idx => M (idx.getD 0 0) (idx.getD 1 0)⟩) (W := W) (u := u) ⟨rfl, hM⟩ (fun i : Fin D => rv i)
    simp only [List.map_nil, totM, transferIter]
    rw [← hf.2]
    unfold transferFinal
    rw [← Fin.sum_univ_eq_sum_range (fun i => ∑ j ∈ Finset.range D, rv i * (M i j * star (rv j))) D]
    refine Finset.sum_congr rfl fun i _ => ?_
    rw [← Fin.sum_univ_eq_sum_range (fun j => rv i * (M i j * star (rv j))) D]
    rfl
  | cons ct cts ih =>
    intro X _ W u M hM
    simp only [transferIter]
    rw [ih (fun c hc => hct c (by simp [hc])) (fun p : X × ι => W p.1 * w p.2) _ _ (fun r q => transferSum_family d D Λ ct w v hΛ W u M hM (hct ct (by simp)) r q)]
    congr 1
    rw [Fintype.sum_prod_type]
    refine Finset.sum_congr rfl fun x _ => ?_
    simp only [List.map_cons, totM, Finset.mul_sum]
    refine Finset.sum_congr rfl fun a _ => ?_
    ring

theorem normValue_eq (core bound : Tensor K) (n d D : ℕ) (hc : CoreShape core n d D) (Λ : ℕ → ℕ → K) {ι : Type} [Fintype ι] (w : ι → ℝ) (v : ι → ℕ → K)
    (hΛ : ∀ i < d, ∀ j < d, Λ i j = ∑ a, (w a : K) * (v a i * star (v a j))) :
    normValue star core bound n d D Λ = ((weightedNormSq core bound n d D w v : ℝ) : K) := by
  unfold normValue
  rw [transferIter_family d D Λ w v hΛ _ (normCores core n) (normCores_shape hc) (fun _ : Unit => 1) (fun _ => boundVec bound D 0) _ (fun r q => by simp [boundVec])]
  congr 1
  simp only [Finset.univ_unique, Finset.sum_singleton, one_mul]
  have e : (normCores core n).map (fun ct a => feat3 ct d D (v a)) = List.ofFn fun s : Fin n => fun a => featMat core d D s (v a) := by
    unfold normCores
    rcases hc with h | h
    · rw [if_pos (by simp [Tensor.ndim, h])]
      exact replicate_feat core n d D h v
    · rw [if_neg (by simp [Tensor.ndim, h])]
      exact (unbind0_feat core n d D h v).2
  rw [e, totM_ofFn]
  rfl

end TorchMPS
