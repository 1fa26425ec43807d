import Verif.Lemmas.ThreadsSimList
import Verif.Lemmas.ThreadsMps
/-
Modules and models, sample by sample (see ThreadsSim).
-/
namespace TorchMPS
open Spec Prog
variable {K : Type} {α β γ δ : Type}
namespace Threads

/-- sample `b` as a batch of one sample -/
def rowT (b : ℕ) (t : Tensor K) : Tensor K :=
  ⟨1 :: t.shape.tail, fun idx => t.get ((if t.shape.getD 0 0 = 1 then 0 else b) :: idx.tail)⟩

theorem row_rowT (b : ℕ) (t : Tensor K) (n : ℕ) (h : t.shape.head? = some n) : Row b t (rowT b t) := by
  obtain ⟨s, hs⟩ := head_cons h
  exact ⟨n, s, hs, by simp [rowT, hs], fun _ idx => by simp [rowT, hs]⟩

theorem Row.mergedInputMats [CommSemiring K] {b : ℕ} {x x' v : Tensor K} (hx : Row b x x') (t : Tensor K)
    (h : mergedInputMats t x = .ok v) : ∃ v', TorchMPS.mergedInputMats t x' = .ok v' ∧ Row b v v' := by
  unfold TorchMPS.mergedInputMats at h ⊢
  obtain ⟨_, h1, h⟩ := bind_inv h
  obtain ⟨_, h2, h⟩ := bind_inv h
  obtain ⟨_, h3, h⟩ := bind_inv h
  obtain ⟨_, h4, h⟩ := bind_inv h
  obtain ⟨w, hw, h⟩ := bind_inv h
  rw [assert_ok_iff] at h1 h2 h3 h4
  have a1 := hx.axis 0
  have a2 := hx.axis 1
  simp only [Nat.zero_add, Nat.reduceAdd] at a1 a2
  rw [assert_true _ (show x'.ndim = 3 by unfold Tensor.ndim at h1 ⊢; rw [hx.len, h1]), bind_ok_except, assert_true _ (show _ = _ by rw [a1]; exact h2), bind_ok_except,
    assert_true _ (show _ = _ by rw [a2]; exact h3), bind_ok_except, assert_true _ (show _ = _ by rw [a1]; exact h4), bind_ok_except, a1]
  obtain ⟨w', e1, e2⟩ := einsum_row2 b ['s', 'l', 'r', 'i', 'j'] _ _ t t _ _ _ (Or.inr ⟨by decide, rfl⟩) (opRow b ['s', 'j'] _ _ (by decide) (hx.sliceAx 0 1 2 _)) hw
  have e1 : einsum [['s', 'l', 'r', 'i', 'j'], ['b', 's', 'j']] ['b', 's', 'l', 'r', 'i'] [t, x'.sliceAx 1 1 2 (x.shape.getD 1 0 / 2)] = .ok w' := e1
  simp only
  rw [e1]
  exact einsum_row2 b _ _ _ _ _ _ _ _ (opRow b ['s', 'l', 'r', 'i'] _ _ (by decide) e2) (opRow b ['s', 'i'] _ _ (by decide) (hx.sliceAx 0 0 2 _)) h

theorem noType_mergedInputMats [CommSemiring K] (t x : Tensor K) : NoType (mergedInputMats t x) := by
  refine noType_bind (noType_assert _) fun _ => noType_bind (noType_assert _) fun _ => noType_bind (noType_assert _) fun _ =>
    noType_bind (noType_assert _) fun _ => noType_bind (noType_einsum _ _ _) fun m => noType_einsum _ _ _

theorem sim_moduleForward [CommSemiring K] (b : ℕ) (m : Module K) (hm : OutAxes m) (x x' : Tensor K) (hx : Row b x x') :
    Sim (moduleForward m x) (moduleForward m x') (RowC b) := by
  obtain ⟨B, s, hs, _⟩ := id hx
  have hB : x.shape.head? = some B := by rw [hs]; rfl
  cases m with
  | inputRegion t bias =>
    refine sim_lift_bind (Q := Row b) (noType_inputRegionMats _ _ _) (fun v hv => hx.inputRegionMats t bias hv) fun v v' hv hr => ?_
    exact sim_mkMatRegion b v v' hr (inputRegionMats_batch t bias x v B hB hv).2
  | mergedInput t =>
    refine sim_lift_bind (Q := Row b) (noType_mergedInputMats _ _) (fun v hv => hx.mergedInputMats t hv) fun v v' hv hr => ?_
    exact sim_mkMatRegion b v v' hr (mergedInputMats_batch t x v B hB hv).2
  | inputSite t =>
    refine sim_lift_bind (Q := Row b) ?_ ?_ fun v v' hv hr => ?_
    · exact noType_bind (noType_assert _) fun _ => noType_bind (noType_assert _) fun _ => noType_einsum _ _ _
    · intro v hv
      unfold inputSiteMat at hv ⊢
      obtain ⟨_, h1, hv⟩ := bind_inv hv
      obtain ⟨_, h2, hv⟩ := bind_inv hv
      rw [assert_ok_iff] at h1 h2
      rw [assert_true _ (show x'.ndim = 2 by unfold Tensor.ndim at h1 ⊢; rw [hx.len, h1]), bind_ok_except,
        assert_true _ (show _ = _ by rw [hx.axis 0]; exact h2), bind_ok_except]
      exact einsum_row2 b ['l', 'r', 'i'] _ _ t t _ _ _ (Or.inr ⟨by decide, rfl⟩) (opRow b ['i'] _ _ (by decide) hx) hv
    · unfold inputSiteMat at hv
      obtain ⟨_, _, hv⟩ := bind_inv hv
      obtain ⟨_, _, hv⟩ := bind_inv hv
      exact sim_mkSingleMat b v v' hr (by rw [(einsum_nodup _ _ _ _ hv).2]; decide)
  | outputSite t =>
    have ht : t.shape.length = 3 := hm
    simp only [moduleForward]
    unfold mkOutputCore
    rw [if_neg (by simp [Tensor.ndim, ht])]
    refine sim_expand b _ _ _ rfl ?_ (by rw [ht]; rfl) (by simp [ClsLen])
    intro h
    rw [h] at ht
    simp at ht
  | mergedOutput t l =>
    refine sim_lift_bind (Q := Row b) ?_ ?_ fun v v' hv hr => ?_
    · exact noType_bind (noType_assert _) fun _ => noType_bind (noType_assert _) fun _ => noType_einsum _ _ _
    · intro v hv
      unfold mergedOutputCore at hv ⊢
      obtain ⟨_, h1, hv⟩ := bind_inv hv
      obtain ⟨_, h2, hv⟩ := bind_inv hv
      rw [assert_ok_iff] at h1 h2
      rw [assert_true _ (show x'.ndim = 2 by unfold Tensor.ndim at h1 ⊢; rw [hx.len, h1]), bind_ok_except,
        assert_true _ (show _ = _ by rw [hx.axis 0]; exact h2), bind_ok_except]
      exact einsum_row2 b ['o', 'l', 'r', 'i'] _ _ t t _ _ _ (Or.inr ⟨by decide, rfl⟩) (opRow b ['i'] _ _ (by decide) hx) hv
    · unfold mergedOutputCore at hv
      obtain ⟨_, _, hv⟩ := bind_inv hv
      obtain ⟨_, _, hv⟩ := bind_inv hv
      exact sim_mkOutputCore b v v' hr (einsum_nodup _ _ _ _ hv).2

theorem sim_runModules [CommSemiring K] (b : ℕ) (x x' : Tensor K) (hx : Row b x x') (ms : List (Module K)) (hm : ∀ m ∈ ms, OutAxes m) (i : ℕ) :
    Sim (runModules x i ms) (runModules x' i ms) (RowL b) := by
  induction ms generalizing i with
  | nil => exact sim_pure .nil
  | cons m ms ih =>
    simp only [runModules]
    refine sim_bind (sim_moduleForward b m (hm m (by simp)) _ _ (hx.pickInput i m.len)) fun c c' hc => ?_
    exact sim_bind (ih (fun m' hm' => hm m' (by simp [hm'])) _) fun cs cs' hcs => sim_pure (.cons hc hcs)

theorem sim_closeRing [CommSemiring K] (b : ℕ) (cs cs' : List (Contractable K)) (h : RowL b cs cs') :
    Sim (closeRing cs) (closeRing cs') (Row b) := by
  unfold closeRing
  refine sim_bind (sim_reduceList b cs cs' true h) fun c c' hc => ?_
  rw [hc.str]
  refine sim_same _ fun _ _ => ?_
  obtain ⟨M, hM⟩ := hc.wf
  obtain ⟨s, hs⟩ := str_cons hM.first
  refine sim_lift (noType_einsum _ _ _) fun y hy => ?_
  have hn := (einsum_nodup _ _ _ _ hy).1
  rw [hs] at hy hn ⊢
  have e1 : traceIn ('b' :: s) = 'b' :: traceIn s := rfl
  have e2 : traceOut ('b' :: s) = 'b' :: traceOut s := rfl
  rw [e1, e2] at hy ⊢
  rw [e2] at hn
  refine einsum_row1 b _ _ _ _ _ ?_ hc.row hy
  intro hmem
  obtain ⟨d, hd, he⟩ := List.mem_map.1 hmem
  split at he
  · exact absurd he (by decide)
  · subst he
    refine (List.nodup_cons.1 hn).1 ?_
    unfold traceOut
    rw [List.mem_filter]
    exact ⟨hd, by decide⟩

theorem bondSize_row (b : ℕ) (c c' : Contractable K) (h : RowC b c c') (d : Char) (hd : d ≠ 'b') : bondSize c' d = bondSize c d := by
  unfold bondSize
  rw [h.str]
  obtain ⟨M, hM⟩ := h.wf
  obtain ⟨s, hs⟩ := str_cons hM.first
  have hi : c.bondStr.idxOf d = s.idxOf d + 1 := by
    rw [hs, List.idxOf_cons_ne _ (Ne.symm hd)]
  rw [hi, h.row.axis]

theorem sim_edge (b : ℕ) (v : Tensor K) (hv : v.shape.length = 1) (l : Bool) : Sim (mkEdgeVec v l) (mkEdgeVec v l) (RowC b) := by
  unfold mkEdgeVec
  rw [if_neg (by simp [Tensor.ndim, hv])]
  refine sim_expand b _ _ _ rfl ?_ (by rw [hv]; rfl) (by simp [ClsLen])
  intro h
  rw [h] at hv
  simp at hv

theorem rowL_head (b : ℕ) (cs cs' : List (Contractable K)) (h : RowL b cs cs') :
    (cs.head? = none ∧ cs'.head? = none) ∨ ∃ c c', cs.head? = some c ∧ cs'.head? = some c' ∧ RowC b c c' := by
  cases h with
  | nil => exact Or.inl ⟨rfl, rfl⟩
  | cons hc _ => exact Or.inr ⟨_, _, rfl, rfl, hc⟩

theorem rowL_last (b : ℕ) (cs cs' : List (Contractable K)) (h : RowL b cs cs') :
    (cs.getLast? = none ∧ cs'.getLast? = none) ∨ ∃ c c', cs.getLast? = some c ∧ cs'.getLast? = some c' ∧ RowC b c c' := by
  rw [List.getLast?_eq_head?_reverse, List.getLast?_eq_head?_reverse]
  exact rowL_head b _ _ (List.rel_reverse h)

theorem sim_closeOpen [CommSemiring K] (b : ℕ) (cs cs' : List (Contractable K)) (par : Bool) (h : RowL b cs cs') :
    Sim (closeOpen cs par) (closeOpen cs' par) (Row b) := by
  unfold closeOpen
  rcases rowL_head b cs cs' h with ⟨h1, h2⟩ | ⟨f, f', h1, h2, hf⟩
  · rw [h1, h2]
    exact sim_throw _
  · rcases rowL_last b cs cs' h with ⟨h3, h4⟩ | ⟨l, l', h3, h4, hl⟩
    · rw [h3, h4, h1, h2]
      exact sim_throw _
    · rw [h3, h4, h1, h2]
      simp only
      rw [bondSize_row b f f' hf 'l' (by decide), bondSize_row b l l' hl 'r' (by decide)]
      refine sim_same _ fun _ _ => sim_same _ fun _ _ => sim_same _ fun vl hvl => sim_same _ fun vr hvr => ?_
      refine sim_bind (sim_edge b vl (endVec_shape _ _ hvl) true) fun e e' he => ?_
      refine sim_bind (sim_edge b vr (endVec_shape _ _ hvr) false) fun r r' hr => ?_
      refine sim_bind (sim_reduceList b _ _ par (.cons he (List.rel_append h (.cons hr .nil)))) fun c c' hc => sim_pure hc.row

theorem sim_linearForward [CommSemiring K] (b : ℕ) (x x' : Tensor K) (hx : Row b x x') (ms : List (Module K)) (hm : ∀ m ∈ ms, OutAxes m) (per par : Bool) :
    Sim (linearForward ms per par x) (linearForward ms per par x') (Row b) := by
  unfold linearForward
  have h1 : x'.ndim = x.ndim := hx.len
  rw [h1, hx.axis 0]
  refine sim_same _ fun _ _ => sim_same _ fun _ _ => ?_
  refine sim_bind (sim_runModules b x x' hx ms hm 0) fun cs cs' hcs => ?_
  split
  · exact sim_closeRing b cs cs' hcs
  · exact sim_closeOpen b cs cs' par hcs

theorem sim_outputMat (b : ℕ) (v : Tensor K) (hv : v.shape.length = 2) (l : Bool) : Sim (mkOutputMat v l) (mkOutputMat v l) (RowC b) := by
  unfold mkOutputMat
  rw [if_neg (by simp [Tensor.ndim, hv])]
  refine sim_expand b _ _ _ rfl ?_ (by rw [hv]; rfl) (by simp [ClsLen])
  intro h
  rw [h] at hv
  simp at hv

theorem format_own [CommRing K] (m : TiMps K) (x : Tensor K) (B n : ℕ) (hx : x.shape = [B, n, m.featureDim]) : m.formatInput (.batch x) = .ok x := by
  rw [ti_format_batch, embedIfRaw_not m x (by simp [Tensor.ndim, hx]), bind_ok_except, assert_true _ (by simp [Tensor.ndim, hx]), bind_ok_except,
    assert_true _ (by simp [hx])]
  rfl

theorem sim_ti [CommRing K] (b : ℕ) (m : TiMps K) (h : IsTi m) (B n : ℕ) (inp : TiInput K) (x : Tensor K) (hf : m.formatInput inp = .ok x)
    (hs : x.shape = [B, n, m.featureDim]) : Sim (tiForward m inp) (tiForward m (.batch (rowT b x))) (Row b) := by
  have hrow := row_rowT b x B (by rw [hs]; rfl)
  have hs' : (rowT b x).shape = [1, n, m.featureDim] := by simp [rowT, hs]
  unfold tiForward
  rw [hf, format_own m _ 1 n hs', Prog.lift_ok_bind, Prog.lift_ok_bind, hrow.axis 0]
  refine sim_same _ fun core _ => sim_same _ fun r hr => ?_
  obtain ⟨bias, rfl⟩ := mkInputRegion_is _ _ _ _ hr
  refine sim_bind (sim_moduleForward b (.inputRegion core bias) trivial x _ hrow) fun c c' hc => ?_
  refine sim_bind (sim_edge b m.initVec (by rw [h.initVec]; rfl) true) fun e e' he => ?_
  refine sim_bind (sim_outputMat b m.termMat (by rw [h.termMat]; rfl) false) fun t t' ht => ?_
  refine sim_bind (sim_reduceList b [e, c, t] [e', c', t'] m.parallel (.cons he (.cons hc (.cons ht .nil)))) fun o o' ho => ?_
  rw [ho.str, ho.row.axis 0]
  refine sim_same _ fun _ _ => ?_
  refine sim_lift_bind (Q := fun _ _ => True) (noType_assert _) (fun _ _ => ⟨(), ?_, trivial⟩) fun _ _ _ _ => ?_
  · refine assert_true _ ?_
    obtain ⟨r1, hr1⟩ := head_cons ho.row.head
    rw [hr1, hs']
    rfl
  · refine sim_same _ fun _ _ => sim_pure ho.row

/-! ### Executions -/

theorem all_step {α : Type} (P : Except Err α → Prop) (p : Prog α) (h : p.All P) (g : Option ℕ) : (p.step g).2.All P := by
  cases p with
  | ret r => exact h
  | read k => exact h g
  | write n k => exact h

theorem all_exec {α : Type} (P : Except Err α → Prop) (sched : List ℕ) (s : Process α) (i : ℕ) (p : Prog α) (hp : s.threads[i]? = some p) (h : p.All P) :
    ∃ p', (s.exec sched).threads[i]? = some p' ∧ p'.All P := by
  induction sched generalizing s p with
  | nil => exact ⟨p, hp, h⟩
  | cons j l ih =>
    show ∃ p', ((s.step j).exec l).threads[i]? = some p' ∧ _
    by_cases hij : j = i
    · subst hij
      refine ih (s.step j) (p.step s.globalBs).2 ?_ (all_step P p h _)
      rw [step_at s j p hp]
      simp only
      rw [List.getElem?_set_self (List.getElem?_eq_some_iff.1 hp).1]
    · refine ih (s.step j) p ?_ h
      unfold Process.step
      cases hj : s.threads[j]? with
      | none => exact hp
      | some w =>
        simp only
        rw [List.getElem?_set_ne hij]
        exact hp

theorem sim_exec {α β : Type} (p : Prog α) (q : Prog β) (Q : α → β → Prop) (h : Sim p q Q) (s : Process α) (i : ℕ) (hp : s.threads[i]? = some p) (sched : List ℕ)
    (a : α) (hf : (s.exec sched).threads[i]? = some (.ret (.ok a))) : ∃ a', q.run (some 1) = (.ok a', some 1) ∧ Q a a' := by
  obtain ⟨p', h1, h2⟩ := all_exec _ sched s i p hp h
  rw [hf] at h1
  cases h1
  exact h2

theorem wp_all {α : Type} (p : Prog α) (Q : α → Prop) (h : Wp (fun _ => True) (fun _ => True) p Q) : p.All (fun r => ∀ a, r = .ok a → Q a) := by
  induction p with
  | ret r =>
    cases r with
    | ok a => intro a' ha; cases ha; exact h
    | error e => intro a' ha; cases ha
  | read k ih => exact fun g => ih g (h g trivial)
  | write n k ih => exact ih h.2

theorem wp_exec {α : Type} (p : Prog α) (Q : α → Prop) (h : Wp (fun _ => True) (fun _ => True) p Q) (s : Process α) (i : ℕ) (hp : s.threads[i]? = some p)
    (sched : List ℕ) (a : α) (hf : (s.exec sched).threads[i]? = some (.ret (.ok a))) : Q a := by
  obtain ⟨p', h1, h2⟩ := all_exec _ sched s i p hp (wp_all p Q h)
  rw [hf] at h1
  cases h1
  exact h2 a rfl

/-- the number of rows of a disturbed evaluation -/
theorem wp_runRegion [CommSemiring K] (x : Tensor K) (B : ℕ) (hx : x.shape.head? = some B) (ms : List (Module K))
    (hm : ∀ m ∈ ms, OutAxes m) (i : ℕ) :
    Wp (fun _ => True) (fun _ => True) (runModules x i ms)
      (fun cs => ∃ bs, Batches bs cs ∧ ((∃ t bias, Module.inputRegion t bias ∈ ms) → B ∈ bs)) := by
  induction ms generalizing i with
  | nil => exact wp_pure _ _ ⟨[], .nil, by simp⟩
  | cons m ms ih =>
    simp only [runModules]
    have hreg : Wp (fun _ => True) (fun _ => True) (moduleForward m (pickInput x i m.len)) (fun c => ∃ n, ((∃ t bias, m = .inputRegion t bias) → n = B) ∧ Batched n c) := by
      by_cases hr : ∃ t bias, m = .inputRegion t bias
      · obtain ⟨t, bias, rfl⟩ := hr
        refine wp_lift_bind _ _ _ fun v hv => ?_
        obtain ⟨h1, h2⟩ := inputRegionMats_batch t bias _ v B (pickInput_batch x B hx _ _) hv
        exact wp_mkMatRegion v B _ h1 h2 trivial (fun c hc => ⟨B, fun _ => rfl, hc⟩)
      · refine wp_mono _ _ _ (wp_moduleForward m _ B (hm m (by simp)) (pickInput_batch x B hx _ _) trivial) ?_
        rintro c ⟨n, _, hc⟩
        exact ⟨n, fun h => absurd h hr, hc⟩
    refine wp_bind _ _ _ _ hreg ?_
    rintro c ⟨n, hn, hc⟩
    refine wp_bind _ _ _ _ (ih (fun m' hm' => hm m' (by simp [hm'])) _) ?_
    rintro cs ⟨bs, h1, h2⟩
    refine wp_pure _ _ ⟨n :: bs, .cons hc h1, ?_⟩
    rintro ⟨t, bias, hmem⟩
    rcases List.mem_cons.1 hmem with h | h
    · rw [hn ⟨t, bias, h.symm⟩]; simp
    · exact List.mem_cons_of_mem _ (h2 ⟨t, bias, h⟩)

theorem wp_rows [CommSemiring K] (x : Tensor K) (B : ℕ) (hx : x.shape.head? = some B) (ms : List (Module K))
    (hm : ∀ m ∈ ms, OutAxes m) (hr : ∃ t bias, Module.inputRegion t bias ∈ ms) (per par : Bool) :
    Wp (fun _ => True) (fun _ => True) (linearForward ms per par x) (Rows [B]) := by
  unfold linearForward
  refine wp_lift_bind _ _ _ fun _ _ => wp_lift_bind _ _ _ fun _ _ => wp_bind _ _ _ _ (wp_runRegion x B hx ms hm 0) ?_
  rintro cs ⟨bs, h1, h2⟩
  refine wp_mono _ _ _ (wp_close bs cs per par h1 (fun _ _ => trivial) (fun _ _ => trivial)) ?_
  rintro y ⟨M, m1, m2⟩
  refine ⟨M, m1, fun b hb => ?_⟩
  rw [List.mem_singleton.1 hb]
  exact m2 B (h2 hr)

end Threads
end TorchMPS
