import Verif.Lemmas.ThreadsMps
/-
C94: models used by several threads at once.
-/
namespace TorchMPS
open Spec Prog
variable {K : Type} {α β : Type}

/-- C94: any number of threads evaluate MPS and TI_MPS models (the same or different ones) on batches of the same size `B` at the same
time. If none of the models starts with its output core, or the last evaluation before also had `B` samples, then for every
interleaving of their accesses to the shared state a thread which finishes does so with the result it has without the other threads. -/
theorem C94_same_batch [CommRing K] (B : ℕ) (g : Option ℕ) (cs : List (Call K)) (hB : ∀ c ∈ cs, c.OnBatch B)
    (hg : g = some B ∨ ∀ c ∈ cs, c.LabelInside) (schedule : List ℕ) (i : ℕ) (c : Call K) (hc : cs[i]? = some c) (r : Except Err (Tensor K))
    (hr : Finished ((started g cs).exec schedule) i r) :
    r = c.alone (some B) ∧ (c.LabelInside → ∀ g', r = c.alone g') := by
  have hmem : c ∈ cs := List.mem_of_getElem? hc
  have hall : AllFine B (fun j => match cs[j]? with | some c => c.alone (some B) | none => .error .runtime) (started g cs) := by
    intro j p hp
    simp only [started, List.getElem?_map, Option.map_eq_some_iff] at hp
    obtain ⟨d, hd, rfl⟩ := hp
    have hdm : d ∈ cs := List.mem_of_getElem? hd
    show Fine B g d.program (match cs[j]? with | some c => c.alone (some B) | none => .error .runtime)
    rw [hd]
    show Fine B g d.program (d.alone (some B))
    rw [← Threads.call_run d]
    refine fine_start B g _ (Threads.call_keeps d B (hB d hdm)) ?_
    rcases hg with hg | hg
    · exact Or.inl hg
    · exact Or.inr (SetsFirst.sets (Threads.call_sets d B (hB d hdm) (hg d hdm)))
  have h1 := Fine.ret (hall.exec schedule i _ hr)
  rw [hc] at h1
  have h1 : r = c.alone (some B) := h1
  refine ⟨h1, fun hl g' => ?_⟩
  rw [h1, ← Threads.call_run c, ← Threads.call_run c]
  exact (sets_run B _ (SetsFirst.sets (Threads.call_sets c B (hB c hmem) hl)) g').symm

/-- C94: every thread finishes under every schedule in which it gets its turn again and again, whatever the models, the inputs and the
other threads are: nothing in an evaluation waits for another thread. -/
theorem C94_terminates [CommRing K] (g : Option ℕ) (cs : List (Call K)) (σ : ℕ → ℕ) (i : ℕ) (hi : i < cs.length) (hσ : ∀ t, ∃ t' ≥ t, σ t' = i) :
    ∃ N, ∀ n ≥ N, ∃ r, Finished ((started g cs).exec ((List.range n).map σ)) i r := by
  refine exec_finishes σ i hσ (cs[i]).program (started g cs) 0 ?_
  show (started g cs).threads[i]? = _
  simp [started, hi]

/-- C94: with a fair schedule all threads come to their ends, all with the results they have alone. -/
theorem C94_all_finish [CommRing K] (B : ℕ) (g : Option ℕ) (cs : List (Call K)) (hB : ∀ c ∈ cs, c.OnBatch B)
    (hg : g = some B ∨ ∀ c ∈ cs, c.LabelInside) (σ : ℕ → ℕ) (hσ : ∀ i < cs.length, ∀ t, ∃ t' ≥ t, σ t' = i) :
    ∃ N, ∀ n ≥ N, ∀ (i : ℕ) (c : Call K), cs[i]? = some c → Finished ((started g cs).exec ((List.range n).map σ)) i (c.alone (some B)) := by
  have h : ∀ i, ∃ N, ∀ n ≥ N, ∀ c, cs[i]? = some c → Finished ((started g cs).exec ((List.range n).map σ)) i (c.alone (some B)) := by
    intro i
    by_cases hi : i < cs.length
    · obtain ⟨N, hN⟩ := C94_terminates g cs σ i hi (hσ i hi)
      refine ⟨N, fun n hn c hc => ?_⟩
      obtain ⟨r, hr⟩ := hN n hn
      have := (C94_same_batch B g cs hB hg _ i c hc r hr).1
      rw [this] at hr
      exact hr
    · refine ⟨0, fun n _ c hc => ?_⟩
      rw [List.getElem?_eq_none (by omega)] at hc
      cases hc
  choose N hN using h
  refine ⟨(Finset.range cs.length).sup N, fun n hn i c hc => hN i n ?_ c hc⟩
  have hi : i < cs.length := (List.getElem?_eq_some_iff.1 hc).1
  exact le_trans (Finset.le_sup (f := N) (Finset.mem_range.2 hi)) hn

namespace Threads

/-- The first two accesses of an MPS which does not start with its output core, and what follows when another batch size has been set
in between. -/
theorem mps_first [CommRing K] (k : ℕ) (ub : Bool) (p : Params K) (m : MPS K) (h : IsMps k ub p m) (hk : 2 ≤ k) (x e : Tensor K)
    (he : Embedded m x e) (B : ℕ) (hB : e.shape.getD 0 0 = B) :
    ∃ k', mpsForward m x = .read (fun g => if g = some B then .read k' else .write B (.read k')) ∧
      ∀ B', Wp (fun _ => True) (fun _ => True) (k' (some B')) (Rows [B, B']) := by
  have hsh := embedded_head m x e he
  rw [hB] at hsh
  have hhead : e.shape.head? = some B := by rw [hsh]; rfl
  rw [mpsForward_embedded m x e he]
  have hax := mps_outAxes k ub p m h
  have hlen : modulesLen m.modules = m.inputDim := (mps_facts k ub p m h).2.2.1
  unfold linearForward
  rw [assert_true _ (by simp [Tensor.ndim, hsh]), Prog.lift_ok_bind, assert_true _ (by rw [hlen, hsh]; rfl), Prog.lift_ok_bind]
  rw [h.modules] at hax ⊢
  have hk0 : ¬ k = 0 := by omega
  rw [if_neg hk0] at hax ⊢
  generalize (if k = m.inputDim then [] else [Module.inputRegion p.right (if ub = true then some p.rightBias else none)]) = rest at hax ⊢
  simp only [List.singleton_append] at hax ⊢
  have hlb : ∀ bm ∈ (if ub = true then some p.leftBias else none), bm.shape = [1, m.bondDim, m.bondDim] := by
    intro bm hbm
    cases ub with
    | false => simp at hbm
    | true => simp at hbm; rw [← hbm]; exact h.leftBias
  generalize (if ub = true then some p.leftBias else none) = lb at hax hlb ⊢
  have hpk : (Module.inputRegion p.left lb).len = k := by simp [Module.len, h.left]
  have hpick : (pickInput e 0 k).shape = [B, k, m.featureDim] := by
    unfold pickInput
    rw [if_neg (by omega)]
    simp [Tensor.sliceAx, hsh]
  obtain ⟨v, v1, v2, _⟩ := inputRegionMats_ok B k m.bondDim m.featureDim p.left _ lb h.left hpick hlb
  set c : Contractable K := ⟨.matRegion, v, ['b', 's', 'l', 'r']⟩ with hc
  have hcb : Batched B c := ⟨rfl, by simp [hc, v2], by simp [hc, v2], by simp [ClsLen, hc, v2]⟩
  have hreg : moduleForward (.inputRegion p.left lb) (pickInput e 0 k) = .read (fun g => if g = some B then pure c else .write B (pure c)) := by
    show Prog.lift (inputRegionMats p.left lb (pickInput e 0 k)) >>= mkMatRegion = _
    rw [v1, Prog.lift_ok_bind]
    unfold mkMatRegion
    rw [if_neg (by simp [Tensor.ndim, v2])]
    unfold mkContractable
    congr 1
    funext g
    rw [if_neg (by simp [v2]), if_neg (by simp [needsExpand, Tensor.ndim, v2]), if_neg (by simp [Tensor.ndim, v2]), v2]
    rfl
  have hout : ∃ ko, (mkOutputCore p.out : Prog (Contractable K)) = .read ko ∧ ∀ B', ∃ c', ko (some B') = pure c' ∧ Batched B' c' := by
    unfold mkOutputCore
    rw [if_neg (by simp [Tensor.ndim, h.out])]
    refine ⟨_, rfl, fun B' => ⟨⟨.outputCore, ⟨B' :: p.out.shape, fun idx => p.out.get (idx.drop 1)⟩, ['b', 'o', 'l', 'r']⟩, ?_, ?_⟩⟩
    · beta_reduce
      rw [if_neg (by simp [h.out]), if_pos (by simp [needsExpand, Tensor.ndim, h.out])]
      simp
    · exact ⟨rfl, by simp [h.out], rfl, by simp [ClsLen, h.out]⟩
  obtain ⟨ko, ko1, ko2⟩ := hout
  simp only [runModules]
  rw [hpk, hreg, Nat.zero_add]
  set F : List (Contractable K) → Prog (Tensor K) := fun cs => if m.periodic = true then closeRing cs else closeOpen cs m.parallel with hF
  have hmod : moduleForward (.outputSite p.out) (pickInput e k (Module.outputSite p.out).len) = .read ko := ko1
  rw [hmod]
  refine ⟨fun g => ((ko g >>= fun c' => runModules e (k + (Module.outputSite p.out).len) rest >>= fun cs => pure (c' :: cs)) >>= fun cs =>
    pure (c :: cs)) >>= F, ?_, ?_⟩
  · rw [Prog.read_bind, Prog.read_bind]
    congr 1
    funext g
    split <;> rfl
  · intro B'
    obtain ⟨c', c1, c2⟩ := ko2 B'
    beta_reduce
    rw [c1]
    refine wp_bind _ _ (fun cs => ∃ bs, Batches (B :: B' :: bs) cs) _ (wp_bind _ _ (fun cs => ∃ bs, Batches (B' :: bs) cs) _ ?_ ?_) ?_
    · show Wp _ _ (runModules e _ rest >>= fun cs => pure (c' :: cs)) _
      refine wp_bind _ _ _ _ (wp_runModules (R := fun _ => True) (W := fun _ => True) e B hhead trivial rest (fun a ha => hax a (by simp [ha])) _) ?_
      rintro cs ⟨bs, h1, _⟩
      exact wp_pure _ _ ⟨bs, .cons c2 h1⟩
    · rintro cs ⟨bs, h1⟩
      exact wp_pure _ _ ⟨bs, .cons hcb h1⟩
    · rintro cs ⟨bs, h1⟩
      refine wp_mono _ _ _ (wp_close _ cs m.periodic m.parallel h1 (fun _ _ => trivial) (fun _ _ => trivial)) ?_
      rintro y ⟨M, m1, m2⟩
      exact ⟨M, m1, fun b hb => m2 b (by simp only [List.mem_cons, List.not_mem_nil, or_false] at hb ⊢; tauto)⟩

theorem wp_run {α : Type} (p : Prog α) (Q : α → Prop) (h : Wp (fun _ => True) (fun _ => True) p Q) (g : Option ℕ) (a : α) (ha : (p.run g).1 = .ok a) : Q a := by
  induction p generalizing g with
  | ret r =>
    have : r = .ok a := ha
    subst this
    exact h
  | read k ih => exact ih g (h g trivial) g ha
  | write n k ih => exact ih h.2 (some n) ha

theorem exec_cons {α : Type} (s : Process α) (i : ℕ) (l : List ℕ) : s.exec (i :: l) = (s.step i).exec l := rfl

/-- a thread which sets the value: it has done so after one or two accesses -/
theorem set_first {α : Type} (i : ℕ) (B : ℕ) (q : Prog α) (s : Process α)
    (h : s.threads[i]? = some (.read (fun g => if g = some B then q else .write B q))) :
    ∃ l, s.exec l = ⟨some B, s.threads.set i q⟩ := by
  have hi : i < s.threads.length := (List.getElem?_eq_some_iff.1 h).1
  by_cases hg : s.globalBs = some B
  · refine ⟨[i], ?_⟩
    show s.step i = _
    rw [step_at s i _ h]
    simp [Prog.step, hg]
  · refine ⟨[i, i], ?_⟩
    show (s.step i).step i = _
    rw [step_at s i _ h]
    simp only [Prog.step, if_neg hg]
    rw [step_at _ i (.write B q) (by simp [hi])]
    simp [Prog.step]

end Threads

/-- C94: without the condition on the batch sizes evaluations disturb each other. Take two threads which evaluate MPS models on batches of
different sizes `B` and `B'`, `B' ≠ 1` (as the last part of an unevenly divided batch has). Each call alone returns one row per sample, but
there is a schedule in which the first thread raises an exception, or, when it had a single sample, returns `B'` rows. -/
theorem C94_race [CommRing K] (k k' : ℕ) (ub ub' : Bool) (p p' : Params K) (m m' : MPS K) (h : IsMps k ub p m) (h' : IsMps k' ub' p' m')
    (hk : 1 ≤ k) (hk' : 1 ≤ k') (hs : NoShortRegion m.inputDim k) (hs' : NoShortRegion m'.inputDim k') (hD : m.periodic = true ∨ 1 ≤ m.bondDim)
    (x x' e e' : Tensor K) (he : Embedded m x e) (he' : Embedded m' x' e') (B B' : ℕ) (hB : e.shape.getD 0 0 = B) (hB' : e'.shape.getD 0 0 = B')
    (hne : B ≠ B') (h1 : B' ≠ 1) (g : Option ℕ) :
    (∀ g', ∃ y, (Call.mps m x).alone g' = .ok y ∧ y.shape = [B, m.outputDim]) ∧
    ∃ schedule r, Finished ((started g [.mps m x, .mps m' x']).exec schedule) 0 r ∧
      ∀ y, r = .ok y → B = 1 ∧ y.shape.head? = some B' := by
  refine ⟨fun g' => ?_, ?_⟩
  · obtain ⟨y, g2, y1, y2, _⟩ := mps_forward k ub p m h hD hs x e he B hB g' (Or.inl hk)
    exact ⟨y, by simp [Call.alone, y1], y2⟩
  have hk2 : 2 ≤ k := by have := hs.1; omega
  have hk2' : 2 ≤ k' := by have := hs'.1; omega
  obtain ⟨q, q1, q2⟩ := Threads.mps_first k ub p m h hk2 x e he B hB
  obtain ⟨q', q1', _⟩ := Threads.mps_first k' ub' p' m' h' hk2' x' e' he' B' hB'
  have hst : (started g [.mps m x, .mps m' x']) = ⟨g, [Threads.mpsForward m x, Threads.mpsForward m' x']⟩ := rfl
  rw [hst, q1, q1']
  obtain ⟨l1, e1⟩ := Threads.set_first 0 B (.read q) ⟨g, [_, .read (fun g => if g = some B' then .read q' else .write B' (.read q'))]⟩ rfl
  obtain ⟨l2, e2⟩ := Threads.set_first 1 B' (.read q') ⟨some B, [.read q, .read (fun g => if g = some B' then .read q' else .write B' (.read q'))]⟩ rfl
  obtain ⟨N, e3⟩ := exec_alone 0 (.read q) ⟨some B', [.read q, .read q']⟩ rfl
  refine ⟨l1 ++ (l2 ++ List.replicate N 0), (q (some B')).run (some B') |>.1, ?_, ?_⟩
  · unfold Finished
    rw [exec_append, e1, exec_append]
    have e2' : Process.exec ⟨some B, List.set [.read (fun g => if g = some B then .read q else .write B (.read q)),
      .read (fun g => if g = some B' then .read q' else .write B' (.read q'))] 0 (.read q)⟩ l2 = ⟨some B', [.read q, .read q']⟩ := e2
    rw [e2', e3]
    rfl
  · intro y hy
    obtain ⟨M, m1, m2⟩ := Threads.wp_run _ _ (q2 B') (some B') y hy
    have a1 := m2 B (by simp)
    have a2 := (m2 B' (by simp)).resolve_left h1
    rw [← a2] at a1
    exact ⟨a1.resolve_right hne, by rw [m1, a2]⟩

/-! ### Concrete cases -/

/-- a tensor of ones -/
def onesZ (sh : Shape) : Tensor ℤ := ⟨sh, fun _ => 1⟩

/-- two pixels, then the output core, with periodic boundary conditions -/
def raceMps : MPS ℤ := ⟨2, 1, 1, 1, true, false, none, none, [.inputRegion (onesZ [2, 1, 1, 1]) none, .outputSite (onesZ [1, 1, 1])]⟩

theorem raceMps_ok : IsMps 2 false ⟨onesZ [2, 1, 1, 1], onesZ [1, 1, 1], onesZ [1, 1, 1], onesZ [0, 1, 1, 1], onesZ [1, 1, 1]⟩ raceMps :=
  ⟨by decide, rfl, rfl, rfl, rfl, rfl, rfl⟩

theorem raceMps_embedded (B : ℕ) : Embedded raceMps (onesZ [B, 2, 1]) (onesZ [B, 2, 1]) := ⟨_, rfl, rfl⟩

/-- C94: extra rows do occur. Two threads evaluate the same model, one on a single sample, the other on two. There is a schedule in which the
first thread returns two rows for its one sample. -/
theorem C94_extra_rows : ∃ schedule y, Finished ((started none [.mps raceMps (onesZ [1, 2, 1]), .mps raceMps (onesZ [2, 2, 1])]).exec schedule) 0 (.ok y) ∧
    y.shape = [2, 1] :=
  ⟨[0, 0, 1, 1] ++ List.replicate 20 0, _, by unfold Finished; rfl, rfl⟩

/-- a TI_MPS -/
def raceTi : TiMps ℤ := ⟨1, 1, 1, false, false, false, none, onesZ [1, 1, 1], onesZ [1], onesZ [1, 1], none⟩

/-- the hypotheses of `C94_same_batch` and `C94_all_finish`: three threads with different models and batches of 3 samples -/
example : (∀ c ∈ [Call.mps raceMps (onesZ [3, 2, 1]), .ti raceTi (.batch (onesZ [3, 4, 1])), .mps raceMps (onesZ [3, 2, 1])], c.OnBatch 3 ∧ c.LabelInside) ∧
    ∀ i < 3, ∀ t, ∃ t' ≥ t, t' % 3 = i := by
  have hm : (Call.mps raceMps (onesZ [3, 2, 1])).OnBatch 3 ∧ (Call.mps raceMps (onesZ [3, 2, 1])).LabelInside :=
    ⟨⟨⟨2, false, _, raceMps_ok⟩, _, raceMps_embedded 3, rfl⟩, ⟨2, false, _, raceMps_ok, by decide⟩⟩
  refine ⟨?_, fun i hi t => ⟨3 * t + i, by omega, by omega⟩⟩
  intro c hc
  simp only [List.mem_cons, List.not_mem_nil, or_false] at hc
  rcases hc with rfl | rfl | rfl
  · exact hm
  · exact ⟨⟨⟨rfl, rfl, rfl, by simp [raceTi], by simp [raceTi]⟩, 4, Or.inl rfl⟩, trivial⟩
  · exact hm

/-- the hypotheses of `C94_race`: batches of 4 and 3 samples -/
example : ∀ g, ∃ schedule r, Finished ((started g [.mps raceMps (onesZ [4, 2, 1]), .mps raceMps (onesZ [3, 2, 1])]).exec schedule) 0 r ∧
    ∃ e, r = .error e := by
  intro g
  obtain ⟨_, s, r, h1, h2⟩ := C94_race 2 2 false false _ _ raceMps raceMps raceMps_ok raceMps_ok (by decide) (by decide) ⟨by decide, by decide⟩
    ⟨by decide, by decide⟩ (Or.inl rfl) _ _ _ _ (raceMps_embedded 4) (raceMps_embedded 3) 4 3 rfl rfl (by decide) (by decide) g
  refine ⟨s, r, h1, ?_⟩
  cases r with
  | ok y => exact absurd (h2 y rfl).1 (by decide)
  | error e => exact ⟨e, rfl⟩

end TorchMPS
