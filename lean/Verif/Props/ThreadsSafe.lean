import Verif.Lemmas.ThreadsSimMps
import Verif.Props.Threads
/-
C95: whatever other threads do, a call which returns has computed the right values.
-/
namespace TorchMPS
open Spec Prog
variable {K : Type} {α β : Type}

/-- C95: thread `i` evaluates an MPS on a batch of `B` samples, in a process where any other threads run any programs (other evaluations,
on other batch sizes, or code which assigns arbitrary batch sizes), under any schedule. If the call returns, then every row it returns
has exactly the value which the trained function has at that sample (at the single sample, if there is only one). As soon as the model has inputs,
the number of rows is the number of samples, except that the row of a single sample may have been repeated. -/
theorem C95_mps [CommRing K] (k : ℕ) (ub : Bool) (p : Params K) (m : MPS K) (h : IsMps k ub p m) (hs : NoShortRegion m.inputDim k)
    (hD : m.periodic = true ∨ 1 ≤ m.bondDim) (x e : Tensor K) (he : Embedded m x e) (B : ℕ) (hB : e.shape.getD 0 0 = B)
    (s : Process (Tensor K)) (i : ℕ) (hi : s.threads[i]? = some (Call.mps m x).program) (schedule : List ℕ) (y : Tensor K)
    (hy : Finished (s.exec schedule) i (.ok y)) :
    ∃ M, y.shape = [M, m.outputDim] ∧ (1 ≤ m.inputDim → B = 1 ∨ M = B) ∧ ∀ b < M, ∀ o < m.outputDim,
      y.get [b, o] = mpsValue m.bondDim m.featureDim m.inputDim k ub m.periodic p e (if B = 1 then 0 else b) o := by
  have hsh := Threads.embedded_head m x e he
  rw [hB] at hsh
  have hhead : e.shape.head? = some B := by rw [hsh]; rfl
  have hax := Threads.mps_outAxes k ub p m h
  have hi' : s.threads[i]? = some (Threads.linearForward m.modules m.periodic m.parallel e) := by
    rw [← Threads.mpsForward_embedded m x e he]; exact hi
  have key : ∀ b, ∃ y', Threads.Row b y y' ∧ y'.shape = [1, m.outputDim] ∧ ∀ o < m.outputDim,
      y'.get [0, o] = mpsValue m.bondDim m.featureDim m.inputDim k ub m.periodic p e (if B = 1 then 0 else b) o := by
    intro b
    obtain ⟨y', h1, h2⟩ := Threads.sim_exec _ _ _ (Threads.sim_linearForward b e (Threads.rowT b e) (Threads.row_rowT b e B hhead) m.modules hax
      m.periodic m.parallel) s i hi' schedule y hy
    rw [Threads.run_linearForward] at h1
    have hm : IsMps k ub p { m with path := none } := ⟨h.label, h.modules, h.left, h.leftBias, h.out, h.right, h.rightBias⟩
    have hr : (Threads.rowT b e).shape = [1, m.inputDim, m.featureDim] := by simp [Threads.rowT, hsh]
    have he' : Embedded { m with path := none } (Threads.rowT b e) (Threads.rowT b e) := ⟨_, rfl, embed_embedded { m with path := none } 1 _ hr⟩
    obtain ⟨z, g', z1, z2, z3⟩ := mps_forward k ub p _ hm hD hs _ _ he' 1 (by rw [hr]; rfl) (some 1) (Or.inr rfl)
    rw [forward_of_embedded _ _ _ he'] at z1
    have hz : y' = z := by
      have := z1.symm.trans h1
      simp only [Prod.mk.injEq, Except.ok.injEq] at this
      exact this.1.symm
    subst hz
    refine ⟨y', h2, z2, fun o ho => ?_⟩
    rw [z3 0 (by omega) o ho]
    have : e.shape.getD 0 0 = B := hB
    subst this
    rfl
  obtain ⟨y0, ⟨M, r, r1, r2, _⟩, z0, _⟩ := key 0
  have hr : r = [m.outputDim] := by rw [r2] at z0; exact (List.cons.inj z0).2
  rw [hr] at r1
  refine ⟨M, r1, fun hn => ?_, fun b hb o ho => ?_⟩
  · have hreg : ∃ t bias, Module.inputRegion t bias ∈ m.modules := by
      rw [h.modules]
      by_cases hk : k = 0
      · refine ⟨p.right, if ub then some p.rightBias else none, ?_⟩
        rw [if_neg (show ¬ k = m.inputDim by omega)]
        simp
      · refine ⟨p.left, if ub then some p.leftBias else none, ?_⟩
        rw [if_neg hk]
        simp
    obtain ⟨M', m1, m2⟩ := Threads.wp_exec _ _ (Threads.wp_rows e B hhead m.modules hax hreg m.periodic m.parallel) s i hi' schedule y hy
    rw [r1] at m1
    cases m1
    rcases m2 B (by simp) with h1 | h1
    · exact Or.inl h1
    · exact Or.inr h1.symm
  · obtain ⟨yb, ⟨M', r', q1, q2, q3⟩, z1, z2⟩ := key b
    rw [r1] at q1
    cases q1
    have := q3 (Or.inr hb) [o]
    rw [← z2 o ho, this]
    by_cases h1 : M = 1
    · have : b = 0 := by omega
      simp [h1, this]
    · simp [h1]

namespace Threads

theorem wp_any {α : Type} (p : Prog α) : Wp (fun _ => True) (fun _ => True) p (fun _ => True) := by
  induction p with
  | ret r => cases r <;> trivial
  | read k ih => exact fun g _ => ih g
  | write n k ih => exact ⟨trivial, ih⟩

theorem wp_ti_rows [CommRing K] (m : TiMps K) (inp : TiInput K) (x : Tensor K) (hf : m.formatInput inp = .ok x) :
    Wp (fun _ => True) (fun _ => True) (tiForward m inp) (fun y => y.shape.getD 0 0 = x.shape.getD 0 0) := by
  unfold tiForward
  rw [hf, Prog.lift_ok_bind]
  refine wp_lift_bind _ _ _ fun _ _ => wp_lift_bind _ _ _ fun _ _ => wp_bind _ _ _ _ (wp_any _) fun _ _ => wp_bind _ _ _ _ (wp_any _) fun _ _ =>
    wp_bind _ _ _ _ (wp_any _) fun _ _ => wp_bind _ _ _ _ (wp_any _) fun o _ => wp_lift_bind _ _ _ fun _ _ => wp_lift_bind _ _ _ fun _ h => ?_
  refine wp_lift_bind _ _ _ fun _ _ => wp_pure _ _ ?_
  rwa [assert_ok_iff] at h

end Threads

/-- C95: thread `i` evaluates a TI_MPS on `B` sequences, in a process where any other threads run any programs, under any schedule. If the call
returns, then it returns one row per sequence, with exactly the values it has alone. -/
theorem C95_ti [CommRing K] (m : TiMps K) (h : IsTi m) (inp : TiInput K) (B n : ℕ) (ha : TiAccepts m B n inp) (hn : 1 ≤ n)
    (s : Process (Tensor K)) (i : ℕ) (hi : s.threads[i]? = some (Call.ti m inp).program) (schedule : List ℕ) (y : Tensor K)
    (hy : Finished (s.exec schedule) i (.ok y)) :
    y.shape = [B, m.outputDim] ∧ ∀ b < B, ∀ o < m.outputDim, y.get [b, o] = tiValue m n (tiEntry m inp b) o := by
  obtain ⟨x, x1, x2, x3⟩ := C69_accepted m B n inp ha
  have key : ∀ b, ∃ y', Threads.Row b y y' ∧ y'.shape = [1, m.outputDim] ∧ ∀ o < m.outputDim,
      y'.get [0, o] = tiValue m n (seqOf x (if B = 1 then 0 else b)) o := by
    intro b
    obtain ⟨y', h1, h2⟩ := Threads.sim_exec _ _ _ (Threads.sim_ti b m h B n inp x x1 x2) s i hi schedule y hy
    rw [Threads.run_tiForward] at h1
    have hr : (Threads.rowT b x).shape = [1, n, m.featureDim] := by simp [Threads.rowT, x2]
    obtain ⟨z, z1, z2, z3⟩ := ti_forward m h (.batch (Threads.rowT b x)) _ (Threads.format_own m _ 1 n hr) 1 n hr hn (some 1)
    have hz : y' = z := by
      have := z1.symm.trans h1
      simp only [Prod.mk.injEq, Except.ok.injEq] at this
      exact this.1.symm
    subst hz
    refine ⟨y', h2, z2, fun o ho => ?_⟩
    rw [z3 0 (by omega) o ho]
    have : seqOf (Threads.rowT b x) 0 = seqOf x (if B = 1 then 0 else b) := by
      funext j f
      simp [seqOf, Threads.rowT, x2]
    rw [this]
  have hrows := Threads.wp_exec _ _ (Threads.wp_ti_rows m inp x x1) s i hi schedule y hy
  obtain ⟨y0, ⟨M, r, r1, r2, _⟩, z0, _⟩ := key 0
  have hr : r = [m.outputDim] := by rw [r2] at z0; exact (List.cons.inj z0).2
  rw [r1, x2] at hrows
  have hM : M = B := hrows
  rw [hr, hM] at r1
  refine ⟨r1, fun b hb o ho => ?_⟩
  obtain ⟨yb, ⟨M', r', q1, q2, q3⟩, z1, z2⟩ := key b
  rw [r1] at q1
  cases q1
  have h2 := q3 (Or.inr hb) [o]
  have hbb : (if B = 1 then 0 else b) = b := by
    split
    · omega
    · rfl
  rw [hbb] at h2
  rw [← h2, z2 o ho, hbb]
  exact tiValue_congr m _ _ n (fun i hi f hf => x3 b hb i hi f hf) o

/-! ### Concrete cases -/

/-- the hypotheses of `C95_mps` are met by calls which return although another thread interferes: the run of `C94_extra_rows`, whose two rows both are
the value at the only sample -/
example : ∃ schedule y, Finished ((started none [.mps raceMps (onesZ [1, 2, 1]), .mps raceMps (onesZ [2, 2, 1])]).exec schedule) 0 (.ok y) ∧
    y.get [0, 0] = 1 ∧ y.get [1, 0] = 1 := by
  obtain ⟨schedule, y, h1, h2⟩ := C94_extra_rows
  obtain ⟨M, m1, _, m3⟩ := C95_mps 2 false _ raceMps raceMps_ok ⟨by decide, by decide⟩ (Or.inl rfl) _ _ (raceMps_embedded 1) 1 rfl _ 0 rfl schedule y h1
  rw [h2] at m1
  cases m1
  exact ⟨schedule, y, h1, (m3 0 (by omega) 0 (by decide)).trans rfl, (m3 1 (by omega) 0 (by decide)).trans rfl⟩

/-- the hypotheses of `C95_ti`: a call which finishes between two accesses of a thread with another batch size -/
example : ∃ schedule y, Finished ((started none [.ti raceTi (.batch (onesZ [3, 2, 1])), .mps raceMps (onesZ [2, 2, 1])]).exec schedule) 0 (.ok y) ∧
    y.shape = [3, 1] := by
  have hrun : ∃ y, Finished ((started none [.ti raceTi (.batch (onesZ [3, 2, 1])), .mps raceMps (onesZ [2, 2, 1])]).exec ([1, 1] ++ List.replicate 30 0 ++ [1])) 0
    (.ok y) := ⟨_, by unfold Finished; rfl⟩
  obtain ⟨y, hy⟩ := hrun
  exact ⟨_, y, hy, (C95_ti raceTi ⟨rfl, rfl, rfl, by simp [raceTi], by simp [raceTi]⟩ (.batch (onesZ [3, 2, 1])) 3 2 (Or.inl rfl) (by decide) _ 0 rfl _ y hy).1⟩

end TorchMPS
