import Verif.Spec.Cost
import Verif.Lemmas.ArithEval
/-
Counting the work of the reductions.
-/
namespace TorchMPS
open Spec

/-- no work went into this matrix -/
def Mat.Idle (A : Mat Work) : Prop := A.work = 0

theorem cost_seqStep (P m : Mat Work) (l : Unit) : costOps.seqStep (some (P, l)) m = some (costOps.mm P m, ()) := by
  simp [Arith.seqStep, costOps]

/-- the left-to-right loop -/
theorem cost_foldl (ms : List (Mat Work)) : ∀ (P : Mat Work), (∀ x ∈ ms, x.Idle) → ChainOK (P :: ms) →
    ∃ Q, ms.foldl costOps.seqStep (some (P, ())) = some (Q, ()) ∧ (ms = [] → Q = P) ∧
      (ms ≠ [] → ∀ i j, Q.e i j = (P.work.1 + rowCost P.r ((P :: ms).map Mat.c), P.work.2 + ms.length)) := by
  induction ms with
  | nil => intro P _ _; exact ⟨P, rfl, fun _ => rfl, fun h => absurd rfl h⟩
  | cons m ms ih =>
    intro P hz hc
    have hm : m.work = 0 := hz m (by simp)
    have hc' : ChainOK (costOps.mm P m :: ms) := by
      cases ms with
      | nil => trivial
      | cons x xs => exact ⟨hc.2.1, hc.2.2⟩
    obtain ⟨Q, h1, h2, h3⟩ := ih (costOps.mm P m) (fun x hx => hz x (by simp [hx])) hc'
    have hw : (costOps.mm P m).work = (P.work.1 + P.r * P.c * m.c, P.work.2 + 1) := by
      simp [costOps, Mat.work] at hm ⊢
      rw [hm]; simp
    refine ⟨Q, ?_, by simp, ?_⟩
    · rw [List.foldl_cons, cost_seqStep]; exact h1
    · intro _ i j
      cases ms with
      | nil =>
        rw [h2 rfl]
        have : (costOps.mm P m).e i j = (costOps.mm P m).work := rfl
        rw [this, hw]
        simp [rowCost]
      | cons x xs =>
        rw [h3 (by simp) i j, hw]
        have e1 : (costOps.mm P m).r = P.r := rfl
        have e2 : (costOps.mm P m).c = m.c := rfl
        simp only [List.map_cons, e1, e2, rowCost, List.length_cons, Prod.mk.injEq]
        constructor <;> ring

theorem chainSizes_reverse (m : Mat Work) (ms : List (Mat Work)) (hc : ChainOK (m :: ms)) (m' : Mat Work) (ms' : List (Mat Work))
    (h : (m :: ms).reverse.map Mat.transpose = m' :: ms') : chainSizes m' ms' = (chainSizes m ms).reverse := by
  have key : ∀ (ms : List (Mat Work)) (m : Mat Work), ChainOK (m :: ms) → ∀ m' ms', (m :: ms).reverse.map Mat.transpose = m' :: ms' →
      chainSizes m' ms' = (chainSizes m ms).reverse := by
    intro ms
    induction ms with
    | nil =>
      intro m _ m' ms' h
      simp only [List.reverse_cons, List.reverse_nil, List.nil_append, List.map_cons, List.map_nil, List.cons.injEq] at h
      obtain ⟨rfl, rfl⟩ := h
      rfl
    | cons x xs ih =>
      intro m hc m' ms' h
      rcases hx : (x :: xs).reverse.map Mat.transpose with _ | ⟨y, ys⟩
      · simp at hx
      have := ih x hc.2 y ys hx
      rw [List.reverse_cons, List.map_append, hx] at h
      simp only [List.map_cons, List.map_nil, List.cons_append, List.cons.injEq] at h
      obtain ⟨rfl, rfl⟩ := h
      simp only [chainSizes, List.map_cons, List.map_append, List.map_nil, List.reverse_cons] at this ⊢
      rw [← List.cons_append, ← List.cons_append, this]
      have e : m.transpose.c = m.r := rfl
      rw [e, hc.1]
  exact key ms m hc m' ms' h

theorem workChain_reverse (m : Mat Work) (ms : List (Mat Work)) (hc : ChainOK (m :: ms)) : ChainOK ((m :: ms).reverse.map Mat.transpose) := by
  rw [chainOK_iff] at hc ⊢
  rw [List.isChain_map, List.isChain_reverse]
  exact hc.imp (fun _ _ h => h.symm)

theorem leftCost_chain (m : Mat Work) (ms : List (Mat Work)) : leftCost (chainSizes m ms) = rowCost m.r ((m :: ms).map Mat.c) := rfl

/-- `mat_reduce_seq` -/
theorem cost_reduceSeq (m : Mat Work) (ms : List (Mat Work)) (hz : ∀ x ∈ m :: ms, x.Idle) (hc : ChainOK (m :: ms)) :
    ∃ Q, costOps.reduceSeq m ms = some (Q, ()) ∧ (ms = [] → Q = m) ∧
      (ms ≠ [] → ∀ i j, Q.e i j = (if ((m :: ms).getLast (by simp)).c < m.r then rightCost (chainSizes m ms) else leftCost (chainSizes m ms), ms.length)) := by
  unfold Arith.reduceSeq
  simp only
  split
  · rename_i hlt
    rcases hx : (m :: ms).reverse.map Mat.transpose with _ | ⟨y, ys⟩
    · simp at hx
    have hz' : ∀ x ∈ y :: ys, x.Idle := by
      rw [← hx]
      intro x hx
      obtain ⟨z, hz1, rfl⟩ := List.mem_map.1 hx
      exact hz z (List.mem_reverse.1 hz1)
    have hl : ys.length = ms.length := by
      have := congrArg List.length hx
      simpa using this.symm
    obtain ⟨Q, h1, h2, h3⟩ := cost_foldl ys y (fun x hx => hz' x (by simp [hx])) (hx ▸ workChain_reverse m ms hc)
    refine ⟨Q.transpose, ?_, ?_, ?_⟩
    · simp only
      have : (0 : Unit) = () := rfl
      rw [this, h1]; rfl
    · rintro rfl
      have hys : ys = [] := by simpa using hl
      rw [h2 hys]
      simp only [List.reverse_cons, List.reverse_nil, List.nil_append, List.map_cons, List.map_nil, List.cons.injEq] at hx
      rw [← hx.1]; rfl
    · intro hne i j
      have hys : ys ≠ [] := by
        intro h; apply hne; rw [h] at hl; simpa using hl.symm
      have := h3 hys j i
      have e : Q.transpose.e i j = Q.e j i := rfl
      rw [e, this]
      have hy : y.work = 0 := hz' y (by simp)
      rw [hy, ← leftCost_chain, chainSizes_reverse m ms hc y ys hx, hl]
      simp [rightCost]
  · obtain ⟨Q, h1, h2, h3⟩ := cost_foldl ms m (fun x hx => hz x (by simp [hx])) hc
    refine ⟨Q, h1, h2, ?_⟩
    intro hne i j
    have hm : m.work = 0 := hz m (by simp)
    rw [h3 hne i j, hm, ← leftCost_chain]
    simp

/-! ### Parallel reduction -/

theorem pairBy_work (D k : ℕ) : ∀ ms : List (Mat Work), (∀ x ∈ ms, x.r = D ∧ x.c = D ∧ x.work.2 ≤ k) →
    (∀ x ∈ pairBy costOps.mm ms, x.r = D ∧ x.c = D ∧ x.work.2 ≤ k + 1) ∧
    ((pairBy costOps.mm ms).map (fun x => x.work.1)).sum = (ms.map (fun x => x.work.1)).sum + ms.length / 2 * D ^ 3
  | [], _ => by simp [pairBy]
  | [a], h => by
    obtain ⟨h1, h2, h3⟩ := h a (by simp)
    refine ⟨?_, by simp [pairBy]⟩
    intro x hx
    simp only [pairBy, List.mem_singleton] at hx
    subst hx
    exact ⟨h1, h2, by omega⟩
  | a :: b :: l, h => by
    obtain ⟨ih1, ih2⟩ := pairBy_work D k l (fun x hx => h x (by simp [hx]))
    obtain ⟨a1, a2, a3⟩ := h a (by simp)
    obtain ⟨b1, b2, b3⟩ := h b (by simp)
    have hw : (costOps.mm a b).work = (a.work.1 + b.work.1 + a.r * a.c * b.c, max a.work.2 b.work.2 + 1) := rfl
    constructor
    · intro x hx
      rw [pairBy] at hx
      rcases List.mem_cons.1 hx with rfl | hx
      · refine ⟨a1, b2, ?_⟩
        rw [hw]
        simp only
        omega
      · exact ih1 x hx
    · rw [pairBy, List.map_cons, List.sum_cons, ih2, hw]
      simp only [List.map_cons, List.sum_cons, List.length_cons]
      have : (l.length + 1 + 1) / 2 = l.length / 2 + 1 := by omega
      rw [this, a1, a2, b2]
      ring

theorem pairBy_head (k : ℕ) (a b : Mat Work) (l : List (Mat Work)) (ha : a.work.2 = k) (hb : b.work.2 ≤ k) :
    ∃ l', pairBy costOps.mm (a :: b :: l) = costOps.mm a b :: l' ∧ (costOps.mm a b).work.2 = k + 1 := by
  refine ⟨pairBy costOps.mm l, by rw [pairBy], ?_⟩
  have hw : (costOps.mm a b).work = (a.work.1 + b.work.1 + a.r * a.c * b.c, max a.work.2 b.work.2 + 1) := rfl
  rw [hw]
  simp only
  omega

theorem cost_parStep (D : ℕ) (ms : List (Mat Work)) (l : Unit) : costOps.parStep D ms l = some (pairBy costOps.mm ms, ()) := by
  have h : ¬ ∃ r ∈ (costOps.parPairs ms).map (costOps.scale (D : ℝ)), costOps.isZero r := by
    rintro ⟨r, -, hr⟩; exact hr
  simp only [Arith.parStep]
  rw [if_neg h, Arith.parPairs_eq]
  have : (fun m => costOps.div m (costOps.scale (D : ℝ) m)) = id := rfl
  rw [this, List.map_id]

theorem pairBy_length (ms : List (Mat Work)) : (pairBy costOps.mm ms).length = (ms.length + 1) / 2 := by
  rw [← Arith.parPairs_eq, Arith.parPairs_length]; omega

theorem cost_parLoop (E D : ℕ) : ∀ (n k : ℕ) (ms : List (Mat Work)), ms.length = n → 1 ≤ n →
    (∀ x ∈ ms, x.r = D ∧ x.c = D ∧ x.work.2 ≤ k) → (∀ x xs, ms = x :: xs → x.work.2 = k) →
    ∃ Q, costOps.parLoop E ms () = some (Q, ()) ∧ Q.r = D ∧ Q.c = D ∧ (n = 1 → ms = [Q]) ∧ (1 < n → ∀ i j, Q.e i j = Q.work) ∧
      Q.work = ((ms.map (fun x => x.work.1)).sum + (n - 1) * D ^ 3, k + Nat.clog 2 n) := by
  intro n
  induction n using Nat.strong_induction_on with
  | _ n ih =>
    intro k ms hn h1 hall hhead
    rcases Nat.lt_or_ge 1 n with hlt | hge
    · rcases ms with _ | ⟨a, _ | ⟨b, l⟩⟩
      · simp at hn; omega
      · simp at hn; omega
      have hl : 1 < (a :: b :: l).length := by omega
      obtain ⟨p1, p2⟩ := pairBy_work D k _ hall
      obtain ⟨l', q1, q2⟩ := pairBy_head k a b l (hhead a _ rfl) (hall b (by simp)).2.2
      have hlen := pairBy_length (a :: b :: l)
      rw [hn] at hlen p2
      obtain ⟨Q, r1, r2, r3, r4, r5, r6⟩ := ih ((n + 1) / 2) (by omega) (k + 1) _ hlen (by omega) p1 (by
        intro x xs he
        rw [q1] at he
        injection he with he1 he2
        rw [← he1]; exact q2)
      refine ⟨Q, ?_, r2, r3, by omega, ?_, ?_⟩
      · rw [Arith.parLoop_step _ _ _ _ hl, cost_parStep]
        exact r1
      · intro _
        rcases Nat.lt_or_ge 1 ((n + 1) / 2) with h | h
        · exact r5 h
        · have h4 := r4 (by omega)
          rw [q1] at h4
          injection h4 with h4 _
          intro i j
          rw [← h4]; rfl
      · rw [r6, p2]
        have hc : Nat.clog 2 n = Nat.clog 2 ((n + 1) / 2) + 1 := by
          rw [Nat.clog_of_two_le (by omega) (by omega)]; rfl
        rw [hc]
        have hs : (n + 1) / 2 - 1 + n / 2 = n - 1 := by omega
        refine Prod.ext ?_ ?_
        · simp only
          rw [← hs]; ring
        · simp only; omega
    · have : n = 1 := by omega
      subst this
      rcases ms with _ | ⟨a, _ | ⟨b, l⟩⟩
      · simp at hn
      · refine ⟨a, ?_, (hall a (by simp)).1, (hall a (by simp)).2.1, fun _ => rfl, by omega, ?_⟩
        · rw [Arith.parLoop, dif_neg (by simp)]
        · have := hhead a [] rfl
          refine Prod.ext ?_ ?_
          · simp
          · simp [this]
      · simp at hn

/-- `mat_reduce_par` -/
theorem cost_reducePar (D E : ℕ) (ms : List (Mat Work)) (hne : ms ≠ []) (hz : ∀ x ∈ ms, x.Idle ∧ x.r = D ∧ x.c = D) :
    ∃ Q, costOps.reducePar E ms = some (Q, ()) ∧ Q.r = D ∧ Q.c = D ∧ (ms.length = 1 → ms = [Q]) ∧ (1 < ms.length → ∀ i j, Q.e i j = Q.work) ∧
      Q.work = ((ms.length - 1) * D ^ 3, Nat.clog 2 ms.length) := by
  have hw : ∀ x ∈ ms, x.work = 0 := fun x hx => (hz x hx).1
  have hsum : (ms.map (fun x => x.work.1)).sum = 0 := by
    rw [List.sum_eq_zero_iff]
    intro y hy
    obtain ⟨x, hx, rfl⟩ := List.mem_map.1 hy
    rw [hw x hx]; rfl
  have hall : ∀ x ∈ ms, x.r = D ∧ x.c = D ∧ x.work.2 ≤ 0 := fun x hx => ⟨(hz x hx).2.1, (hz x hx).2.2, by rw [hw x hx]; simp⟩
  have hpos : 1 ≤ ms.length := List.length_pos_iff.2 hne
  obtain ⟨Q, r1, r2, r3, r4, r5, r6⟩ := cost_parLoop E D ms.length 0 ms rfl hpos hall (by
    rintro x xs rfl; rw [hw x (by simp)]; rfl)
  refine ⟨Q, ?_, r2, r3, r4, r5, by rw [r6, hsum]; simp⟩
  rcases ms with _ | ⟨a, _ | ⟨b, l⟩⟩
  · exact absurd rfl hne
  · obtain rfl : a = Q := by simpa using r4 rfl
    rfl
  · exact r1

end TorchMPS
