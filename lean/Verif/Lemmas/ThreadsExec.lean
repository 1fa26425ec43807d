import Verif.Lemmas.ThreadsWp
/-
Interleavings of the accesses of several threads.
-/
namespace TorchMPS
open Prog
variable {α β : Type}

/-- All writes are `n` as long as all reads return `n`. -/
def Prog.Keeps (n : ℕ) (p : Prog α) : Prop := Prog.Wp (· = some n) (· = n) p (fun _ => True)

/-- The thread sets the value to `n` before it uses it (or fails first, with `r`), and goes on with `q`. -/
def Prog.Sets (n : ℕ) (p : Prog α) : Prop :=
  (∃ r, p = .ret r) ∨ ∃ q, p = .read (fun g => if g = some n then q else .write n q)

/-- Invariant of a thread which will end with `r`. -/
def Prog.Fine (n : ℕ) (g : Option ℕ) (p : Prog α) (r : Except Err α) : Prop :=
  (g = some n ∧ p.Keeps n ∧ (p.run (some n)).1 = r) ∨
  p = .ret r ∨
  (∃ q : Prog α, p = .read (fun g => if g = some n then q else .write n q) ∧ q.Keeps n ∧ (q.run (some n)).1 = r) ∨
  (∃ q : Prog α, p = .write n q ∧ q.Keeps n ∧ (q.run (some n)).1 = r)

theorem Fine.ret {n : ℕ} {g : Option ℕ} {r r' : Except Err α} (h : Prog.Fine n g (.ret r') r) : r' = r := by
  rcases h with ⟨_, _, h⟩ | h | ⟨q, h, _⟩ | ⟨q, h, _⟩
  · exact h
  · exact Prog.ret.inj h
  · cases h
  · cases h

/-- a step of the thread itself -/
theorem Fine.step {n : ℕ} {g : Option ℕ} {p : Prog α} {r : Except Err α} (h : p.Fine n g r) :
    (p.step g).2.Fine n (p.step g).1 r ∧ ((p.step g).1 = g ∨ (p.step g).1 = some n) := by
  rcases h with ⟨h1, h2, h3⟩ | h | ⟨q, h, h2, h3⟩ | ⟨q, h, h2, h3⟩
  · cases p with
    | ret r' => exact ⟨Or.inl ⟨h1, h2, h3⟩, Or.inl rfl⟩
    | read k =>
      subst h1
      exact ⟨Or.inl ⟨rfl, h2 (some n) rfl, h3⟩, Or.inl rfl⟩
    | write m k =>
      obtain ⟨h4, h5⟩ := h2
      have h4 : m = n := h4
      subst h4
      exact ⟨Or.inl ⟨rfl, h5, h3⟩, Or.inr rfl⟩
  · subst h
    exact ⟨Or.inr (Or.inl rfl), Or.inl rfl⟩
  · subst h
    refine ⟨?_, Or.inl rfl⟩
    simp only [Prog.step]
    split
    · rename_i hg
      exact Or.inl ⟨hg, h2, h3⟩
    · exact Or.inr (Or.inr (Or.inr ⟨q, rfl, h2, h3⟩))
  · subst h
    exact ⟨Or.inl ⟨rfl, h2, h3⟩, Or.inr rfl⟩

/-- a step of another thread -/
theorem Fine.other {n : ℕ} {g g' : Option ℕ} {p : Prog α} {r : Except Err α} (h : p.Fine n g r) (hg : g' = g ∨ g' = some n) :
    p.Fine n g' r := by
  rcases h with ⟨h1, h2, h3⟩ | h | h | h
  · refine Or.inl ⟨?_, h2, h3⟩
    rcases hg with hg | hg
    · rw [hg, h1]
    · exact hg
  · exact Or.inr (Or.inl h)
  · exact Or.inr (Or.inr (Or.inl h))
  · exact Or.inr (Or.inr (Or.inr h))

/-- all threads are fine -/
def AllFine (n : ℕ) (rs : ℕ → Except Err α) (s : Process α) : Prop :=
  ∀ (i : ℕ) (p : Prog α), s.threads[i]? = some p → p.Fine n s.globalBs (rs i)

theorem AllFine.step {n : ℕ} {rs : ℕ → Except Err α} {s : Process α} (h : AllFine n rs s) (i : ℕ) : AllFine n rs (s.step i) := by
  unfold Process.step
  cases hi : s.threads[i]? with
  | none => exact h
  | some p =>
    obtain ⟨h1, h2⟩ := Fine.step (h i p hi)
    intro j q hj
    simp only at hj ⊢
    rw [List.getElem?_set] at hj
    split at hj
    · rename_i hij
      subst hij
      split at hj
      · cases hj
        exact h1
      · cases hj
    · exact Fine.other (h j q hj) h2

theorem AllFine.exec {n : ℕ} {rs : ℕ → Except Err α} (sched : List ℕ) {s : Process α} (h : AllFine n rs s) : AllFine n rs (s.exec sched) := by
  induction sched generalizing s with
  | nil => exact h
  | cons i l ih => exact ih (h.step i)

theorem fine_start (n : ℕ) (g : Option ℕ) (p : Prog α) (hk : p.Keeps n) (h : g = some n ∨ p.Sets n) : p.Fine n g (p.run (some n)).1 := by
  rcases h with h | ⟨r, h⟩ | ⟨q, h⟩
  · exact Or.inl ⟨h, hk, rfl⟩
  · subst h
    exact Or.inr (Or.inl rfl)
  · subst h
    refine Or.inr (Or.inr (Or.inl ⟨q, rfl, ?_, ?_⟩))
    · have := hk (some n) rfl
      simp only [if_true] at this
      exact this
    · simp [Prog.run]

theorem sets_run (n : ℕ) (p : Prog α) (h : p.Sets n) (g : Option ℕ) : (p.run g).1 = (p.run (some n)).1 := by
  rcases h with ⟨r, h⟩ | ⟨q, h⟩
  · subst h; rfl
  · subst h
    simp only [Prog.run, if_true]
    split
    · rename_i hg; rw [hg]
    · rfl

theorem sets_lift_bind (n : ℕ) (x : Except Err β) (f : β → Prog α) (h : ∀ a, x = .ok a → (f a).Sets n) : Prog.Sets n (.lift x >>= f) := by
  cases x with
  | ok a => exact h a rfl
  | error e => exact Or.inl ⟨.error e, rfl⟩

/-- like `Sets`, for a part of a thread which ends with a value only after having set `n` -/
def Prog.SetsFirst (n : ℕ) (p : Prog α) : Prop :=
  (∃ e, p = .ret (.error e)) ∨ ∃ q, p = .read (fun g => if g = some n then q else .write n q)

theorem SetsFirst.bind {n : ℕ} {p : Prog β} (h : p.SetsFirst n) (f : β → Prog α) : (p >>= f).SetsFirst n := by
  rcases h with ⟨e, h⟩ | ⟨q, h⟩
  · subst h
    exact Or.inl ⟨e, rfl⟩
  · subst h
    refine Or.inr ⟨q >>= f, ?_⟩
    show Prog.read _ = _
    congr 1
    funext g
    show (if g = some n then q else Prog.write n q) >>= f = _
    split <;> rfl

theorem SetsFirst.sets {n : ℕ} {p : Prog α} (h : p.SetsFirst n) : p.Sets n := by
  rcases h with ⟨e, h⟩ | h
  · exact Or.inl ⟨_, h⟩
  · exact Or.inr h

theorem setsFirst_lift_bind (n : ℕ) (x : Except Err β) (f : β → Prog α) (h : ∀ a, x = .ok a → (f a).SetsFirst n) :
    Prog.SetsFirst n (.lift x >>= f) := by
  cases x with
  | ok a => exact h a rfl
  | error e => exact Or.inl ⟨e, rfl⟩

/-! ### Executions -/

theorem exec_append (s : Process α) (a b : List ℕ) : s.exec (a ++ b) = (s.exec a).exec b := by
  unfold Process.exec
  rw [List.foldl_append]

theorem step_at (s : Process α) (i : ℕ) (p : Prog α) (h : s.threads[i]? = some p) :
    s.step i = ⟨(p.step s.globalBs).1, s.threads.set i (p.step s.globalBs).2⟩ := by
  unfold Process.step
  rw [h]

/-- a thread running alone to its end -/
theorem exec_alone (i : ℕ) (p : Prog α) (s : Process α) (h : s.threads[i]? = some p) :
    ∃ N, s.exec (List.replicate N i) = ⟨(p.run s.globalBs).2, s.threads.set i (.ret (p.run s.globalBs).1)⟩ := by
  induction p generalizing s with
  | ret r =>
    refine ⟨0, ?_⟩
    show s = _
    obtain ⟨g, th⟩ := s
    simp only [Prog.run, Process.mk.injEq, true_and]
    simp only at h
    refine List.ext_getElem? fun j => ?_
    rw [List.getElem?_set]
    split
    · rename_i hij
      subst hij
      rw [h, if_pos (List.getElem?_eq_some_iff.1 h).1]
    · rfl
  | read k ih =>
    have hi : i < s.threads.length := (List.getElem?_eq_some_iff.1 h).1
    obtain ⟨N, hN⟩ := ih s.globalBs ⟨s.globalBs, s.threads.set i (k s.globalBs)⟩ (by simp [hi])
    refine ⟨N + 1, ?_⟩
    rw [List.replicate_succ]
    show (s.step i).exec _ = _
    rw [step_at s i _ h]
    simp only [Prog.step]
    rw [hN]
    simp [Prog.run]
  | write n k ih =>
    have hi : i < s.threads.length := (List.getElem?_eq_some_iff.1 h).1
    obtain ⟨N, hN⟩ := ih ⟨some n, s.threads.set i k⟩ (by simp [hi])
    refine ⟨N + 1, ?_⟩
    rw [List.replicate_succ]
    show (s.step i).exec _ = _
    rw [step_at s i _ h]
    simp only [Prog.step]
    rw [hN]
    simp [Prog.run]

theorem step_length (s : Process α) (i : ℕ) : (s.step i).threads.length = s.threads.length := by
  unfold Process.step
  cases s.threads[i]? <;> simp

theorem exec_length (sched : List ℕ) (s : Process α) : (s.exec sched).threads.length = s.threads.length := by
  induction sched generalizing s with
  | nil => rfl
  | cons i l ih =>
    show ((s.step i).exec l).threads.length = _
    rw [ih, step_length]

/-- Under a schedule in which thread `i` gets its turn again and again it comes to its end. -/
theorem exec_finishes (σ : ℕ → ℕ) (i : ℕ) (hσ : ∀ t, ∃ t' ≥ t, σ t' = i) (p : Prog α) (s : Process α) (t : ℕ)
    (h : (s.exec ((List.range t).map σ)).threads[i]? = some p) :
    ∃ N, ∀ n ≥ N, ∃ r, (s.exec ((List.range n).map σ)).threads[i]? = some (.ret r) := by
  have hsucc : ∀ t, s.exec ((List.range (t + 1)).map σ) = (s.exec ((List.range t).map σ)).step (σ t) := by
    intro t
    rw [List.range_succ, List.map_append, exec_append]
    rfl
  have hnext : ∀ t q, (s.exec ((List.range t).map σ)).threads[i]? = some q →
      ∃ t', ∃ g : Option ℕ, (s.exec ((List.range t').map σ)).threads[i]? = some (q.step g).2 := by
    intro t q hq
    obtain ⟨t', ht', hi⟩ := hσ t
    have hsame : ∃ u, σ u = i ∧ (s.exec ((List.range u).map σ)).threads[i]? = some q := by
      by_contra hcon
      push Not at hcon
      have : ∀ d, ∀ u, u = t + d → u ≤ t' → (s.exec ((List.range u).map σ)).threads[i]? = some q := by
        intro d
        induction d with
        | zero => intro u hu _; rw [hu]; exact hq
        | succ d ih =>
          intro u hu hle
          have hprev := ih (t + d) rfl (by omega)
          have hne : σ (t + d) ≠ i := fun he => hcon _ he hprev
          rw [hu, ← Nat.add_assoc, hsucc]
          unfold Process.step
          cases hth : (s.exec ((List.range (t + d)).map σ)).threads[σ (t + d)]? with
          | none => exact hprev
          | some w =>
            simp only
            rw [List.getElem?_set_ne hne]
            exact hprev
      exact hcon t' hi (this (t' - t) t' (by omega) le_rfl)
    obtain ⟨u, hu, hqu⟩ := hsame
    refine ⟨u + 1, (s.exec ((List.range u).map σ)).globalBs, ?_⟩
    rw [hsucc, hu, step_at _ i q hqu]
    simp only
    rw [List.getElem?_set_self (List.getElem?_eq_some_iff.1 hqu).1]
  induction p generalizing t with
  | ret r =>
    refine ⟨t, fun n hn => ⟨r, ?_⟩⟩
    induction n, hn using Nat.le_induction with
    | base => exact h
    | succ n hn ih =>
      rw [hsucc]
      by_cases hi : σ n = i
      · rw [hi, step_at _ i _ ih]
        simp only [Prog.step]
        rw [List.getElem?_set_self (List.getElem?_eq_some_iff.1 ih).1]
      · unfold Process.step
        cases (s.exec ((List.range n).map σ)).threads[σ n]? with
        | none => exact ih
        | some w =>
          simp only
          rw [List.getElem?_set_ne hi]
          exact ih
  | read k ih =>
    obtain ⟨t', g, ht'⟩ := hnext t _ h
    exact ih g t' ht'
  | write m k ih =>
    obtain ⟨t', g, ht'⟩ := hnext t _ h
    exact ih t' ht'

end TorchMPS
