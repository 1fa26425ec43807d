import Verif.Model.AdaptiveHeap
import Verif.Props.AdaptiveInactive
/-
The computations on references do what the computations on values do.
-/
namespace TorchMPS
open Spec

/-- objects were added, none was changed -/
def Grows (h h' : Heap) : Prop := h.next ≤ h'.next ∧ ∀ i < h.next, h'.mem i = h.mem i

theorem grows_refl (h : Heap) : Grows h h := ⟨le_refl _, fun _ _ => rfl⟩

theorem grows_trans {h h' h'' : Heap} (a : Grows h h') (b : Grows h' h'') : Grows h h'' :=
  ⟨a.1.trans b.1, fun i hi => (b.2 i (lt_of_lt_of_le hi a.1)).trans (a.2 i hi)⟩

/-- all objects exist -/
def Live (h : Heap) (l : List ℕ) : Prop := ∀ i ∈ l, i < h.next

theorem live_grows {h h' : Heap} {l : List ℕ} (g : Grows h h') (a : Live h l) : Live h' l := fun i hi => lt_of_lt_of_le (a i hi) g.1

theorem vals_grows {h h' : Heap} {l : List ℕ} (g : Grows h h') (a : Live h l) : h'.vals l = h.vals l := by
  unfold Heap.vals
  exact List.map_congr_left (fun i hi => g.2 i (a i hi))

theorem vals_nil (h : Heap) : h.vals [] = [] := rfl
theorem vals_cons (h : Heap) (i : ℕ) (l : List ℕ) : h.vals (i :: l) = h.mem i :: h.vals l := rfl
theorem vals_append (h : Heap) (l l' : List ℕ) : h.vals (l ++ l') = h.vals l ++ h.vals l' := List.map_append
theorem vals_length (h : Heap) (l : List ℕ) : (h.vals l).length = l.length := List.length_map ..

/-- The result of a computation with the objects `l`: distinct existing objects, each one of `l` or a new one, with the values `ms`; objects which were there
before are not changed. -/
structure Got (h : Heap) (l ids : List ℕ) (h' : Heap) (ms : List (Module ℝ)) : Prop where
  grows : Grows h h'
  live : Live h' ids
  nodup : ids.Nodup
  origin : ∀ i ∈ ids, i ∈ l ∨ h.next ≤ i
  vals : h'.vals ids = ms

theorem alloc_got (ms : List (Module ℝ)) (h : Heap) : Got h [] (h.alloc ms).1 (h.alloc ms).2 ms := by
  induction ms generalizing h with
  | nil => exact ⟨grows_refl _, fun i hi => absurd hi List.not_mem_nil, List.nodup_nil, fun i hi => absurd hi List.not_mem_nil, rfl⟩
  | cons m ms ih =>
    have i0 := ih ⟨h.next + 1, Function.update h.mem h.next m⟩
    have g0 : Grows h ⟨h.next + 1, Function.update h.mem h.next m⟩ :=
      ⟨Nat.le_succ _, fun i hi => Function.update_of_ne (Nat.ne_of_lt hi) _ _⟩
    simp only [Heap.alloc]
    have hge : ∀ i ∈ (Heap.alloc ⟨h.next + 1, Function.update h.mem h.next m⟩ ms).1, h.next + 1 ≤ i := by
      intro i hi
      rcases i0.origin i hi with hx | hx
      · exact absurd hx List.not_mem_nil
      · exact hx
    refine ⟨grows_trans g0 i0.grows, ?_, ?_, ?_, ?_⟩
    · intro i hi
      rcases List.mem_cons.1 hi with rfl | hi
      · exact lt_of_lt_of_le (Nat.lt_succ_self _) i0.grows.1
      · exact i0.live i hi
    · refine List.nodup_cons.2 ⟨fun hc => ?_, i0.nodup⟩
      have := hge _ hc
      omega
    · intro i hi
      rcases List.mem_cons.1 hi with rfl | hi
      · exact Or.inr (le_refl _)
      · have := hge i hi
        exact Or.inr (by omega)
    · rw [vals_cons, i0.vals, i0.grows.2 h.next (Nat.lt_succ_self _)]
      simp

theorem got_keep {h h' : Heap} {i : ℕ} {is ids : List ℕ} {ms : List (Module ℝ)} (hl : Live h (i :: is)) (hn : (i :: is).Nodup) (g : Got h is ids h' ms) :
    Got h (i :: is) (i :: ids) h' (h.mem i :: ms) := by
  have hi := hl i List.mem_cons_self
  refine ⟨g.grows, ?_, List.nodup_cons.2 ⟨fun hc => ?_, g.nodup⟩, ?_, ?_⟩
  · intro j hj
    rcases List.mem_cons.1 hj with rfl | hj
    · exact lt_of_lt_of_le hi g.grows.1
    · exact g.live j hj
  · rcases g.origin i hc with hx | hx
    · exact (List.nodup_cons.1 hn).1 hx
    · omega
  · intro j hj
    rcases List.mem_cons.1 hj with rfl | hj
    · exact Or.inl List.mem_cons_self
    · rcases g.origin j hj with hx | hx
      · exact Or.inl (List.mem_cons_of_mem _ hx)
      · exact Or.inr hx
  · rw [vals_cons, g.vals, g.grows.2 i hi]

theorem got_new {h h' : Heap} {l is ids : List ℕ} {a ms : List (Module ℝ)} (hl : Live h is) (hsub : ∀ i ∈ is, i ∈ l)
    (g : Got (h.alloc a).2 is ids h' ms) : Got h l ((h.alloc a).1 ++ ids) h' (a ++ ms) := by
  have ga := alloc_got a h
  refine ⟨grows_trans ga.grows g.grows, ?_, ?_, ?_, ?_⟩
  · intro j hj
    rcases List.mem_append.1 hj with hj | hj
    · exact lt_of_lt_of_le (ga.live j hj) g.grows.1
    · exact g.live j hj
  · refine List.nodup_append.2 ⟨ga.nodup, g.nodup, fun x hx y hy hxy => ?_⟩
    subst hxy
    have h1 := ga.live x hx
    have h2 : h.next ≤ x := by
      rcases ga.origin x hx with hc | hc
      · exact absurd hc List.not_mem_nil
      · exact hc
    rcases g.origin x hy with hc | hc
    · have := hl x hc
      omega
    · omega
  · intro j hj
    rcases List.mem_append.1 hj with hj | hj
    · rcases ga.origin j hj with hc | hc
      · exact absurd hc List.not_mem_nil
      · exact Or.inr hc
    · rcases g.origin j hj with hc | hc
      · exact Or.inl (hsub j hc)
      · exact Or.inr (ga.grows.1.trans hc)
  · rw [vals_append, g.vals, vals_grows g.grows ga.live, ga.vals]

theorem got_refl {h : Heap} {l : List ℕ} (hl : Live h l) (hn : l.Nodup) : Got h l l h (h.vals l) :=
  ⟨grows_refl _, hl, hn, fun _ hi => Or.inl hi, rfl⟩

theorem got_trans {h h' h'' : Heap} {l ids ids' : List ℕ} {ms ms' : List (Module ℝ)} (a : Got h l ids h' ms) (b : Got h' ids ids' h'' ms') :
    Got h l ids' h'' ms' :=
  ⟨grows_trans a.grows b.grows, b.live, b.nodup, fun i hi => (b.origin i hi).elim (fun hx => a.origin i hx) (fun hx => Or.inr (a.grows.1.trans hx)), b.vals⟩

/-- A computation on references does what the computation on values does. -/
def Sim (h : Heap) (l : List ℕ) : Except Err (List ℕ × Heap) → Except Err (List (Module ℝ)) → Prop
  | .error e, .error e' => e = e'
  | .ok (ids, h'), .ok ms => Got h l ids h' ms
  | _, _ => False

theorem internalMerge_sim (h : Heap) (s : ℕ) (l : List ℕ) (hl : Live h l) (hn : l.Nodup) :
    Sim h l (hInternalMerge h s l) (internalMerge s (h.vals l)) := by
  induction l generalizing h s with
  | nil => exact got_refl hl hn
  | cons i is ih =>
    have hl' : Live h is := fun j hj => hl j (List.mem_cons_of_mem _ hj)
    have hn' := (List.nodup_cons.1 hn).2
    have keep : ∀ s', Sim h (i :: is) (hInternalMerge h s' is >>= fun r => pure (i :: r.1, r.2))
        (internalMerge s' (h.vals is) >>= fun r => pure (h.mem i :: r)) := by
      intro s'
      have := ih h s' hl' hn'
      generalize hInternalMerge h s' is = x at this ⊢
      generalize internalMerge s' (h.vals is) = y at this ⊢
      match x, y, this with
      | .error e, .error e', hx => exact hx
      | .ok (ids, h'), .ok ms, hx => exact got_keep hl hn hx
    rw [vals_cons]
    cases hm : h.mem i with
    | mergedInput t => simp only [hInternalMerge, hm, internalMerge, Sim]
    | mergedOutput t b => simp only [hInternalMerge, hm, internalMerge, Sim]
    | inputSite t =>
      have := keep (s + (Module.inputSite t).coreLen)
      rw [hm] at this
      simpa only [hInternalMerge, hm, internalMerge] using this
    | outputSite t =>
      have := keep (s + (Module.outputSite t).coreLen)
      rw [hm] at this
      simpa only [hInternalMerge, hm, internalMerge] using this
    | inputRegion t b =>
      simp only [hInternalMerge, hm, internalMerge]
      cases regionMerge t (s % 2) with
      | error e => rfl
      | ok a =>
        have ga := alloc_got a h
        have := ih (h.alloc a).2 (s + (Module.inputRegion t b).coreLen) (live_grows ga.grows hl') hn'
        rw [vals_grows ga.grows hl'] at this
        show Sim h (i :: is) (hInternalMerge (h.alloc a).2 (s + (Module.inputRegion t b).coreLen) is >>= fun r => pure ((h.alloc a).1 ++ r.1, r.2))
          (internalMerge (s + (Module.inputRegion t b).coreLen) (h.vals is) >>= fun r => pure (a ++ r))
        generalize hInternalMerge (h.alloc a).2 (s + (Module.inputRegion t b).coreLen) is = x at this ⊢
        generalize internalMerge (s + (Module.inputRegion t b).coreLen) (h.vals is) = y at this ⊢
        match x, y, this with
        | .error e, .error e', hx => exact hx
        | .ok (ids, h'), .ok ms, hx => exact got_new hl' (fun j hj => List.mem_cons_of_mem _ hj) hx

theorem sweepRest_sim (merging : Bool) (offset : ℕ) : ∀ (n : ℕ) (h : Heap) (s : ℕ) (l : List ℕ), l.length ≤ n → Live h l → l.Nodup →
    Sim h l (hSweepRest h merging offset s l) (sweepRest merging offset s (h.vals l)) := by
  intro n
  induction n with
  | zero =>
    intro h s l hlen hl hn
    match l, hlen with
    | [], _ =>
      simp only [hSweepRest, vals_nil, sweepRest]
      exact got_refl hl hn
  | succ n ih =>
    intro h s l hlen hl hn
    match l, hlen with
    | [], _ =>
      simp only [hSweepRest, vals_nil, sweepRest]
      exact got_refl hl hn
    | [i], _ =>
      simp only [hSweepRest, vals_cons, vals_nil, sweepRest]
      exact got_refl hl hn
    | i :: j :: rest, hlen =>
      have hl' : Live h (j :: rest) := fun x hx => hl x (List.mem_cons_of_mem _ hx)
      have hn' := (List.nodup_cons.1 hn).2
      have keep : ∀ s', Sim h (i :: j :: rest) (hSweepRest h merging offset s' (j :: rest) >>= fun r => pure (i :: r.1, r.2))
          (sweepRest merging offset s' (h.vals (j :: rest)) >>= fun r => pure (h.mem i :: r)) := by
        intro s'
        have := ih h s' (j :: rest) (by simp only [List.length_cons] at hlen ⊢; omega) hl' hn'
        generalize hSweepRest h merging offset s' (j :: rest) = x at this ⊢
        generalize sweepRest merging offset s' (h.vals (j :: rest)) = y at this ⊢
        match x, y, this with
        | .error e, .error e', hx => exact hx
        | .ok (ids, h'), .ok ms, hx => exact got_keep hl hn hx
      simp only [hSweepRest, vals_cons, sweepRest]
      cases combineCores merging (h.mem i) (h.mem j) with
      | error e => rfl
      | ok c =>
        cases c with
        | none => exact keep _
        | some c =>
          show Sim h (i :: j :: rest) (if merging = true ∧ offset ≠ s % 2 then _ else _) (if merging = true ∧ offset ≠ s % 2 then _ else _)
          by_cases hc : merging = true ∧ offset ≠ s % 2
          · rw [if_pos hc, if_pos hc]
            exact keep _
          · rw [if_neg hc, if_neg hc]
            by_cases ha : merging = false ∨ c.coreLen = (h.mem i).coreLen + (h.mem j).coreLen
            · rw [assert_true _ ha]
              have ga := alloc_got [c] h
              have hl'' : Live h rest := fun x hx => hl' x (List.mem_cons_of_mem _ hx)
              have := ih (h.alloc [c]).2 (s + c.coreLen) rest (by simp only [List.length_cons] at hlen ⊢; omega) (live_grows ga.grows hl'') (List.nodup_cons.1 hn').2
              rw [vals_grows ga.grows hl''] at this
              show Sim h (i :: j :: rest) (hSweepRest (h.alloc [c]).2 merging offset (s + c.coreLen) rest >>= fun r => pure ((h.alloc [c]).1 ++ r.1, r.2))
                (sweepRest merging offset (s + c.coreLen) (h.vals rest) >>= fun r => pure (c :: r))
              generalize hSweepRest (h.alloc [c]).2 merging offset (s + c.coreLen) rest = x at this ⊢
              generalize sweepRest merging offset (s + c.coreLen) (h.vals rest) = y at this ⊢
              match x, y, this with
              | .error e, .error e', hx => exact hx
              | .ok (ids, h'), .ok ms, hx =>
                exact got_new hl'' (fun x hx => List.mem_cons_of_mem _ (List.mem_cons_of_mem _ hx)) hx
            · rw [assert_false _ ha]
              rfl

theorem sweep_sim (merging : Bool) (offset : ℕ) (h : Heap) (l : List ℕ) (hl : Live h l) (hn : l.Nodup) :
    Sim h l (hSweep h merging offset l) (sweep merging offset (h.vals l)) := by
  unfold hSweep sweep
  rw [vals_length]
  split
  · exact ⟨grows_refl _, fun i hi => absurd hi List.not_mem_nil, List.nodup_nil, fun i hi => absurd hi List.not_mem_nil, rfl⟩
  · exact sweepRest_sim merging offset l.length h 0 l (le_refl _) hl hn

theorem sweeps_sim (merging : Bool) (offset : ℕ) (fuel : ℕ) (h : Heap) (l : List ℕ) (hl : Live h l) (hn : l.Nodup) :
    Sim h l (hSweeps merging offset fuel h l) (sweeps merging offset fuel (h.vals l)) := by
  induction fuel generalizing h l with
  | zero => exact got_refl hl hn
  | succ fuel ih =>
    simp only [hSweeps, sweeps]
    have := sweep_sim merging offset h l hl hn
    generalize hSweep h merging offset l = x at this ⊢
    generalize sweep merging offset (h.vals l) = y at this ⊢
    match x, y, this with
    | .error e, .error e', hx => exact hx
    | .ok (ids, h'), .ok ms, hx =>
      have hx : Got h l ids h' ms := hx
      show Sim h l (if ids.length = l.length then _ else _) (if ms.length = (h.vals l).length then _ else _)
      have e1 : ms.length = ids.length := by rw [← hx.vals, vals_length]
      rw [vals_length, e1]
      by_cases hc : ids.length = l.length
      · rw [if_pos hc, if_pos hc]
        exact got_refl hl hn
      · rw [if_neg hc, if_neg hc]
        have i0 := ih h' ids hx.live hx.nodup
        rw [hx.vals] at i0
        generalize hSweeps merging offset fuel h' ids = x at i0 ⊢
        generalize sweeps merging offset fuel ms = y at i0 ⊢
        match x, y, i0 with
        | .error e, .error e', hy => exact hy
        | .ok (ids', h''), .ok ms', hy => exact got_trans hx hy

theorem mergeList_sim (h : Heap) (offset : ℕ) (l : List ℕ) (hl : Live h l) (hn : l.Nodup) :
    Sim h l (hMergeList h offset l) (mergeList offset (h.vals l)) := by
  unfold hMergeList mergeList
  by_cases ho : offset = 0 ∨ offset = 1
  · rw [assert_true _ ho]
    show Sim h l (hInternalMerge h offset l >>= fun r => hSweeps true offset (r.1.length + 1) r.2 r.1)
      (internalMerge offset (h.vals l) >>= fun l => sweeps true offset (l.length + 1) l)
    have := internalMerge_sim h offset l hl hn
    generalize hInternalMerge h offset l = x at this ⊢
    generalize internalMerge offset (h.vals l) = y at this ⊢
    match x, y, this with
    | .error e, .error e', hx => exact hx
    | .ok (ids, h'), .ok ms, hx =>
      have hx : Got h l ids h' ms := hx
      have e1 : ms.length = ids.length := by rw [← hx.vals, vals_length]
      have i0 := sweeps_sim true offset (ids.length + 1) h' ids hx.live hx.nodup
      rw [hx.vals] at i0
      show Sim h l (hSweeps true offset (ids.length + 1) h' ids) (sweeps true offset (ms.length + 1) ms)
      rw [e1]
      generalize hSweeps true offset (ids.length + 1) h' ids = x at i0 ⊢
      generalize sweeps true offset (ids.length + 1) ms = y at i0 ⊢
      match x, y, i0 with
      | .error e, .error e', hy => exact hy
      | .ok (ids', h''), .ok ms', hy => exact got_trans hx hy
  · rw [assert_false _ ho]
    rfl

/-! ### unmerging -/

/-- the same with the bonds found -/
def SimB (h : Heap) (l : List ℕ) : Except Err ((List ℕ × List BondEntry) × Heap) → Except Err (List (Module ℝ) × List BondEntry) → Prop
  | .error e, .error e' => e = e'
  | .ok ((ids, bs), h'), .ok (ms, bs') => bs = bs' ∧ Got h l ids h' ms
  | _, _ => False

theorem unmergeAll_sim (svd : Mat ℝ → SVD) (pop : List Char → Char) (cutoff : ℝ) (h : Heap) (l : List ℕ) (hl : Live h l) (hn : l.Nodup) :
    SimB h l (hUnmergeAll svd pop cutoff h l) (unmergeAll svd pop cutoff (h.vals l)) := by
  induction l generalizing h with
  | nil => exact ⟨rfl, got_refl hl hn⟩
  | cons i is ih =>
    have hl' : Live h is := fun j hj => hl j (List.mem_cons_of_mem _ hj)
    have hn' := (List.nodup_cons.1 hn).2
    have keep : SimB h (i :: is) (hUnmergeAll svd pop cutoff h is >>= fun r => pure ((i :: r.1.1, none :: r.1.2), r.2))
        (unmergeAll svd pop cutoff (h.vals is) >>= fun r => pure ([h.mem i] ++ r.1, [none] ++ r.2)) := by
      have := ih h hl' hn'
      generalize hUnmergeAll svd pop cutoff h is = x at this ⊢
      generalize unmergeAll svd pop cutoff (h.vals is) = y at this ⊢
      match x, y, this with
      | .error e, .error e', hx => exact hx
      | .ok ((ids, bs), h'), .ok (ms, bs'), hx => exact ⟨by rw [hx.1]; rfl, got_keep hl hn hx.2⟩
    have new : SimB h (i :: is) (unmergeModule svd pop cutoff (h.mem i) >>= fun a => hUnmergeAll svd pop cutoff (h.alloc a.1).2 is >>= fun r =>
          pure (((h.alloc a.1).1 ++ r.1.1, a.2 ++ r.1.2), r.2))
        (unmergeModule svd pop cutoff (h.mem i) >>= fun a => unmergeAll svd pop cutoff (h.vals is) >>= fun r => pure (a.1 ++ r.1, a.2 ++ r.2)) := by
      cases unmergeModule svd pop cutoff (h.mem i) with
      | error e => rfl
      | ok v =>
        obtain ⟨a, bs0⟩ := v
        have ga := alloc_got a h
        have := ih (h.alloc a).2 (live_grows ga.grows hl') hn'
        rw [vals_grows ga.grows hl'] at this
        show SimB h (i :: is) (hUnmergeAll svd pop cutoff (h.alloc a).2 is >>= fun r => pure (((h.alloc a).1 ++ r.1.1, bs0 ++ r.1.2), r.2))
          (unmergeAll svd pop cutoff (h.vals is) >>= fun r => pure (a ++ r.1, bs0 ++ r.2))
        generalize hUnmergeAll svd pop cutoff (h.alloc a).2 is = x at this ⊢
        generalize unmergeAll svd pop cutoff (h.vals is) = y at this ⊢
        match x, y, this with
        | .error e, .error e', hx => exact hx
        | .ok ((ids, bs), h'), .ok (ms, bs'), hx => exact ⟨by rw [hx.1], got_new hl' (fun j hj => List.mem_cons_of_mem _ hj) hx.2⟩
    rw [vals_cons]
    cases hm : h.mem i with
    | inputSite t =>
      rw [hm] at keep
      simp only [hUnmergeAll, hm, unmergeAll, unmergeModule]
      exact keep
    | outputSite t =>
      rw [hm] at keep
      simp only [hUnmergeAll, hm, unmergeAll, unmergeModule]
      exact keep
    | mergedInput t =>
      rw [hm] at new
      simp only [hUnmergeAll, hm, unmergeAll]
      exact new
    | mergedOutput t b =>
      rw [hm] at new
      simp only [hUnmergeAll, hm, unmergeAll]
      exact new
    | inputRegion t b =>
      rw [hm] at new
      simp only [hUnmergeAll, hm, unmergeAll]
      exact new

theorem retuned_rescale (m : Module ℝ) (sc : List ℝ) : Retuned m (m.rescale sc) := by
  refine ⟨(m.rescale sc).tensor, ?_, ?_⟩ <;> cases m <;> rfl

theorem retuned_one (m : Module ℝ) : Retuned m m := ⟨m.tensor, rfl, by cases m <;> rfl⟩

theorem retuned_trans {a b c : Module ℝ} (h : Retuned a b) (h' : Retuned b c) : Retuned a c := by
  obtain ⟨t, t1, rfl⟩ := h
  obtain ⟨t', t2, rfl⟩ := h'
  refine ⟨t', ?_, ?_⟩
  · rw [t2, ← t1]
    cases a <;> rfl
  · cases a <;> rfl

/-- multiplying distinct objects in place -/
theorem scale_facts (h : Heap) (l : List ℕ) (scs : List (List ℝ)) (hn : l.Nodup) (hlen : l.length = scs.length) :
    (hScale h (l.zip scs)).next = h.next ∧ (∀ j, j ∉ l → (hScale h (l.zip scs)).mem j = h.mem j) ∧
    (∀ j, Retuned (h.mem j) ((hScale h (l.zip scs)).mem j)) ∧
    (hScale h (l.zip scs)).vals l = List.zipWith (fun m sc => m.rescale sc) (h.vals l) scs := by
  induction l generalizing h scs with
  | nil => exact ⟨rfl, fun _ _ => rfl, fun j => retuned_one _, rfl⟩
  | cons i l ih =>
    match scs, hlen with
    | sc :: scs, hlen =>
      obtain ⟨n1, n2⟩ := List.nodup_cons.1 hn
      obtain ⟨a, b, c, d⟩ := ih (h.write i ((h.mem i).rescale sc)) scs n2 (by simpa using hlen)
      have hi : (hScale (h.write i ((h.mem i).rescale sc)) (l.zip scs)).mem i = (h.mem i).rescale sc := by
        rw [b i n1]
        simp [Heap.write]
      have hother : ∀ j, j ≠ i → (h.write i ((h.mem i).rescale sc)).mem j = h.mem j := fun j hj => Function.update_of_ne hj _ _
      simp only [List.zip_cons_cons, hScale]
      refine ⟨a, ?_, ?_, ?_⟩
      · intro j hj
        rw [b j (fun hc => hj (List.mem_cons_of_mem _ hc)), hother j (fun hc => hj (hc ▸ List.mem_cons_self))]
      · intro j
        by_cases hj : j = i
        · subst hj
          rw [hi]
          exact retuned_rescale _ _
        · have := c j
          rwa [hother j hj] at this
      · rw [vals_cons, vals_cons, List.zipWith_cons_cons, hi, d]
        congr 2
        unfold Heap.vals
        exact List.map_congr_left (fun j hj => hother j (fun hc => n1 (hc ▸ hj)))

/-- The result of unmerging: new objects may have been made, distinct objects `ids` - old or new ones - have the values `ms`; old objects are changed only if they are
among these, and keep their class and shape. -/
structure Split (h : Heap) (l ids : List ℕ) (h' : Heap) (ms : List (Module ℝ)) : Prop where
  next : h.next ≤ h'.next
  live : Live h' ids
  nodup : ids.Nodup
  origin : ∀ i ∈ ids, i ∈ l ∨ h.next ≤ i
  vals : h'.vals ids = ms
  same : ∀ j < h.next, j ∉ ids → h'.mem j = h.mem j
  tuned : ∀ j < h.next, Retuned (h.mem j) (h'.mem j)

/-- the same for unmerging -/
def SimU (h : Heap) (l : List ℕ) : Except Err ((List ℕ × List BondEntry) × Heap) → Except Err (List (Module ℝ) × List BondEntry) → Prop
  | .error e, .error e' => e = e'
  | .ok ((ids, bs), h'), .ok (ms, bs') => bs = bs' ∧ Split h l ids h' ms
  | _, _ => False

theorem unmergeList_sim (svd : Mat ℝ → SVD) (pop : List Char → Char) (cutoff : ℝ) (h : Heap) (l : List ℕ) (hl : Live h l) (hn : l.Nodup) :
    SimU h l (hUnmergeList svd pop cutoff h l) (unmergeList svd pop cutoff (h.vals l)) := by
  unfold hUnmergeList unmergeList
  have := unmergeAll_sim svd pop cutoff h l hl hn
  generalize hUnmergeAll svd pop cutoff h l = x at this ⊢
  generalize unmergeAll svd pop cutoff (h.vals l) = y at this ⊢
  match x, y, this with
  | .error e, .error e', hx => exact hx
  | .ok ((ids, bs), h1), .ok (ms, bs'), hx =>
    obtain ⟨rfl, hx⟩ := hx
    have e1 : ms.length = ids.length := by rw [← hx.vals, vals_length]
    have i0 := sweeps_sim false 0 (ids.length + 1) h1 ids hx.live hx.nodup
    rw [hx.vals] at i0
    show SimU h l (hSweeps false 0 (ids.length + 1) h1 ids >>= fun s => hRescale s.2 s.1 >>= fun h' => pure ((s.1, none :: bs), h'))
      (sweeps false 0 (ms.length + 1) ms >>= fun l => rescaleCores l >>= fun l => pure (l, none :: bs))
    rw [e1]
    generalize hSweeps false 0 (ids.length + 1) h1 ids = x at i0 ⊢
    generalize sweeps false 0 (ids.length + 1) ms = y at i0 ⊢
    match x, y, i0 with
    | .error e, .error e', hy => exact hy
    | .ok (ids', h2), .ok ms', hy =>
      have g : Got h l ids' h2 ms' := got_trans hx hy
      show SimU h l (hRescale h2 ids' >>= fun h' => pure ((ids', none :: bs), h')) (rescaleCores ms' >>= fun l => pure (l, none :: bs))
      unfold hRescale rescaleCores
      simp only [g.vals]
      split
      · rfl
      · split
        · rfl
        · obtain ⟨s1, s2, s3, s4⟩ := scale_facts h2 ids' (ms'.map (fun m => m.norms.map (fun x => Real.exp (logScale ms' - Real.log x)))) g.nodup
            (by rw [List.length_map, ← g.vals, vals_length])
          refine ⟨rfl, ?_, ?_, g.nodup, g.origin, ?_, ?_, ?_⟩
          · rw [s1]
            exact g.grows.1
          · intro i hi
            rw [s1]
            exact g.live i hi
          · rw [s4, g.vals, List.zipWith_map_right, List.zipWith_self]
          · intro j hj hj'
            rw [s2 j hj', g.grows.2 j hj]
          · intro j hj
            have := s3 j
            rwa [g.grows.2 j hj] at this

/-! ### the update in place -/

theorem overwrite_sim (h : Heap) (old new : List ℕ) (hn : old.Nodup) (hd : ∀ i ∈ old, i ∉ new) :
    (hOverwrite h old new).1 = (overwrite (h.vals old) (h.vals new)).1 ∧ (hOverwrite h old new).2.next = h.next ∧
    (∀ j, j ∉ old → (hOverwrite h old new).2.mem j = h.mem j) ∧ (hOverwrite h old new).2.vals old = (overwrite (h.vals old) (h.vals new)).2 := by
  induction old generalizing h new with
  | nil => simp [hOverwrite, vals_nil, overwrite]
  | cons i old ih =>
    match new with
    | [] => simp [hOverwrite, vals_nil, overwrite, vals_cons]
    | j :: new =>
      obtain ⟨n1, n2⟩ := List.nodup_cons.1 hn
      simp only [hOverwrite, vals_cons, overwrite]
      split
      · obtain ⟨a, b, c, d⟩ := ih (h.write i ((h.mem i).setTensor (h.mem j).tensor)) new n2
          (fun x hx hx' => hd x (List.mem_cons_of_mem _ hx) (List.mem_cons_of_mem _ hx'))
        have hother : ∀ x, x ≠ i → (h.write i ((h.mem i).setTensor (h.mem j).tensor)).mem x = h.mem x := fun x hx => Function.update_of_ne hx _ _
        have v1 : (h.write i ((h.mem i).setTensor (h.mem j).tensor)).vals old = h.vals old := by
          unfold Heap.vals
          exact List.map_congr_left (fun x hx => hother x (fun hc => n1 (hc ▸ hx)))
        have v2 : (h.write i ((h.mem i).setTensor (h.mem j).tensor)).vals new = h.vals new := by
          unfold Heap.vals
          exact List.map_congr_left (fun x hx => hother x (fun hc => hd i List.mem_cons_self (List.mem_cons_of_mem _ (hc ▸ hx))))
        rw [v1, v2] at a d
        refine ⟨a, b, ?_, ?_⟩
        · intro x hx
          rw [c x (fun hc => hx (List.mem_cons_of_mem _ hc)), hother x (fun hc => hx (hc ▸ List.mem_cons_self))]
        · rw [d, c i n1]
          simp [Heap.write]
      · exact ⟨rfl, rfl, fun _ _ => rfl, rfl⟩

theorem updateList_sim (h : Heap) (old new : List ℕ) (hn : old.Nodup) (hd : ∀ i ∈ old, i ∉ new) :
    (hUpdateList h old new).1 = (updateList (h.vals old) (h.vals new)).1 ∧ (hUpdateList h old new).2.next = h.next ∧
    (∀ j, j ∉ old → (hUpdateList h old new).2.mem j = h.mem j) ∧ (hUpdateList h old new).2.vals old = (updateList (h.vals old) (h.vals new)).2 := by
  unfold hUpdateList updateList
  rw [vals_length, vals_length]
  split
  · exact overwrite_sim h old new hn hd
  · exact ⟨rfl, rfl, fun _ _ => rfl, rfl⟩

/-! ### flips and calls -/

/-- the region with the current values of its modules -/
def HRegion.read (r : HRegion) : AdRegion :=
  ⟨r.heap.vals r.list0, r.heap.vals r.list1, r.offset, r.stray.map r.heap.vals, r.counter, r.threshold, r.cutoff⟩

theorem read_listAt (r : HRegion) (p : ℕ) : r.read.listAt p = r.heap.vals (r.listAt p) := by
  unfold HRegion.read AdRegion.listAt HRegion.listAt
  split <;> rfl

theorem read_active (r : HRegion) : r.read.active = r.heap.vals r.active := by
  unfold AdRegion.active HRegion.active
  cases h : r.stray with
  | none =>
    have : r.read.stray = none := by simp [HRegion.read, h]
    rw [this]
    exact read_listAt r r.offset
  | some l =>
    have : r.read.stray = some (r.heap.vals l) := by simp [HRegion.read, h]
    rw [this]
    rfl

/-- the modules of the two merged lists are distinct existing objects -/
structure HRegion.Good (r : HRegion) : Prop where
  offset : r.offset ≤ 1
  live : Live r.heap (r.list0 ++ r.list1)
  nodup : (r.list0 ++ r.list1).Nodup
  strays : ∀ l, r.stray = some l → Live r.heap l

theorem forall₂_vals (h h' : Heap) (l : List ℕ) (hr : ∀ j ∈ l, Retuned (h.mem j) (h'.mem j)) : List.Forall₂ Retuned (h.vals l) (h'.vals l) := by
  induction l with
  | nil => exact .nil
  | cons i l ih => exact .cons (hr i List.mem_cons_self) (ih (fun j hj => hr j (List.mem_cons_of_mem _ hj)))

theorem vals_congr (h h' : Heap) (l : List ℕ) (hr : ∀ j ∈ l, h'.mem j = h.mem j) : h'.vals l = h.vals l := List.map_congr_left hr

theorem good_lists (r : HRegion) (hg : r.Good) (p : ℕ) (hp : p ≤ 1) :
    (r.listAt p).Nodup ∧ Live r.heap (r.listAt p) ∧ (r.listAt (1 - p)).Nodup ∧ Live r.heap (r.listAt (1 - p)) ∧ (∀ i ∈ r.listAt p, i ∉ r.listAt (1 - p)) := by
  obtain ⟨a, b, c⟩ := List.nodup_append.1 hg.nodup
  have l0 : Live r.heap r.list0 := fun i hi => hg.live i (List.mem_append_left _ hi)
  have l1 : Live r.heap r.list1 := fun i hi => hg.live i (List.mem_append_right _ hi)
  have h01 : p = 0 ∨ p = 1 := by omega
  rcases h01 with rfl | rfl
  · exact ⟨a, l0, b, l1, fun i hi hi' => c i hi i hi' rfl⟩
  · exact ⟨b, l1, a, l0, fun i hi hi' => c i hi' i hi rfl⟩

/-- A region after a flip: the lists hold the same objects; the result and the values are those of the flip on values, except that lone modules of the list given
up have been multiplied in place. -/
structure Flipped (r r' : HRegion) (v : AdRegion) : Prop where
  list0 : r'.list0 = r.list0
  list1 : r'.list1 = r.list1
  good : r'.Good
  same : ∃ l, List.Forall₂ Retuned (v.listAt (1 - v.offset)) l ∧ r'.read = v.setList (1 - v.offset) l
  offset : v.offset ≤ 1

theorem flip_sim (svd : Mat ℝ → SVD) (pop : List Char → Char) (r : HRegion) (hg : r.Good) :
    (r.flip svd pop).1 = (r.read.flip svd pop).1 ∧ Flipped r (r.flip svd pop).2 (r.read.flip svd pop).2 := by
  have h01 : r.offset = 0 ∨ r.offset = 1 := by have := hg.offset; omega
  obtain ⟨na, la, nb, lb, hd⟩ := good_lists r hg r.offset hg.offset
  unfold HRegion.flip AdRegion.flip
  have e1 : r.read.offset = r.offset ∧ r.read.cutoff = r.cutoff ∧ r.read.counter = r.counter ∧ r.read.threshold = r.threshold := ⟨rfl, rfl, rfl, rfl⟩
  rw [e1.1, e1.2.1, read_listAt]
  have u := unmergeList_sim svd pop r.cutoff r.heap (r.listAt r.offset) la na
  generalize hUnmergeList svd pop r.cutoff r.heap (r.listAt r.offset) = x at u ⊢
  generalize unmergeList svd pop r.cutoff (r.heap.vals (r.listAt r.offset)) = y at u ⊢
  match x, y, u with
  | .error e, .error e', hx =>
    have hx : e = e' := hx
    subst hx
    refine ⟨rfl, rfl, rfl, hg, ⟨r.read.listAt (1 - r.read.offset), retuned_refl _, ?_⟩, hg.offset⟩
    show r.read = r.read.setList (1 - r.read.offset) (r.read.listAt (1 - r.read.offset))
    generalize r.read = v
    unfold AdRegion.setList AdRegion.listAt
    split <;> rfl
  | .ok ((us, bs), h1), .ok (ms, bs'), hx =>
    obtain ⟨rfl, sp⟩ := hx
    have ho : (r.offset + 1) % 2 = 1 - r.offset := by omega
    simp only [ho]
    have disj : ∀ i ∈ r.listAt (1 - r.offset), i ∉ us := by
      intro i hi hi'
      rcases sp.origin i hi' with hc | hc
      · exact hd i hc hi
      · have := lb i hi
        omega
    have vb : h1.vals (r.listAt (1 - r.offset)) = r.heap.vals (r.listAt (1 - r.offset)) :=
      vals_congr _ _ _ (fun j hj => sp.same j (lb j hj) (disj j hj))
    have va : List.Forall₂ Retuned (r.heap.vals (r.listAt r.offset)) (h1.vals (r.listAt r.offset)) :=
      forall₂_vals _ _ _ (fun j hj => sp.tuned j (la j hj))
    have m0 := mergeList_sim h1 (1 - r.offset) us sp.live sp.nodup
    rw [sp.vals] at m0
    have live1 : Live h1 (r.list0 ++ r.list1) := fun i hi => lt_of_lt_of_le (hg.live i hi) sp.next
    generalize hMergeList h1 (1 - r.offset) us = x at m0 ⊢
    generalize mergeList (1 - r.offset) ms = y at m0 ⊢
    match x, y, m0 with
    | .error e, .error e', hy =>
      have hy : e = e' := hy
      subst hy
      refine ⟨rfl, rfl, rfl, ⟨by simp only; omega, live1, hg.nodup, ?_⟩, ⟨h1.vals (r.listAt r.offset), ?_, ?_⟩, by simp only; omega⟩
      · intro l hl
        obtain rfl : us = l := by simpa using hl
        exact sp.live
      · rcases h01 with h | h <;> rw [h] at va ⊢ <;> exact va
      · have vs := sp.vals
        rcases h01 with h | h <;> simp only [h] at vb ⊢ <;> simp [HRegion.read, AdRegion.setList, HRegion.listAt, vs] <;> exact vb
    | .ok (new, h2), .ok ms2, hy =>
      have hy : Got h1 us new h2 ms2 := hy
      have hd2 : ∀ i ∈ r.listAt (1 - r.offset), i ∉ new := by
        intro i hi hi'
        rcases hy.origin i hi' with hc | hc
        · exact disj i hi hc
        · have h3 := lb i hi
          have := sp.next
          omega
      obtain ⟨w1, w2, w3, w4⟩ := updateList_sim h2 (r.listAt (1 - r.offset)) new nb hd2
      have vb2 : h2.vals (r.listAt (1 - r.offset)) = r.heap.vals (r.listAt (1 - r.offset)) :=
        (vals_grows hy.grows (fun i hi => lt_of_lt_of_le (lb i hi) sp.next)).trans vb
      have va2 : h2.vals (r.listAt r.offset) = h1.vals (r.listAt r.offset) :=
        vals_grows hy.grows (fun i hi => lt_of_lt_of_le (la i hi) sp.next)
      have vu2 : h2.vals us = ms := (vals_grows hy.grows sp.live).trans sp.vals
      rw [vb2, hy.vals] at w1 w4
      simp only
      have x1 : HRegion.listAt { r with heap := h1, offset := 1 - r.offset, stray := some us } (1 - r.offset) = r.listAt (1 - r.offset) := rfl
      have x2 : AdRegion.listAt ⟨r.read.list0, r.read.list1, 1 - r.offset, some ms, r.read.counter, r.read.threshold, r.cutoff⟩ (1 - r.offset) = r.heap.vals (r.listAt (1 - r.offset)) :=
        read_listAt r (1 - r.offset)
      rw [x1, x2]
      obtain ⟨a, h3, ha⟩ : ∃ a h3, hUpdateList h2 (r.listAt (1 - r.offset)) new = (a, h3) := ⟨_, _, rfl⟩
      obtain ⟨b, lv, hb⟩ : ∃ b lv, updateList (r.heap.vals (r.listAt (1 - r.offset))) ms2 = (b, lv) := ⟨_, _, rfl⟩
      rw [ha, hb] at w1 w4 ⊢
      rw [ha] at w2 w3
      simp only at w1 w2 w3 w4
      subst w1
      have live3 : Live h3 (r.list0 ++ r.list1) := fun i hi => by
        rw [w2]
        exact lt_of_lt_of_le (live1 i hi) hy.grows.1
      have va3 : h3.vals (r.listAt r.offset) = h1.vals (r.listAt r.offset) :=
        (vals_congr _ _ _ (fun j hj => w3 j (fun hc => hd j hj hc))).trans va2
      have vu3 : h3.vals us = ms := (vals_congr _ _ _ (fun j hj => w3 j (fun hc => disj j hc hj))).trans vu2
      cases a with
      | error e =>
        refine ⟨rfl, rfl, rfl, ⟨by simp only; omega, live3, hg.nodup, ?_⟩, ⟨h1.vals (r.listAt r.offset), ?_, ?_⟩, ?_⟩
        · intro l hl
          obtain rfl : us = l := by simpa using hl
          intro i hi
          show i < h3.next
          rw [w2]
          exact lt_of_lt_of_le (sp.live i hi) hy.grows.1
        · rcases h01 with h | h <;> rw [h] at va ⊢ <;> exact va
        · rcases h01 with h | h <;> simp only [h] at va3 w4 ⊢ <;> simp [HRegion.read, AdRegion.setList, HRegion.listAt, vu3] <;>
            exact ⟨by first | exact va3 | exact w4, by first | exact va3 | exact w4⟩
        · rcases h01 with h | h <;> simp [h, AdRegion.setList]
      | ok _ =>
        refine ⟨rfl, rfl, rfl, ⟨by simp only; omega, live3, hg.nodup, fun l hl => by simp at hl⟩, ⟨h1.vals (r.listAt r.offset), ?_, ?_⟩, ?_⟩
        · rcases h01 with h | h <;> rw [h] at va ⊢ <;> exact va
        · rcases h01 with h | h <;> simp only [h] at va3 w4 ⊢ <;> simp [HRegion.read, AdRegion.setList, HRegion.listAt] <;>
            exact ⟨by first | exact va3 | exact w4, by first | exact va3 | exact w4⟩
        · rcases h01 with h | h <;> simp [h, AdRegion.setList]

end TorchMPS
