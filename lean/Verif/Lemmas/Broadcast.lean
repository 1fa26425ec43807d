import Verif.Model.Utils2
import Verif.Spec.Broadcast
/-
Auxiliary lemmas about `shapeBroadcast` and `batchBroadcast`.
-/
namespace TorchMPS
open Spec

theorem mergeAxis_ok_iff (x o o' : ℕ) :
    mergeAxis x o = .ok o' ↔
      (x = 1 ∨ o = 1 ∨ x = o) ∧ o' = if x ≠ 1 then x else o := by
  unfold mergeAxis
  split
  · split <;> rename_i h1 h2
    · simp; intro h; exfalso; omega
    · simp only [Except.ok.injEq]
      rw [if_pos h1.1]
      constructor
      · intro h; subst h; exact ⟨by omega, rfl⟩
      · intro h; exact h.2.symm
  · rename_i h1
    simp only [Except.ok.injEq]
    by_cases hx : x = 1
    · simp [hx, eq_comm]
    · have : x = o := by by_contra hne; exact h1 ⟨hx, hne⟩
      subst this; simp [eq_comm]

theorem mergeRev_ok_iff (xs os os' : List ℕ) :
    mergeRev xs os = .ok os' ↔
      xs.length ≤ os.length ∧ os'.length = os.length ∧
      ∀ i, (xs.getD i 1 = 1 ∨ os.getD i 1 = 1 ∨ xs.getD i 1 = os.getD i 1) ∧
        os'.getD i 1 = if xs.getD i 1 ≠ 1 then xs.getD i 1 else os.getD i 1 := by
  induction xs generalizing os os' with
  | nil =>
    simp only [mergeRev, Except.ok.injEq, List.length_nil, Nat.zero_le, true_and]
    constructor
    · rintro rfl; simp
    · rintro ⟨hl, h⟩
      apply List.ext_getElem hl.symm
      intro i h1 h2
      have := (h i).2
      simp at this
      rw [List.getElem?_eq_getElem h1, List.getElem?_eq_getElem h2] at this
      simpa using this.symm
  | cons x xs ih =>
    cases os with
    | nil => simp [mergeRev]
    | cons o os =>
      simp only [mergeRev]
      constructor
      · intro h
        cases ha : mergeAxis x o with
        | error e => rw [ha] at h; cases h
        | ok o' =>
          cases hb : mergeRev xs os with
          | error e => rw [ha, hb] at h; cases h
          | ok t =>
            rw [ha, hb] at h
            injection h with h
            subst h
            obtain ⟨h1, h2, h3⟩ := (ih os t).1 hb
            have h4 := (mergeAxis_ok_iff x o o').1 ha
            refine ⟨by simpa using h1, by simpa using h2, ?_⟩
            intro i
            cases i with
            | zero => simpa using h4
            | succ i => simpa using h3 i
      · rintro ⟨h1, h2, h3⟩
        cases os' with
        | nil => simp at h2
        | cons o' t =>
          have ha : mergeAxis x o = .ok o' := (mergeAxis_ok_iff x o o').2 (by simpa using h3 0)
          have hb : mergeRev xs os = .ok t :=
            (ih os t).2 ⟨by simpa using h1, by simpa using h2, fun i => by simpa using h3 (i+1)⟩
          rw [ha, hb]; rfl

theorem mergeRev_error (xs os : List ℕ) (hl : xs.length ≤ os.length) (e : Err)
    (h : mergeRev xs os = .error e) : e = .value := by
  induction xs generalizing os with
  | nil => simp [mergeRev] at h
  | cons x xs ih =>
    cases os with
    | nil => simp at hl
    | cons o os =>
      simp only [mergeRev] at h
      cases ha : mergeAxis x o with
      | error e' =>
        rw [ha] at h; injection h with h; subst h
        unfold mergeAxis at ha
        split at ha
        · split at ha
          · injection ha with ha; exact ha.symm
          · cases ha
        · cases ha
      | ok o' =>
        cases hb : mergeRev xs os with
        | error e' =>
          rw [ha, hb] at h; injection h with h; subst h
          exact ih os (by simpa using hl) hb
        | ok t => rw [ha, hb] at h; cases h

/-- per-axis broadcast relation on reversed shapes -/
def RevRel (S : List (List ℕ)) (out : List ℕ) : Prop :=
  ∀ j, (∀ s ∈ S, s.getD j 1 = 1 ∨ s.getD j 1 = out.getD j 1) ∧
    ∃ s ∈ S, s.getD j 1 = out.getD j 1

def mergeAll : List (List ℕ) → List ℕ → Except Err (List ℕ)
  | [], out => .ok out
  | p :: P, out => do
      let out' ← mergeRev p out
      mergeAll P out'

theorem mergeAll_ok_iff (P : List (List ℕ)) (out out' : List ℕ)
    (hlen : ∀ p ∈ P, p.length ≤ out.length) :
    mergeAll P out = .ok out' ↔ out'.length = out.length ∧ RevRel (out :: P) out' := by
  induction P generalizing out with
  | nil =>
    simp only [mergeAll, Except.ok.injEq]
    constructor
    · rintro rfl; refine ⟨rfl, fun j => ?_⟩; simp
    · rintro ⟨hl, h⟩
      apply List.ext_getElem hl.symm
      intro i h1 h2
      have := (h i).2
      simp at this
      rw [List.getElem?_eq_getElem h1, List.getElem?_eq_getElem h2] at this
      simpa using this
  | cons p P ih =>
    simp only [mergeAll]
    constructor
    · intro h
      cases hm : mergeRev p out with
      | error e => rw [hm] at h; cases h
      | ok o1 =>
        rw [hm] at h
        obtain ⟨_, hl1, h1⟩ := (mergeRev_ok_iff _ _ _).1 hm
        have hP : ∀ q ∈ P, q.length ≤ o1.length := fun q hq => by
          rw [hl1]; exact hlen q (by simp [hq])
        obtain ⟨hl, hR⟩ := (ih o1 hP).1 h
        refine ⟨hl.trans hl1, fun j => ?_⟩
        obtain ⟨hc, hv⟩ := h1 j
        obtain ⟨hall, s, hs, hse⟩ := hR j
        have ho1 := hall o1 (by simp)
        constructor
        · intro s hs
          simp only [List.mem_cons] at hs
          rcases hs with rfl | rfl | hs
          · split at hv
            · rcases hc with h | h | h <;> rcases ho1 with h' | h' <;> first | omega | (left; omega) | (right; omega)
            · rcases ho1 with h' | h' <;> first | (left; omega) | (right; omega)
          · split at hv
            · rcases ho1 with h' | h' <;> first | (left; omega) | (right; omega)
            · rename_i hx; left; push Not at hx; exact hx
          · exact hall s (by simp [hs])
        · simp only [List.mem_cons] at hs
          rcases hs with rfl | hs
          · split at hv
            · exact ⟨p, by simp, by omega⟩
            · exact ⟨out, by simp, by omega⟩
          · exact ⟨s, by simp [hs], hse⟩
    · rintro ⟨hl, hR⟩
      have hpl := hlen p (by simp)
      -- build the merged list
      let o1 : List ℕ := (List.range out.length).map
        (fun i => if p.getD i 1 ≠ 1 then p.getD i 1 else out.getD i 1)
      have hl1 : o1.length = out.length := by simp [o1]
      have ho1 : ∀ i, o1.getD i 1 = if p.getD i 1 ≠ 1 then p.getD i 1 else out.getD i 1 := by
        intro i
        by_cases hi : i < out.length
        · simp [o1, hi]
        · have hp : p.getD i 1 = 1 := by
            simp [List.getElem?_eq_none (show p.length ≤ i by omega)]
          have ho : out.getD i 1 = 1 := by
            simp [List.getElem?_eq_none (show out.length ≤ i by omega)]
          rw [hp, ho]
          simp [o1, hi]
      have hm : mergeRev p out = .ok o1 := by
        rw [mergeRev_ok_iff]
        refine ⟨hpl, hl1, fun i => ⟨?_, ho1 i⟩⟩
        have h1 := (hR i).1 out (by simp)
        have h2 := (hR i).1 p (by simp)
        omega
      rw [hm]
      show mergeAll P o1 = _
      rw [ih o1 (fun q hq => by rw [hl1]; exact hlen q (by simp [hq]))]
      refine ⟨hl.trans hl1.symm, fun j => ?_⟩
      obtain ⟨hall, s, hs, hse⟩ := hR j
      have ha := hall out (by simp)
      have hb := hall p (by simp)
      have hv := ho1 j
      constructor
      · intro s hs
        simp only [List.mem_cons] at hs
        rcases hs with rfl | hs
        · split at hv <;> omega
        · exact hall s (by simp [hs])
      · simp only [List.mem_cons] at hs
        rcases hs with rfl | rfl | hs
        · by_cases hp1 : p.getD j 1 = 1
          · exact ⟨o1, by simp, by rw [hv, if_neg (by simpa using hp1)]; exact hse⟩
          · exact ⟨o1, by simp, by rw [hv, if_pos hp1]; omega⟩
        · by_cases hp1 : s.getD j 1 = 1
          · refine ⟨o1, by simp, ?_⟩
            rw [hv, if_neg (by simpa using hp1)]; omega
          · exact ⟨o1, by simp, by rw [hv, if_pos hp1]; omega⟩
        · exact ⟨s, by simp [hs], hse⟩

theorem mergeAll_error (P : List (List ℕ)) (out : List ℕ)
    (hlen : ∀ p ∈ P, p.length ≤ out.length) (e : Err) (h : mergeAll P out = .error e) :
    e = .value := by
  induction P generalizing out with
  | nil => simp [mergeAll] at h
  | cons p P ih =>
    simp only [mergeAll] at h
    cases hm : mergeRev p out with
    | error e' =>
      rw [hm] at h; injection h with h; subst h
      exact mergeRev_error _ _ (hlen p (by simp)) _ hm
    | ok o1 =>
      rw [hm] at h
      obtain ⟨_, hl1, _⟩ := (mergeRev_ok_iff _ _ _).1 hm
      exact ih o1 (fun q hq => by rw [hl1]; exact hlen q (by simp [hq])) h

theorem broadcastLoop_past (skip i : ℕ) (ss : List Shape) (out : List ℕ) (h : skip < i) :
    broadcastLoop skip i ss out = mergeAll (ss.map List.reverse) out := by
  induction ss generalizing i out with
  | nil => rfl
  | cons s ss ih =>
    simp only [broadcastLoop, List.map_cons, mergeAll]
    rw [if_neg (by omega)]
    congr 1
    funext o
    exact ih (i+1) o (by omega)

theorem broadcastLoop_eq (skip i : ℕ) (ss : List Shape) (out : List ℕ) (h : i ≤ skip) :
    broadcastLoop skip i ss out = mergeAll ((ss.eraseIdx (skip - i)).map List.reverse) out := by
  induction ss generalizing i out with
  | nil => rfl
  | cons s ss ih =>
    simp only [broadcastLoop]
    by_cases hi : i = skip
    · subst hi
      rw [if_pos rfl, broadcastLoop_past _ _ _ _ (by omega)]
      simp
    · rw [if_neg hi]
      obtain ⟨k, hk⟩ : ∃ k, skip - i = k + 1 := ⟨skip - i - 1, by omega⟩
      rw [hk, List.eraseIdx_cons_succ, List.map_cons, mergeAll]
      congr 1
      funext o
      rw [ih (i+1) o (by omega)]
      congr 3
      omega

theorem firstLongest_spec (shapes : List Shape) (i : ℕ) (m : Shape)
    (h : firstLongest shapes = some (i, m)) :
    shapes[i]? = some m ∧ ∀ s ∈ shapes, s.length ≤ m.length := by
  induction shapes generalizing i m with
  | nil => simp [firstLongest] at h
  | cons s ss ih =>
    simp only [firstLongest] at h
    cases hf : firstLongest ss with
    | none =>
      rw [hf] at h
      simp only [Option.some.injEq, Prod.mk.injEq] at h
      obtain ⟨rfl, rfl⟩ := h
      have : ss = [] := by
        cases ss with
        | nil => rfl
        | cons a b =>
          simp only [firstLongest] at hf
          split at hf
          · simp at hf
          · split at hf <;> simp at hf
      subst this
      simp
    | some p =>
      obtain ⟨j, m'⟩ := p
      rw [hf] at h
      obtain ⟨h1, h2⟩ := ih j m' hf
      simp only at h
      split at h
      · simp only [Option.some.injEq, Prod.mk.injEq] at h
        obtain ⟨rfl, rfl⟩ := h
        refine ⟨by simpa using h1, ?_⟩
        intro t ht
        simp only [List.mem_cons] at ht
        rcases ht with rfl | ht
        · omega
        · exact h2 t ht
      · simp only [Option.some.injEq, Prod.mk.injEq] at h
        obtain ⟨rfl, rfl⟩ := h
        refine ⟨by simp, ?_⟩
        intro t ht
        simp only [List.mem_cons] at ht
        rcases ht with rfl | ht
        · omega
        · have := h2 t ht; omega

theorem firstLongest_none (shapes : List Shape) : firstLongest shapes = none ↔ shapes = [] := by
  cases shapes with
  | nil => simp [firstLongest]
  | cons a b =>
    simp only [firstLongest]
    split
    · simp
    · split <;> simp

theorem mem_iff_mem_cons_eraseIdx {α : Type} (l : List α) (i : ℕ) (m : α) (h : l[i]? = some m)
    (x : α) : x ∈ l ↔ x ∈ m :: l.eraseIdx i := by
  induction l generalizing i with
  | nil => simp at h
  | cons a l ih =>
    cases i with
    | zero => simp at h; subst h; simp
    | succ i =>
      simp only [List.getElem?_cons_succ] at h
      simp only [List.eraseIdx_cons_succ, List.mem_cons]
      rw [ih i h]
      simp only [List.mem_cons]
      tauto

theorem shapeBroadcast_ok_iff (shapes : List Shape) (out : Shape) :
    shapeBroadcast shapes = .ok out ↔ IsBroadcast shapes out := by
  unfold shapeBroadcast
  cases hf : firstLongest shapes with
  | none =>
    rw [firstLongest_none] at hf; subst hf
    constructor
    · intro h; cases h
    · rintro ⟨_, ⟨s, hs, _⟩, _, _⟩; simp at hs
  | some p =>
    obtain ⟨i, m⟩ := p
    obtain ⟨hm, hmax⟩ := firstLongest_spec _ _ _ hf
    have hmem := mem_iff_mem_cons_eraseIdx shapes i m hm
    simp only
    rw [broadcastLoop_eq i 0 shapes _ (by omega)]
    simp only [Nat.sub_zero]
    have hlen : ∀ p ∈ (shapes.eraseIdx i).map List.reverse, p.length ≤ m.reverse.length := by
      intro p hp
      simp only [List.mem_map] at hp
      obtain ⟨s, hs, rfl⟩ := hp
      simpa using hmax s ((hmem s).2 (by simp [hs]))
    have key := mergeAll_ok_iff _ m.reverse out.reverse hlen
    have hbind : ((mergeAll ((shapes.eraseIdx i).map List.reverse) m.reverse >>= fun o =>
          (pure o.reverse : Except Err Shape)) = .ok out) ↔
        mergeAll ((shapes.eraseIdx i).map List.reverse) m.reverse = .ok out.reverse := by
      cases mergeAll ((shapes.eraseIdx i).map List.reverse) m.reverse with
      | error e => constructor <;> intro h <;> cases h
      | ok o =>
        constructor
        · intro h; injection h with h; rw [← h]; simp
        · intro h; injection h with h; rw [h]
          show (Except.ok _ : Except Err Shape) = _
          simp
    rw [hbind, key]
    constructor
    · rintro ⟨hl, hR⟩
      simp only [List.length_reverse] at hl
      refine ⟨fun s hs => hl ▸ hmax s hs, ⟨m, (hmem m).2 (by simp), hl.symm⟩, ?_, ?_⟩
      · intro j s hs
        refine (hR j).1 s.reverse ?_
        have := (hmem s).1 hs
        simp only [List.mem_cons] at this ⊢
        rcases this with rfl | h
        · simp
        · right; exact List.mem_map_of_mem h
      · intro j
        obtain ⟨s, hs, he⟩ := (hR j).2
        simp only [List.mem_cons, List.mem_map] at hs
        rcases hs with rfl | ⟨t, ht, rfl⟩
        · exact ⟨m, (hmem m).2 (by simp), he⟩
        · exact ⟨t, (hmem t).2 (by simp [ht]), he⟩
    · rintro ⟨h1, ⟨s, hs, hsl⟩, h3, h4⟩
      have hl : out.length = m.length := by
        have := hmax s hs
        have := h1 m ((hmem m).2 (by simp))
        omega
      refine ⟨by simpa using hl, fun j => ⟨?_, ?_⟩⟩
      · intro s hs
        simp only [List.mem_cons, List.mem_map] at hs
        rcases hs with rfl | ⟨t, ht, rfl⟩
        · exact h3 j m ((hmem m).2 (by simp))
        · exact h3 j t ((hmem t).2 (by simp [ht]))
      · obtain ⟨s, hs, he⟩ := h4 j
        have := (hmem s).1 hs
        refine ⟨s.reverse, ?_, he⟩
        simp only [List.mem_cons] at this ⊢
        rcases this with rfl | h
        · simp
        · right; exact List.mem_map_of_mem h

theorem shapeBroadcast_error (shapes : List Shape) (e : Err)
    (h : shapeBroadcast shapes = .error e) : e = .value := by
  unfold shapeBroadcast at h
  cases hf : firstLongest shapes with
  | none => rw [hf] at h; injection h with h; exact h.symm
  | some p =>
    obtain ⟨i, m⟩ := p
    obtain ⟨hm, hmax⟩ := firstLongest_spec _ _ _ hf
    have hmem := mem_iff_mem_cons_eraseIdx shapes i m hm
    rw [hf] at h
    simp only at h
    rw [broadcastLoop_eq i 0 shapes _ (by omega)] at h
    have hlen : ∀ p ∈ (shapes.eraseIdx (i-0)).map List.reverse, p.length ≤ m.reverse.length := by
      intro p hp
      simp only [List.mem_map] at hp
      obtain ⟨s, hs, rfl⟩ := hp
      simpa using hmax s ((hmem s).2 (by simp at hs; simp [hs]))
    cases hr : mergeAll ((shapes.eraseIdx (i-0)).map List.reverse) m.reverse with
    | error e' =>
      rw [hr] at h; injection h with h; subst h
      exact mergeAll_error _ _ hlen _ hr
    | ok o => rw [hr] at h; cases h

theorem exists_isBroadcast_iff (shapes : List Shape) (hne : shapes ≠ []) :
    (∃ out, IsBroadcast shapes out) ↔ Compatible shapes := by
  constructor
  · rintro ⟨out, _, _, h3, _⟩ i s hs t ht
    have := h3 i s hs
    have := h3 i t ht
    omega
  · intro hc
    obtain ⟨⟨i, m⟩, hf⟩ : ∃ p, firstLongest shapes = some p := by
      cases hf : firstLongest shapes with
      | none => rw [firstLongest_none] at hf; exact absurd hf hne
      | some p => exact ⟨p, rfl⟩
    obtain ⟨hm, hmax⟩ := firstLongest_spec _ _ _ hf
    have hmm : m ∈ shapes := List.mem_of_getElem? hm
    -- choose for each axis a shape attaining the maximal information
    have hch : ∀ j, ∃ s ∈ shapes, ∀ t ∈ shapes, sizeAt t j = 1 ∨ sizeAt t j = sizeAt s j := by
      intro j
      by_cases h : ∃ s ∈ shapes, sizeAt s j ≠ 1
      · obtain ⟨s, hs, hs1⟩ := h
        refine ⟨s, hs, fun t ht => ?_⟩
        have := hc j s hs t ht
        omega
      · push Not at h
        exact ⟨m, hmm, fun t ht => Or.inl (h t ht)⟩
    choose f hf1 hf2 using hch
    let outR : List ℕ := (List.range m.length).map (fun j => sizeAt (f j) j)
    have hax : ∀ j, sizeAt outR.reverse j = sizeAt (f j) j := by
      intro j
      unfold sizeAt
      rw [List.reverse_reverse]
      by_cases hj : j < m.length
      · simp [outR, hj, sizeAt]
      · have h1 : sizeAt (f j) j = 1 := by
          have := hmax (f j) (hf1 j)
          unfold sizeAt
          simp [List.getElem?_eq_none (show (f j).reverse.length ≤ j by simp; omega)]
        unfold sizeAt at h1
        rw [h1]
        simp [outR, hj]
    refine ⟨outR.reverse, ?_, ⟨m, hmm, by simp [outR]⟩, ?_, ?_⟩
    · intro s hs; simpa [outR] using hmax s hs
    · intro j s hs; rw [hax]; exact hf2 j s hs
    · intro j; exact ⟨f j, hf1 j, (hax j).symm⟩

end TorchMPS
