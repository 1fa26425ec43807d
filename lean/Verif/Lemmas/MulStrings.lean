import Verif.Spec.Contractables
import Mathlib.Data.List.Perm.Subperm
/-
The letters generated by `Contractable.__mul__`.
-/
namespace TorchMPS
open Spec

theorem not_special (c : Char) : c ∉ ['b', 'l', 'r'] ↔ c ≠ 'b' ∧ c ≠ 'l' ∧ c ≠ 'r' := by simp

theorem mem_others {s : List Char} {c : Char} : c ∈ others s ↔ c ∈ s ∧ c ≠ 'b' ∧ c ≠ 'l' ∧ c ≠ 'r' := by
  simp [others]

theorem clashes_cons (s1 : List Char) (c : Char) (s2 : List Char) :
    clashes s1 (c :: s2) = if c ∈ s1 ∧ c ∉ ['b', 'l', 'r'] then c :: clashes s1 s2 else clashes s1 s2 := by
  unfold clashes others
  rw [List.filter_filter, List.filter_filter, List.filter_cons]
  refine if_congr ?_ rfl rfl
  simp [and_comm]

theorem inj_extend (c f : Char) (ρ : Char → Char) (s2 : List Char) (hc : c ∉ s2) (hf : ∀ d ∈ s2, ρ d ≠ f)
    (hi : ∀ x ∈ s2, ∀ y ∈ s2, ρ x = ρ y → x = y) :
    ∀ x ∈ c :: s2, ∀ y ∈ c :: s2, (if x = c then f else ρ x) = (if y = c then f else ρ y) → x = y := by
  intro x hx y hy h
  by_cases hxc : x = c <;> by_cases hyc : y = c
  · rw [hxc, hyc]
  · rw [if_pos hxc, if_neg hyc] at h
    exact absurd h.symm (hf y ((List.mem_cons.1 hy).resolve_left hyc))
  · rw [if_neg hxc, if_pos hyc] at h
    exact absurd h (hf x ((List.mem_cons.1 hx).resolve_left hxc))
  · rw [if_neg hxc, if_neg hyc] at h
    exact hi x ((List.mem_cons.1 hx).resolve_left hxc) y ((List.mem_cons.1 hy).resolve_left hyc) h

theorem renameLoop_spec (s1 : List Char) (s2 free : List Char) (hnd2 : s2.Nodup) (hndf : free.Nodup)
    (hd1 : ∀ f ∈ free, f ∉ s1) (hd2 : ∀ f ∈ free, f ∉ s2) (hlen : (clashes s1 s2).length ≤ free.length) :
    ∃ ρ : Char → Char, renameLoop s1 s2 free = .ok (s2.map ρ, free.drop (clashes s1 s2).length) ∧
      (∀ c ∈ s2, (c ∈ s1 ∧ c ∉ ['b', 'l', 'r'] → ρ c ∈ free.take (clashes s1 s2).length) ∧
        (¬ (c ∈ s1 ∧ c ∉ ['b', 'l', 'r']) → ρ c = c)) ∧
      (∀ c ∈ s2, ∀ d ∈ s2, ρ c = ρ d → c = d) := by
  induction s2 generalizing free with
  | nil => exact ⟨id, rfl, by simp, by simp⟩
  | cons c s2 ih =>
    rw [List.nodup_cons] at hnd2
    rw [clashes_cons] at hlen ⊢
    simp only [renameLoop]
    by_cases hc : c ∈ s1 ∧ c ∉ ['b', 'l', 'r']
    · rw [if_pos hc] at hlen
      simp only [if_pos hc]
      obtain _ | ⟨f, free⟩ := free
      · simp at hlen
      · rw [List.nodup_cons] at hndf
        obtain ⟨ρ, h1, h2, h3⟩ := ih free hnd2.2 hndf.2 (fun x hx => hd1 x (by simp [hx]))
          (fun x hx => fun h => hd2 x (by simp [hx]) (by simp [h])) (by simpa using hlen)
        have hfρ : ∀ d ∈ s2, ρ d ≠ f := by
          intro d hd he
          by_cases hcd : d ∈ s1 ∧ d ∉ ['b', 'l', 'r']
          · exact hndf.1 (he ▸ List.mem_of_mem_take ((h2 d hd).1 hcd))
          · rw [(h2 d hd).2 hcd] at he
            exact hd2 f (by simp) (by simp [← he, hd])
        refine ⟨fun d => if d = c then f else ρ d, ?_, ?_, ?_⟩
        · simp only [h1, bind, Except.bind, pure, Except.pure, List.map_cons, if_true, List.length_cons,
            List.drop_succ_cons]
          congr 3
          refine List.map_congr_left ?_
          intro d hd
          rw [if_neg]
          rintro rfl; exact hnd2.1 hd
        · intro d hd
          by_cases hne : d = c
          · subst hne
            simp only [if_true]
            refine ⟨fun _ => by simp, fun h => absurd hc h⟩
          · have hd' := (List.mem_cons.1 hd).resolve_left hne
            simp only [if_neg hne]
            refine ⟨fun h => ?_, (h2 d hd').2⟩
            have := (h2 d hd').1 h
            simp [this]
        · exact inj_extend c f ρ s2 hnd2.1 hfρ h3
    · rw [if_neg hc] at hlen
      simp only [if_neg hc]
      obtain ⟨ρ, h1, h2, h3⟩ := ih free hnd2.2 hndf hd1
        (fun x hx => fun h => hd2 x hx (by simp [h])) hlen
      have hcρ : ∀ d ∈ s2, ρ d ≠ c := by
        intro d hd he
        by_cases hcd : d ∈ s1 ∧ d ∉ ['b', 'l', 'r']
        · exact hd2 c (he ▸ List.mem_of_mem_take ((h2 d hd).1 hcd)) (by simp)
        · rw [(h2 d hd).2 hcd] at he
          exact hnd2.1 (he ▸ hd)
      refine ⟨fun d => if d = c then c else ρ d, ?_, ?_, ?_⟩
      · simp only [h1, bind, Except.bind, pure, Except.pure, List.map_cons, if_true]
        congr 3
        refine List.map_congr_left ?_
        intro d hd
        rw [if_neg]
        rintro rfl; exact hnd2.1 hd
      · intro d hd
        by_cases hne : d = c
        · subst hne
          simp only [if_true]
          exact ⟨fun h => absurd h hc, fun _ => trivial⟩
        · simp only [if_neg hne]
          exact h2 d ((List.mem_cons.1 hd).resolve_left hne)
      · exact inj_extend c c ρ s2 hnd2.1 hcρ h3

theorem renameLoop_err (s1 : List Char) (s2 free : List Char) (hlen : free.length < (clashes s1 s2).length) :
    renameLoop s1 s2 free = .error .index := by
  induction s2 generalizing free with
  | nil => simp [clashes, others] at hlen
  | cons c s2 ih =>
    rw [clashes_cons] at hlen
    simp only [renameLoop]
    by_cases hc : c ∈ s1 ∧ c ∉ ['b', 'l', 'r']
    · rw [if_pos hc] at hlen
      simp only [if_pos hc]
      obtain _ | ⟨f, free⟩ := free
      · rfl
      · simp only
        rw [ih free (by simpa using hlen)]; rfl
    · rw [if_neg hc] at hlen
      simp only [if_neg hc]
      rw [ih free hlen]; rfl

theorem lowercases_nodup : lowercases.Nodup := by decide

/-- What `mulStrings` produces, in terms of a renaming `ρ` of the letters of the second string and the letter
`σ` of the summed bond. -/
structure MulLetters (s1 s2 t1 t2 out : List Char) (ρ : Char → Char) (σ : Char) : Prop where
  t1_eq : t1 = s1.map (fun c => if c = 'r' then σ else c)
  t2_eq : t2 = s2.map (fun c => if c = 'l' then σ else ρ c)
  out_eq : out = 'b' :: (others s1 ++ (others s2).map ρ ++ (if 'l' ∈ s1 then ['l'] else []) ++
    (if 'r' ∈ s2 then ['r'] else []))
  inj : ∀ c ∈ s2, ∀ d ∈ s2, ρ c = ρ d → c = d
  special : ∀ c ∈ s2, c = 'b' ∨ c = 'l' ∨ c = 'r' → ρ c = c
  keep : ∀ c ∈ s2, c ∉ s1 → ρ c = c
  notin : ∀ c ∈ s2, c ≠ 'b' → c ≠ 'l' → c ≠ 'r' → ρ c ∉ s1
  notspecial : ∀ c ∈ s2, c ≠ 'b' → c ≠ 'l' → c ≠ 'r' → ρ c ≠ 'b' ∧ ρ c ≠ 'l' ∧ ρ c ≠ 'r'
  lower : ∀ c ∈ s2, c ∈ lowercases → ρ c ∈ lowercases
  sig1 : σ ∉ s1
  sig2 : ∀ c ∈ s2, ρ c ≠ σ

theorem mulStrings_spec (s1 s2 : List Char) (h1 : s1.Nodup) (h2 : s2.Nodup) (hb1 : 'b' ∈ s1)
    (hr1 : 'r' ∈ s1) (hl2 : 'l' ∈ s2) (hlen : EnoughLetters s1 s2) :
    ∃ t1 t2 out ρ σ, mulStrings s1 s2 = .ok (t1, t2, out) ∧ MulLetters s1 s2 t1 t2 out ρ σ := by
  unfold EnoughLetters at hlen
  have hff : ∀ f ∈ (lowercases.filter (fun c => c ∉ s1 ∧ c ∉ s2)).reverse, f ∈ lowercases ∧ f ∉ s1 ∧ f ∉ s2 := by
    intro f hf
    simpa using hf
  have hndf : (lowercases.filter (fun c => c ∉ s1 ∧ c ∉ s2)).reverse.Nodup :=
    List.nodup_reverse.2 (lowercases_nodup.filter _)
  rw [← List.length_reverse (as := lowercases.filter _)] at hlen
  generalize hfree : (lowercases.filter (fun c => c ∉ s1 ∧ c ∉ s2)).reverse = free at hff hndf hlen
  obtain ⟨ρ, e1, e2, e3⟩ := renameLoop_spec s1 s2 free h2 hndf (fun f hf => (hff f hf).2.1)
    (fun f hf => (hff f hf).2.2) (by omega)
  obtain ⟨σ, rest, hσ⟩ : ∃ σ rest, free.drop (clashes s1 s2).length = σ :: rest := by
    cases hdr : free.drop (clashes s1 s2).length with
    | nil => rw [List.drop_eq_nil_iff] at hdr; omega
    | cons σ rest => exact ⟨σ, rest, rfl⟩
  have hσf : σ ∈ free := List.mem_of_mem_drop (by rw [hσ]; simp)
  have hσt : σ ∉ free.take (clashes s1 s2).length := by
    intro h
    have hnd := hndf
    rw [← List.take_append_drop (clashes s1 s2).length free, List.nodup_append] at hnd
    exact hnd.2.2 σ h σ (by rw [hσ]; simp) rfl
  obtain ⟨hσ0, hσ1, hσ2⟩ := hff σ hσf
  have hspec : ∀ c ∈ s2, c = 'b' ∨ c = 'l' ∨ c = 'r' → ρ c = c := by
    intro c hc h
    refine (e2 c hc).2 ?_
    rintro ⟨_, h'⟩
    rw [not_special] at h'; tauto
  have hkeep : ∀ c ∈ s2, c ∉ s1 → ρ c = c := fun c hc h => (e2 c hc).2 (fun h' => h h'.1)
  have hfresh : ∀ c ∈ s2, c ≠ 'b' → c ≠ 'l' → c ≠ 'r' → (c ∉ s1 ∧ ρ c = c) ∨ (ρ c ∈ free ∧ ρ c ≠ σ) := by
    intro c hc a1 a2 a3
    by_cases hs : c ∈ s1
    · right
      have := (e2 c hc).1 ⟨hs, (not_special c).2 ⟨a1, a2, a3⟩⟩
      exact ⟨List.mem_of_mem_take this, fun h => hσt (h ▸ this)⟩
    · left; exact ⟨hs, hkeep c hc hs⟩
  have hnotin : ∀ c ∈ s2, c ≠ 'b' → c ≠ 'l' → c ≠ 'r' → ρ c ∉ s1 := by
    intro c hc a1 a2 a3
    rcases hfresh c hc a1 a2 a3 with ⟨hs, h⟩ | ⟨h, _⟩
    · rw [h]; exact hs
    · exact (hff _ h).2.1
  have hnots : ∀ c ∈ s2, c ≠ 'b' → c ≠ 'l' → c ≠ 'r' → ρ c ≠ 'b' ∧ ρ c ≠ 'l' ∧ ρ c ≠ 'r' := by
    intro c hc a1 a2 a3
    rcases hfresh c hc a1 a2 a3 with ⟨_, h⟩ | ⟨h, _⟩
    · rw [h]; exact ⟨a1, a2, a3⟩
    · have := hff _ h
      refine ⟨?_, ?_, ?_⟩
      · rintro he; rw [he] at this; exact this.2.1 hb1
      · rintro he; rw [he] at this; exact this.2.2 hl2
      · rintro he; rw [he] at this; exact this.2.1 hr1
  have hsig2 : ∀ c ∈ s2, ρ c ≠ σ := by
    intro c hc
    by_cases hsp : c = 'b' ∨ c = 'l' ∨ c = 'r'
    · rw [hspec c hc hsp]; rintro rfl; exact hσ2 hc
    · push Not at hsp
      rcases hfresh c hc hsp.1 hsp.2.1 hsp.2.2 with ⟨_, h⟩ | ⟨_, h⟩
      · rw [h]; rintro rfl; exact hσ2 hc
      · exact h
  have hσl : σ ≠ 'l' := by rintro rfl; exact hσ2 hl2
  have hσr : σ ≠ 'r' := by rintro rfl; exact hσ1 hr1
  have hσb : σ ≠ 'b' := by rintro rfl; exact hσ1 hb1
  have ht2 : subst 'l' σ (s2.map ρ) = s2.map (fun c => if c = 'l' then σ else ρ c) := by
    unfold subst
    rw [List.map_map]
    refine List.map_congr_left ?_
    intro c hc
    simp only [Function.comp]
    refine if_congr ?_ rfl rfl
    constructor
    · intro h
      have := hspec 'l' hl2 (by simp)
      exact e3 c hc 'l' hl2 (by rw [h, this])
    · rintro rfl; exact hspec 'l' hl2 (by simp)
  refine ⟨subst 'r' σ s1, s2.map (fun c => if c = 'l' then σ else ρ c),
    'b' :: (others s1 ++ (others s2).map ρ ++ (if 'l' ∈ s1 then ['l'] else []) ++
    (if 'r' ∈ s2 then ['r'] else [])), ρ, σ, ?_, ?_⟩
  rotate_left 1
  · refine ⟨rfl, rfl, rfl, e3, hspec, hkeep, hnotin, hnots, ?_, hσ1, hsig2⟩
    intro c hc hcl
    by_cases hsp : c = 'b' ∨ c = 'l' ∨ c = 'r'
    · rw [hspec c hc hsp]; exact hcl
    · push Not at hsp
      rcases hfresh c hc hsp.1 hsp.2.1 hsp.2.2 with ⟨_, h⟩ | ⟨h, _⟩
      · rw [h]; exact hcl
      · exact (hff _ h).1
  · unfold mulStrings
    simp only [hfree, e1, bind, Except.bind, hσ, ht2, pure, Except.pure]
    congr 4
    have f1 : (subst 'r' σ s1).filter (fun c => c ≠ 'b' ∧ c ≠ 'l' ∧ c ≠ 'r' ∧ c ≠ σ) = others s1 := by
      unfold subst others
      rw [List.filter_map]
      have : ∀ c ∈ s1.filter (fun c => c ≠ 'b' ∧ c ≠ 'l' ∧ c ≠ 'r'), (if c = 'r' then σ else c) = c := by
        intro c hc
        rw [List.mem_filter] at hc
        have := of_decide_eq_true hc.2
        rw [if_neg this.2.2]
      conv_rhs => rw [← List.map_id (s1.filter (fun c => c ≠ 'b' ∧ c ≠ 'l' ∧ c ≠ 'r'))]
      rw [show List.filter ((fun c => decide (c ≠ 'b' ∧ c ≠ 'l' ∧ c ≠ 'r' ∧ c ≠ σ)) ∘ fun x => if x = 'r' then σ else x) s1
        = s1.filter (fun c => c ≠ 'b' ∧ c ≠ 'l' ∧ c ≠ 'r') from ?_]
      · exact List.map_congr_left this
      · refine List.filter_congr ?_
        intro c hc
        simp only [Function.comp]
        by_cases hcr : c = 'r'
        · subst hcr; simp
        · have hcσ : c ≠ σ := by rintro rfl; exact hσ1 hc
          simp [hcr, hcσ]
    have f2 : (s2.map (fun c => if c = 'l' then σ else ρ c)).filter
        (fun c => c ≠ 'b' ∧ c ≠ 'l' ∧ c ≠ 'r' ∧ c ≠ σ) = (others s2).map ρ := by
      unfold others
      rw [List.filter_map]
      have : ∀ c ∈ s2.filter (fun c => c ≠ 'b' ∧ c ≠ 'l' ∧ c ≠ 'r'), (if c = 'l' then σ else ρ c) = ρ c := by
        intro c hc
        rw [List.mem_filter] at hc
        have := of_decide_eq_true hc.2
        rw [if_neg this.2.1]
      rw [show List.filter ((fun c => decide (c ≠ 'b' ∧ c ≠ 'l' ∧ c ≠ 'r' ∧ c ≠ σ)) ∘
          fun c => if c = 'l' then σ else ρ c) s2
        = s2.filter (fun c => c ≠ 'b' ∧ c ≠ 'l' ∧ c ≠ 'r') from ?_]
      · exact List.map_congr_left this
      · refine List.filter_congr ?_
        intro c hc
        simp only [Function.comp]
        rw [decide_eq_decide]
        by_cases hcl : c = 'l'
        · subst hcl; simp
        · simp only [if_neg hcl]
          by_cases hsp : c = 'b' ∨ c = 'r'
          · rw [hspec c hc (by tauto)]
            rcases hsp with rfl | rfl <;> simp
          · push Not at hsp
            have a := hnots c hc hsp.1 hcl hsp.2
            have b := hsig2 c hc
            tauto
    have f3 : 'l' ∈ subst 'r' σ s1 ↔ 'l' ∈ s1 := by
      unfold subst
      rw [List.mem_map]
      constructor
      · rintro ⟨c, hc, h⟩
        by_cases hcr : c = 'r'
        · rw [if_pos hcr] at h; exact absurd h hσl
        · rw [if_neg hcr] at h; rw [← h]; exact hc
      · intro h; exact ⟨'l', h, by simp⟩
    have f4 : 'r' ∈ s2.map (fun c => if c = 'l' then σ else ρ c) ↔ 'r' ∈ s2 := by
      rw [List.mem_map]
      constructor
      · rintro ⟨c, hc, h⟩
        by_cases hcl : c = 'l'
        · rw [if_pos hcl] at h; exact absurd h hσr
        · rw [if_neg hcl] at h
          by_cases hcr : c = 'r'
          · rw [← hcr]; exact hc
          · by_cases hcb : c = 'b'
            · rw [hspec c hc (by tauto)] at h; exact absurd h hcr
            · exact absurd h (hnots c hc hcb hcl hcr).2.2
      · intro h; exact ⟨'r', h, by rw [if_neg (by decide), hspec 'r' h (by simp)]⟩
    rw [f1, f2]
    congr 2
    · rw [if_congr f3 rfl rfl]
    · exact propext f4

theorem mulStrings_err (s1 s2 : List Char) (h1 : s1.Nodup) (h2 : s2.Nodup) (hlen : ¬ EnoughLetters s1 s2) :
    mulStrings s1 s2 = .error .index := by
  unfold EnoughLetters at hlen
  push Not at hlen
  unfold mulStrings
  simp only
  rw [← List.length_reverse (as := lowercases.filter _)] at hlen
  have hff : ∀ f ∈ (lowercases.filter (fun c => c ∉ s1 ∧ c ∉ s2)).reverse, f ∈ lowercases ∧ f ∉ s1 ∧ f ∉ s2 := by
    intro f hf
    simpa using hf
  have hndf : (lowercases.filter (fun c => c ∉ s1 ∧ c ∉ s2)).reverse.Nodup :=
    List.nodup_reverse.2 (lowercases_nodup.filter _)
  generalize (lowercases.filter (fun c => c ∉ s1 ∧ c ∉ s2)).reverse = free at hff hndf hlen
  rcases Nat.lt_or_ge free.length (clashes s1 s2).length with h | h
  · rw [renameLoop_err s1 s2 free h]; rfl
  · obtain ⟨ρ, e1, _, _⟩ := renameLoop_spec s1 s2 free h2 hndf (fun f hf => (hff f hf).2.1)
      (fun f hf => (hff f hf).2.2) h
    rw [e1]
    simp only [bind, Except.bind]
    rw [List.drop_eq_nil_of_le (by omega)]

end TorchMPS
