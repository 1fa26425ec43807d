import Verif.Spec.Svd
import Mathlib.Data.Finset.Card
import Mathlib.Data.List.Nodup
import Mathlib.Data.Finset.Dedup
/-
Parsing and checking of the index string of `svd_flex`.
-/
namespace TorchMPS

theorem splitArrow_join (s : List Char) :
    ∃ h t, splitArrow s = h :: t ∧ s = h ++ t.flatMap (fun x => '-' :: '>' :: x) := by
  fun_induction splitArrow s with
  | case1 => exact ⟨[], [], rfl, rfl⟩
  | case2 r ih =>
    obtain ⟨h, t, e1, e2⟩ := ih
    refine ⟨[], splitArrow r, rfl, ?_⟩
    rw [e1]; simp [← e2]
  | case3 c r hne h t heq ih =>
    obtain ⟨h', t', e1, e2⟩ := ih
    rw [heq] at e1
    injection e1 with e3 e4
    subst e3; subst e4
    exact ⟨c :: h, t, rfl, by simp [← e2]⟩
  | case4 c r hne heq ih =>
    obtain ⟨h', t', e1, e2⟩ := ih
    rw [heq] at e1; simp at e1

theorem splitComma_join (s : List Char) :
    ∃ h t, splitComma s = h :: t ∧ s = h ++ t.flatMap (fun x => ',' :: x) := by
  induction s with
  | nil => exact ⟨[], [], rfl, rfl⟩
  | cons c r ih =>
    obtain ⟨h, t, e1, e2⟩ := ih
    simp only [splitComma]
    split
    · rename_i hc
      refine ⟨[], splitComma r, rfl, ?_⟩
      rw [e1]; simp [← e2, hc]
    · rw [e1]
      exact ⟨c :: h, t, rfl, by simp [← e2]⟩

theorem splitArrow_noDash (s : List Char) (h : '-' ∉ s) : splitArrow s = [s] := by
  fun_induction splitArrow s with
  | case1 => rfl
  | case2 r ih => simp at h
  | case3 c r hne h' t heq ih =>
    simp only [List.mem_cons, not_or] at h
    rw [ih h.2] at heq
    injection heq with e1 e2
    rw [← e1, ← e2]
  | case4 c r hne heq ih =>
    simp only [List.mem_cons, not_or] at h
    rw [ih h.2] at heq; simp at heq

theorem splitArrow_append (a b : List Char) (ha : '-' ∉ a) :
    splitArrow (a ++ '-' :: '>' :: b) = a :: splitArrow b := by
  induction a with
  | nil => simp [splitArrow]
  | cons c a ih =>
    simp only [List.mem_cons, not_or] at ha
    have ih := ih ha.2
    rw [List.cons_append, splitArrow.eq_def]
    split
    · rename_i h; simp at h
    · rename_i r h
      exfalso
      injection h with h1 h2
      exact ha.1 h1.symm
    · rename_i c' r' hne h
      injection h with h1 h2
      subst h1; subst h2
      rw [ih]

theorem splitComma_noComma (s : List Char) (h : ',' ∉ s) : splitComma s = [s] := by
  induction s with
  | nil => rfl
  | cons c r ih =>
    simp only [List.mem_cons, not_or] at h
    simp only [splitComma]
    rw [if_neg (Ne.symm h.1), ih h.2]

theorem splitComma_append (a b : List Char) (ha : ',' ∉ a) :
    splitComma (a ++ ',' :: b) = a :: splitComma b := by
  induction a with
  | nil => simp [splitComma]
  | cons c a ih =>
    simp only [List.mem_cons, not_or] at ha
    simp only [List.cons_append, splitComma]
    rw [if_neg (Ne.symm ha.1), ih ha.2]

theorem parseSvd_ok {s ini l r : List Char} (h : parseSvd s = .ok (ini, l, r)) :
    s.filter (· ≠ ' ') = Spec.svdStr ini l r := by
  unfold parseSvd at h
  obtain ⟨h1, t1, e1, e2⟩ := splitArrow_join (s.filter (· ≠ ' '))
  rw [e1] at h
  obtain _ | ⟨p, t1⟩ := t1
  · simp at h
  obtain _ | ⟨p', t1⟩ := t1
  · simp only at h
    obtain ⟨h2, t2, e3, e4⟩ := splitComma_join p
    rw [e3] at h
    obtain _ | ⟨q, t2⟩ := t2
    · simp at h
    obtain _ | ⟨q', t2⟩ := t2
    · simp only [Except.ok.injEq, Prod.mk.injEq] at h
      obtain ⟨rfl, rfl, rfl⟩ := h
      rw [e2, e4]; simp [Spec.svdStr]
    · simp at h
  · simp at h

theorem isLower_dash : ('-' : Char).isLower = false := by decide
theorem isLower_comma : (',' : Char).isLower = false := by decide
theorem isLower_space : (' ' : Char).isLower = false := by decide

theorem parseSvd_of {s ini l r : List Char} (hl : ∀ d ∈ ini ++ l ++ r, d.isLower = true)
    (h : s.filter (· ≠ ' ') = Spec.svdStr ini l r) : parseSvd s = .ok (ini, l, r) := by
  have no : ∀ x : Char, x.isLower = false → ∀ g ∈ [ini, l, r], x ∉ g := by
    intro x hx g hg hxg
    have : x.isLower = true := by
      refine hl x ?_
      simp at hg
      rcases hg with rfl | rfl | rfl <;> simp [hxg]
    simp [hx] at this
  have hi := no '-' isLower_dash ini (by simp)
  have hld := no '-' isLower_dash l (by simp)
  have hrd := no '-' isLower_dash r (by simp)
  have hlc := no ',' isLower_comma l (by simp)
  have hrc := no ',' isLower_comma r (by simp)
  unfold parseSvd
  rw [h]
  have e1 : splitArrow (Spec.svdStr ini l r) = [ini, l ++ ',' :: r] := by
    have : Spec.svdStr ini l r = ini ++ '-' :: '>' :: (l ++ ',' :: r) := by simp [Spec.svdStr]
    rw [this, splitArrow_append _ _ hi, splitArrow_noDash]
    simp [hld, hrd]
  rw [e1]
  simp only
  rw [splitComma_append _ _ hlc, splitComma_noComma _ hrc]

theorem dedup_length_le (l : List Char) : l.dedup.length ≤ l.length := (List.dedup_sublist l).length_le

theorem nodup_of_dedup_length {l : List Char} (h : l.dedup.length = l.length) : l.Nodup := by
  rw [← (List.dedup_sublist l).eq_of_length h]; exact List.nodup_dedup l

theorem checkSvd_ok_iff {ini l r : List Char} {u : Unit} : checkSvd ini l r = .ok u ↔
    (∀ c ∈ ini ++ l ++ r, c.isLower = true) ∧ (ini ++ l ++ r).dedup.length = ini.length + 1 ∧
      ini.Nodup ∧ l.Nodup ∧ r.Nodup := by
  unfold checkSvd
  by_cases h1 : ∀ c ∈ ini ++ l ++ r, c.isLower = true
  · rw [assert_true _ h1]
    by_cases h2 : (ini ++ l ++ r).dedup.length = ini.length + 1
    · rw [assert_true _ h2]
      simp only [bind, Except.bind]
      rw [assert_ok_iff]
      constructor
      · intro h
        have a := dedup_length_le ini
        have b := dedup_length_le l
        have c := dedup_length_le r
        exact ⟨h1, h2, nodup_of_dedup_length (by omega), nodup_of_dedup_length (by omega),
          nodup_of_dedup_length (by omega)⟩
      · rintro ⟨_, _, a, b, c⟩
        rw [a.dedup, b.dedup, c.dedup]
    · rw [assert_false _ h2]
      simp only [bind, Except.bind]
      constructor
      · intro h; simp at h
      · intro h; exact absurd h.2.1 h2
  · rw [assert_false _ h1]
    simp only [bind, Except.bind]
    constructor
    · intro h; simp at h
    · intro h; exact absurd h.1 h1

theorem checkSvd_err {ini l r : List Char} {e : Err} (h : checkSvd ini l r = .error e) :
    ¬ ∃ c, Spec.SvdString ini l r c := by
  rintro ⟨c, hs⟩
  have : checkSvd ini l r = .ok () := by
    rw [checkSvd_ok_iff]
    refine ⟨hs.lower, ?_, hs.nodupIni, hs.nodupL, hs.nodupR⟩
    have hp : List.Perm (ini ++ l ++ r).dedup (c :: ini) := by
      rw [List.perm_ext_iff_of_nodup (List.nodup_dedup _) (by simp [hs.new, hs.nodupIni])]
      intro d
      simp only [List.mem_dedup, List.mem_append, List.mem_cons]
      constructor
      · rintro ((h | h) | h)
        · exact Or.inr h
        · exact hs.subL d h
        · exact hs.subR d h
      · rintro (rfl | h)
        · exact Or.inl (Or.inr hs.left)
        · exact Or.inl (Or.inl h)
    rw [hp.length_eq]; simp
  rw [this] at h; simp at h

theorem Spec.SvdString.check {ini l r : List Char} {c : Char} (hs : Spec.SvdString ini l r c) :
    checkSvd ini l r = .ok () := by
  cases h : checkSvd ini l r with
  | ok u => rfl
  | error e => exact absurd ⟨c, hs⟩ (checkSvd_err h)

theorem Spec.SvdString.bond {ini l r : List Char} {c : Char} (hs : Spec.SvdString ini l r c)
    (pop : List Char → Char) (hpop : ∀ x xs, pop (x :: xs) ∈ x :: xs) : bondChar pop l r = .ok c := by
  unfold bondChar
  have hm : ∀ d, d ∈ l.dedup.filter (· ∈ r) ↔ d = c := by
    intro d
    simp only [List.mem_filter, List.mem_dedup, decide_eq_true_eq]
    constructor
    · rintro ⟨h1, h2⟩; exact hs.disjoint d h1 h2
    · rintro rfl; exact ⟨hs.left, hs.right⟩
  cases hq : l.dedup.filter (· ∈ r) with
  | nil =>
    have := (hm c).2 rfl
    rw [hq] at this; simp at this
  | cons x xs =>
    simp only
    have := hpop x xs
    rw [← hq, hm] at this
    rw [← hq, this]

/-- conversely: when the checks pass and the permutation `ini -> lp rp` is a legal einsum, the string is
well-formed -/
theorem svdString_of {ini l r : List Char} {c : Char} (pop : List Char → Char)
    (hpop : ∀ x xs, pop (x :: xs) ∈ x :: xs) (hc : checkSvd ini l r = .ok ()) (hb : bondChar pop l r = .ok c)
    (hnd : (l.filter (· ≠ c) ++ r.filter (· ≠ c)).Nodup)
    (hsub : ∀ d ∈ l.filter (· ≠ c) ++ r.filter (· ≠ c), d ∈ ini) : Spec.SvdString ini l r c := by
  rw [checkSvd_ok_iff] at hc
  obtain ⟨h1, h2, h3, h4, h5⟩ := hc
  have hcm : c ∈ l ∧ c ∈ r := by
    unfold bondChar at hb
    cases hq : l.dedup.filter (· ∈ r) with
    | nil => rw [hq] at hb; simp at hb
    | cons x xs =>
      rw [hq] at hb
      simp only [Except.ok.injEq] at hb
      have := hpop x xs
      rw [hb, ← hq] at this
      simpa using this
  have subL : ∀ d ∈ l, d = c ∨ d ∈ ini := by
    intro d hd
    by_cases h : d = c
    · exact Or.inl h
    · exact Or.inr (hsub d (by simp [hd, h]))
  have subR : ∀ d ∈ r, d = c ∨ d ∈ ini := by
    intro d hd
    by_cases h : d = c
    · exact Or.inl h
    · exact Or.inr (hsub d (by simp [hd, h]))
  refine ⟨h1, h3, h4, h5, ?_, hcm.1, hcm.2, subL, subR, ?_⟩
  · intro hci
    have hp : List.Perm (ini ++ l ++ r).dedup ini := by
      rw [List.perm_ext_iff_of_nodup (List.nodup_dedup _) h3]
      intro d
      simp only [List.mem_dedup, List.mem_append]
      constructor
      · rintro ((h | h) | h)
        · exact h
        · rcases subL d h with rfl | h; exacts [hci, h]
        · rcases subR d h with rfl | h; exacts [hci, h]
      · intro h; exact Or.inl (Or.inl h)
    have := hp.length_eq
    omega
  · intro d hl hr
    by_contra hne
    rw [List.nodup_append] at hnd
    exact hnd.2.2 d (by simp [hl, hne]) d (by simp [hr, hne]) rfl

end TorchMPS
