import Verif.Props.Adaptive
/-
C65: the parameters of the merge state not in use.
-/
namespace TorchMPS
open Spec

theorem overwrite_same (l l' new : List (Module ℝ)) (h : List.Forall₂ Retuned l l') (hlen : l.length = new.length) :
    (overwrite l new).1 = (overwrite l' new).1 ∧ ((overwrite l new).1 = .ok () → (overwrite l new).2 = (overwrite l' new).2) := by
  induction h generalizing new with
  | nil => exact ⟨rfl, fun _ => rfl⟩
  | @cons m m' l l' h1 h2 ih =>
    match new, hlen with
    | n :: new, hlen =>
      obtain ⟨t, t1, rfl⟩ := h1
      have hs : (m.setTensor t).tensor.shape = m.tensor.shape := by
        rw [← t1]
        cases m <;> rfl
      have hset : (m.setTensor t).setTensor n.tensor = m.setTensor n.tensor := by
        cases m <;> rfl
      obtain ⟨i1, i2⟩ := ih new (by simpa using hlen)
      simp only [overwrite]
      rw [hs]
      by_cases hsh : m.tensor.shape = n.tensor.shape
      · rw [if_pos hsh, if_pos hsh]
        simp only
        exact ⟨i1, fun hok => by rw [i2 hok, hset]⟩
      · rw [if_neg hsh, if_neg hsh]
        exact ⟨rfl, fun hok => by simp at hok⟩

theorem updateList_same (l l' new : List (Module ℝ)) (h : List.Forall₂ Retuned l l') :
    (updateList l new).1 = (updateList l' new).1 ∧ ((updateList l new).1 = .ok () → (updateList l new).2 = (updateList l' new).2) := by
  unfold updateList
  rw [← h.length_eq]
  by_cases hlen : l.length = new.length
  · rw [if_pos hlen, if_pos hlen]
    exact overwrite_same l l' new h hlen
  · rw [if_neg hlen, if_neg hlen]
    exact ⟨rfl, fun hok => by simp at hok⟩

/-- the same model but for the modules not in use -/
def SameUsed (m m' : AdMps) : Prop := m.region.offset ≤ 1 ∧ ∃ l, List.Forall₂ Retuned (inactive m) l ∧ m' = withInactive m l

theorem retuned_refl (l : List (Module ℝ)) : List.Forall₂ Retuned l l := by
  induction l with
  | nil => exact .nil
  | cons m l ih => exact .cons ⟨m.tensor, rfl, by cases m <;> rfl⟩ ih

theorem sameUsed_refl (m : AdMps) (h : m.region.offset ≤ 1) : SameUsed m m := by
  refine ⟨h, inactive m, retuned_refl _, ?_⟩
  unfold withInactive inactive AdRegion.setList AdRegion.listAt
  split <;> rfl

theorem flip_same (svd : Mat ℝ → SVD) (pop : List Char → Char) (r : AdRegion) (hp : r.offset ≤ 1) (l : List (Module ℝ))
    (hl : List.Forall₂ Retuned (r.listAt (1 - r.offset)) l) :
    (r.flip svd pop).1 = ((r.setList (1 - r.offset) l).flip svd pop).1 ∧
    (∀ b, (r.flip svd pop).1 = .ok b → (r.flip svd pop).2 = ((r.setList (1 - r.offset) l).flip svd pop).2 ∧ (r.flip svd pop).2.offset ≤ 1) := by
  have h01 : r.offset = 0 ∨ r.offset = 1 := by omega
  have e1 : (r.setList (1 - r.offset) l).offset = r.offset ∧ (r.setList (1 - r.offset) l).cutoff = r.cutoff ∧
      (r.setList (1 - r.offset) l).listAt r.offset = r.listAt r.offset ∧ (r.setList (1 - r.offset) l).listAt (1 - r.offset) = l ∧
      (r.setList (1 - r.offset) l).counter = r.counter ∧ (r.setList (1 - r.offset) l).threshold = r.threshold := by
    rcases h01 with h | h <;> rw [h] <;> exact ⟨by simp [AdRegion.setList, h], rfl, rfl, rfl, rfl, rfl⟩
  obtain ⟨e1, e2, e3, e4, e5, e6⟩ := e1
  unfold AdRegion.flip
  rw [e1, e2, e3]
  cases hu : unmergeList svd pop r.cutoff (r.listAt r.offset) with
  | error e => exact ⟨rfl, fun b hb => by simp at hb⟩
  | ok v =>
    obtain ⟨ms, bonds⟩ := v
    have ho : (r.offset + 1) % 2 = 1 - r.offset := by omega
    simp only [ho]
    cases hm : mergeList (1 - r.offset) ms with
    | error e => exact ⟨rfl, fun b hb => by simp at hb⟩
    | ok new =>
      simp only
      have x1 : AdRegion.listAt { r with stray := some ms, offset := 1 - r.offset } (1 - r.offset) = r.listAt (1 - r.offset) := rfl
      have x2 : AdRegion.listAt ⟨(r.setList (1 - r.offset) l).list0, (r.setList (1 - r.offset) l).list1, 1 - r.offset, some ms,
          (r.setList (1 - r.offset) l).counter, (r.setList (1 - r.offset) l).threshold, r.cutoff⟩ (1 - r.offset) = l := e4
      rw [x1, x2]
      obtain ⟨u1, u2⟩ := updateList_same _ l new hl
      obtain ⟨a, la, ha⟩ : ∃ a la, updateList (r.listAt (1 - r.offset)) new = (a, la) := ⟨_, _, rfl⟩
      obtain ⟨b, lb, hb⟩ : ∃ b lb, updateList l new = (b, lb) := ⟨_, _, rfl⟩
      rw [ha, hb] at u1 u2 ⊢
      simp only at u1 u2
      subst u1
      cases a with
      | error e => exact ⟨rfl, fun b hb => by simp at hb⟩
      | ok _ =>
        have := u2 rfl
        subst this
        refine ⟨rfl, fun _ _ => ⟨?_, ?_⟩⟩
        · rcases h01 with h | h <;> simp [h, AdRegion.setList]
        · rcases h01 with h | h <;> simp [h, AdRegion.setList]

theorem forward_same (svd : Mat ℝ → SVD) (pop : List Char → Char) (m m' : AdMps) (hs : SameUsed m m') (x : Tensor ℝ) (g : Option ℕ) :
    (m.forward svd pop x g).1 = (m'.forward svd pop x g).1 ∧ (m.forward svd pop x g).2.2 = (m'.forward svd pop x g).2.2 ∧
    (∀ y, (m.forward svd pop x g).1 = .ok y → SameUsed (m.forward svd pop x g).2.1 (m'.forward svd pop x g).2.1) := by
  obtain ⟨hp, l, hl, rfl⟩ := hs
  have h01 : m.region.offset = 0 ∨ m.region.offset = 1 := by omega
  unfold AdMps.forward
  have em : (withInactive m l).mps = m.mps := rfl
  rw [em]
  cases (followPath m.mps.path x >>= m.mps.embedInput) with
  | error e => exact ⟨rfl, rfl, fun y hy => by simp at hy⟩
  | ok e =>
    simp only [AdRegion.maybeFlip]
    have ec : (withInactive m l).region.counter = m.region.counter ∧ (withInactive m l).region.threshold = m.region.threshold := by
      rcases h01 with h | h <;> simp [withInactive, AdRegion.setList, h]
    rw [ec.1, ec.2]
    by_cases hdue : m.region.counter ≥ m.region.threshold
    · rw [if_pos hdue, if_pos hdue]
      obtain ⟨f1, f2⟩ := flip_same svd pop m.region hp l hl
      have er : (withInactive m l).region = m.region.setList (1 - m.region.offset) l := rfl
      rw [er]
      obtain ⟨a, ra, ha⟩ : ∃ a ra, m.region.flip svd pop = (a, ra) := ⟨_, _, rfl⟩
      obtain ⟨b, rb, hb⟩ : ∃ b rb, (m.region.setList (1 - m.region.offset) l).flip svd pop = (b, rb) := ⟨_, _, rfl⟩
      rw [ha, hb] at f1 f2 ⊢
      simp only at f1 f2
      subst f1
      cases a with
      | error e => exact ⟨rfl, rfl, fun y hy => by simp at hy⟩
      | ok nb =>
        obtain ⟨f3, f4⟩ := f2 nb rfl
        subst f3
        simp only
        have hb1 : (withInactive m l).bondList = m.bondList ∧ (withInactive m l).svList = m.svList := ⟨rfl, rfl⟩
        rw [hb1.1, hb1.2]
        cases linearForward (AdRegion.active { ra with counter := ra.counter + e.shape.getD 0 0 }) m.mps.periodic m.mps.parallel e g with
        | mk res g' =>
          cases res with
          | error er => exact ⟨rfl, rfl, fun y hy => by simp at hy⟩
          | ok y =>
            simp only
            split
            · refine ⟨by first | rfl | trivial, by first | rfl | trivial, fun _ _ => ?_⟩
              exact sameUsed_refl _ f4
            · exact ⟨by first | rfl | trivial, by first | rfl | trivial, fun y hy => by simp at hy⟩
    · rw [if_neg hdue, if_neg hdue]
      simp only
      have ea : AdRegion.active ⟨(withInactive m l).region.list0, (withInactive m l).region.list1, (withInactive m l).region.offset,
          (withInactive m l).region.stray, (withInactive m l).region.counter + e.shape.getD 0 0, (withInactive m l).region.threshold,
          (withInactive m l).region.cutoff⟩ =
          AdRegion.active { m.region with counter := m.region.counter + e.shape.getD 0 0 } := by
        rcases h01 with h | h <;> simp [withInactive, AdRegion.setList, AdRegion.active, AdRegion.listAt, h]
      rw [ea]
      cases linearForward (AdRegion.active { m.region with counter := m.region.counter + e.shape.getD 0 0 }) m.mps.periodic m.mps.parallel e g with
      | mk res g' =>
        cases res with
        | error er => exact ⟨rfl, rfl, fun y hy => by simp at hy⟩
        | ok y =>
          refine ⟨rfl, rfl, fun _ _ => ⟨hp, l, hl, ?_⟩⟩
          rcases h01 with h | h <;> simp [withInactive, AdRegion.setList, h]

/-- C65: two runs of a program that differ only in the values of the parameters not in use, at the beginning and in every update,
give the same results. (A program ends at the first exception.) -/
theorem C65_inactive (svd : Mat ℝ → SVD) (pop : List Char → Char) (m : AdMps) (hm : m.region.offset ≤ 1) (l : List (Module ℝ))
    (hl : List.Forall₂ Retuned (inactive m) l) (g : Option ℕ) (ss ss' : List AdStep) (h : List.Forall₂ SameStep ss ss') :
    results svd pop m g ss = results svd pop (withInactive m l) g ss' := by
  have hs : SameUsed m (withInactive m l) := ⟨hm, l, hl, rfl⟩
  generalize withInactive m l = m' at hs
  clear hl hm
  induction h generalizing m m' g with
  | nil => rfl
  | @cons s s' ss ss' h1 h2 ih =>
    cases s <;> cases s' <;> first | exact h1.elim | skip
    · rename_i x x'
      have h1 : x = x' := h1
      subst h1
      simp only [results]
      obtain ⟨f1, f2, f3⟩ := forward_same svd pop m m' hs x g
      obtain ⟨a, ma, ga, ha⟩ : ∃ a ma ga, m.forward svd pop x g = (a, ma, ga) := ⟨_, _, _, rfl⟩
      obtain ⟨b, mb, gb, hb⟩ : ∃ b mb gb, m'.forward svd pop x g = (b, mb, gb) := ⟨_, _, _, rfl⟩
      rw [ha, hb] at f1 f2 f3
      simp only at f1 f2 f3
      rw [ha, hb]
      subst f1
      subst f2
      cases a with
      | error e => rfl
      | ok y =>
        simp only
        rw [ih ma ga mb (f3 y rfl)]
    · rename_i u v u' v'
      obtain ⟨rfl, h1⟩ := h1
      simp only [results]
      refine ih _ g _ ?_
      obtain ⟨hp, l, hl, rfl⟩ := hs
      have h01 : m.region.offset = 0 ∨ m.region.offset = 1 := by omega
      refine ⟨?_, v', ?_, ?_⟩
      · rcases h01 with h | h <;> simp [withActive, withInactive, AdRegion.setList, h]
      · rcases h01 with h | h <;> simp [withActive, withInactive, inactive, AdRegion.listAt, AdRegion.setList, h] <;> exact h1
      · rcases h01 with h | h <;> simp [withActive, withInactive, AdRegion.setList, h]
    · rename_i x x'
      have h1 : x = x' := h1
      subst h1
      simp only [results]
      exact ih _ _ _ hs
    · rename_i x x'
      have h1 : x = x' := h1
      subst h1
      simp only [results]
      obtain ⟨hp, l, hl, rfl⟩ := hs
      have em : (withInactive m l).mps = m.mps := rfl
      rw [em]
      cases m.mps.registerFeatureMap x with
      | error e => rfl
      | ok mps' =>
        simp only
        exact ih _ g _ ⟨hp, l, hl, rfl⟩

end TorchMPS
