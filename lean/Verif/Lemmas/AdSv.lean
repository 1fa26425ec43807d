import Verif.Lemmas.AdForward
import Verif.Props.SvdIso
import Mathlib.Data.List.GetD
/-
Lists of singular values, sums over all entries of a tensor, norms.
-/
namespace TorchMPS
open Spec

theorem resized_eq (D : ℕ) (hD : 1 ≤ D) (s : List ℝ) : resizedSvs D s = (List.range D).map (fun k => s.getD k 0) := by
  refine List.ext_getElem ?_ ?_
  · rw [resizedSvs_length, if_neg (by omega)]; simp
  · intro k h1 h2
    have hk : k < D := by simpa using h2
    simp only [List.getElem_map, List.getElem_range]
    unfold resizedSvs
    simp only [if_neg (show ¬ D = 0 by omega)]
    split
    · rename_i h
      rw [List.getElem_take, List.getD_eq_getElem _ _ (by omega)]
    · rename_i h
      by_cases hks : k < s.length
      · rw [List.getElem_append_left hks, List.getD_eq_getElem _ _ hks]
      · rw [List.getElem_append_right (by omega), List.getElem_replicate, List.getD_eq_default _ _ (by omega)]

theorem truncLen_kept (D : ℕ) (hD : 1 ≤ D) (cutoff : ℝ) (s : List ℝ) (h : s.Pairwise (fun a b => b ≤ a)) (h0 : ∀ x ∈ s, 0 ≤ x) :
    truncLen cutoff (resizedSvs D s) = kept D cutoff s := by
  classical
  rw [truncLen_filter _ _ (resizedSvs_sorted D s h h0), resized_eq D hD s, List.filter_map, List.length_map]
  rfl

theorem getD_antitone (s : List ℝ) (h : s.Pairwise (fun a b => b ≤ a)) (h0 : ∀ x ∈ s, 0 ≤ x) (i j : ℕ) (hij : i ≤ j) : s.getD j 0 ≤ s.getD i 0 := by
  by_cases hj : j < s.length
  · rw [List.getD_eq_getElem _ _ hj, List.getD_eq_getElem _ _ (by omega)]
    rcases Nat.lt_or_ge i j with hlt | hge
    · exact List.pairwise_iff_getElem.1 h i j (by omega) hj hlt
    · have : i = j := by omega
      subst this
      exact le_refl _
  · rw [List.getD_eq_default _ _ (by omega)]
    by_cases hi : i < s.length
    · rw [List.getD_eq_getElem _ _ hi]
      exact h0 _ (List.getElem_mem _)
    · rw [List.getD_eq_default _ _ (by omega)]

/-- The kept singular values are the first ones. -/
theorem kept_iff (D : ℕ) (cutoff : ℝ) (s : List ℝ) (h : s.Pairwise (fun a b => b ≤ a)) (h0 : ∀ x ∈ s, 0 ≤ x) (k : ℕ) (hk : k < D)
    (hc : cutoff ≤ s.getD k 0) : k < kept D cutoff s := by
  classical
  unfold kept
  have hsub : (List.range (k + 1)).Sublist ((List.range D).filter (fun k => decide (cutoff ≤ s.getD k 0))) := by
    have h1 : List.range (k + 1) = (List.range (k + 1)).filter (fun k => decide (cutoff ≤ s.getD k 0)) := by
      symm
      rw [List.filter_eq_self]
      intro j hj
      have hj : j < k + 1 := List.mem_range.1 hj
      simp only [decide_eq_true_eq]
      exact le_trans hc (getD_antitone s h h0 j k (by omega))
    rw [h1]
    exact (List.range_sublist.2 (by omega)).filter _
  have := hsub.length_le
  simpa using this

theorem kept_le (D : ℕ) (cutoff : ℝ) (s : List ℝ) : kept D cutoff s ≤ D := by
  classical
  unfold kept
  refine le_trans (List.length_filter_le _ _) (by simp)

theorem sumAll_eq (sh : Shape) (f : List ℕ → ℝ) : sumAll sh f = sumIdx sh f := by
  induction sh generalizing f with
  | nil => rfl
  | cons n sh ih =>
    simp only [sumAll, sumIdx]
    exact Finset.sum_congr rfl (fun i _ => ih _)

theorem sumAll_nonneg (sh : Shape) (f : List ℕ → ℝ) (h : ∀ idx, 0 ≤ f idx) : 0 ≤ sumAll sh f := by
  induction sh generalizing f with
  | nil => exact h _
  | cons n sh ih => exact Finset.sum_nonneg (fun i _ => ih _ (fun idx => h _))

theorem sumAll_zero (sh : Shape) (f : List ℕ → ℝ) (h : ∀ idx, 0 ≤ f idx) (h0 : sumAll sh f = 0) (idx : List ℕ) (hi : InRange idx sh) : f idx = 0 := by
  induction sh generalizing f idx with
  | nil =>
    cases hi
    exact h0
  | cons n sh ih =>
    cases hi with
    | @cons i _ idx _ h1 h2 =>
      have := (Finset.sum_eq_zero_iff_of_nonneg (fun i _ => sumAll_nonneg sh _ (fun idx => h _))).1 h0 i (Finset.mem_range.2 h1)
      exact ih _ (fun idx => h _) this idx h2

theorem normT_zero (t : Tensor ℝ) (h : normT t = 0) (idx : List ℕ) (hi : InRange idx t.shape) : t.get idx = 0 := by
  unfold normT at h
  rw [Real.sqrt_eq_zero (sumAll_nonneg _ _ (fun _ => sq_nonneg _))] at h
  have := sumAll_zero _ _ (fun _ => sq_nonneg _) h idx hi
  exact pow_eq_zero_iff (by decide) |>.1 this

theorem normT_of_zero (t : Tensor ℝ) (h : ∀ idx, InRange idx t.shape → t.get idx = 0) : normT t = 0 := by
  unfold normT
  rw [sumAll_eq, sumIdx_congr _ _ (fun _ => 0) (fun idx hidx => by rw [h idx hidx]; ring), ← sumAll_eq]
  have : ∀ sh, sumAll sh (fun _ => 0) = 0 := by
    intro sh
    induction sh with
    | nil => rfl
    | cons n sh ih => simp [sumAll, ih]
  rw [this, Real.sqrt_zero]

/-- a factor with a non-zero gram entry is not zero -/
theorem normT_ne_zero (t : Tensor ℝ) (w : List Char) (sz : Char → ℕ) (c : Char) (ht : t.shape = w.map sz) (hc : 0 < sz c)
    (h : sumIdx ((w.filter (· ≠ c)).map sz) (fun idx =>
      t.get (w.map (Env.set (Env.ofOut (w.filter (· ≠ c)) idx) c 0)) * t.get (w.map (Env.set (Env.ofOut (w.filter (· ≠ c)) idx) c 0))) ≠ 0) :
    normT t ≠ 0 := by
  intro h0
  apply h
  have hz := normT_zero t h0
  rw [sumIdx_congr _ _ (fun _ => 0) (by
    intro idx hidx
    rw [hz _ (by
      rw [ht, inRange_map]
      intro d hd
      by_cases hdc : d = c
      · simp [Env.set, hdc, hc]
      · simp only [Env.set, if_neg hdc]
        exact Env.ofOut_lt sz _ idx hidx d (by simp [hd, hdc]))]
    ring)]
  have : ∀ sh, sumIdx sh (fun _ => 0) = 0 := by
    intro sh
    induction sh with
    | nil => rfl
    | cons n sh ih => simp [sumIdx, ih]
  exact this _

end TorchMPS
