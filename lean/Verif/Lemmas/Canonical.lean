import Verif.Lemmas.EvalSeq
import Verif.Lemmas.Amplitude
import Verif.Spec.Canonical
/-
The scale of the outputs of the stable evaluations.
-/
namespace TorchMPS
open Spec
variable {K : Type}

theorem entrySum_eq [RCLike K] (A : Mat K) : entrySum A = A.absSum := rfl

theorem absSum_smul [RCLike K] (c : K) (A : Mat K) : (A.smul c).absSum = ‖c‖ * A.absSum := by
  simp only [Mat.absSum, Mat.smul, norm_mul, Finset.mul_sum]

theorem absSum_divReal [RCLike K] (s : ℝ) (A : Mat K) : (A.divReal s).absSum = A.absSum / |s| := by
  rw [Mat.divReal_eq_smul, absSum_smul, norm_inv, RCLike.norm_ofReal, div_eq_inv_mul]

theorem absSum_transpose [RCLike K] (A : Mat K) : A.transpose.absSum = A.absSum := by
  simp only [Mat.absSum, Mat.transpose]
  exact Finset.sum_comm

theorem seq_fold_absSum [RCLike K] (ms : List (Mat K)) : ∀ (p : Mat K) (l : ℝ) (P : Mat K) (s : ℝ), ms ≠ [] →
    ms.foldl seqStep (some (p, l)) = some (P, s) → P.absSum = Real.sqrt ((P.r * P.c : ℕ) : ℝ) := by
  induction ms with
  | nil => intro p l P s h; exact absurd rfl h
  | cons a ms ih =>
    intro p l P s _ h
    simp only [List.foldl_cons, seqStep] at h
    split at h
    · rw [seqStep_none] at h; cases h
    · rename_i hr
      by_cases hms : ms = []
      · subst hms
        simp only [List.foldl_nil, Option.some.injEq, Prod.mk.injEq] at h
        rw [← h.1, absSum_divReal]
        have hq : Real.sqrt (((p.mul a).r * (p.mul a).c : ℕ) : ℝ) ≠ 0 := fun h0 => hr (by rw [h0, div_zero])
        have hA : (p.mul a).absSum ≠ 0 := fun h0 => hr (by rw [h0, zero_div])
        rw [abs_of_nonneg (div_nonneg (Mat.absSum_nonneg _) (Real.sqrt_nonneg _))]
        show _ = Real.sqrt (((p.mul a).r * (p.mul a).c : ℕ) : ℝ)
        field_simp
      · exact ih _ _ P s hms h

theorem slim_fold_absSum [RCLike K] (D : ℕ) (hD : D ≠ 0) (ms : List (Mat K)) : ∀ (p : Mat K) (l : ℝ) (P : Mat K) (s : ℝ), ms ≠ [] →
    ms.foldl (slimStep D) (some (p, l)) = some (P, s) → P.absSum = D := by
  induction ms with
  | nil => intro p l P s h; exact absurd rfl h
  | cons a ms ih =>
    intro p l P s _ h
    simp only [List.foldl_cons, slimStep] at h
    split at h
    · rw [slimStep_none] at h; cases h
    · rename_i hr
      by_cases hms : ms = []
      · subst hms
        simp only [List.foldl_nil, Option.some.injEq, Prod.mk.injEq] at h
        rw [← h.1, absSum_divReal]
        have hA : (p.mul a).absSum ≠ 0 := fun h0 => hr (by rw [h0, zero_div])
        have hD' : (D : ℝ) ≠ 0 := by exact_mod_cast hD
        rw [abs_of_nonneg (div_nonneg (Mat.absSum_nonneg _) (Nat.cast_nonneg D))]
        field_simp
      · exact ih _ _ P s hms h

theorem parLoop_absSum [RCLike K] (D : ℕ) (n : ℕ) : ∀ (ms : List (Mat K)) (l : ℝ), ms.length = n → 1 < n →
    ∀ P s, parLoop D ms l = some (P, s) → P.absSum = D := by
  induction n using Nat.strong_induction_on with
  | _ n ih =>
  intro ms l hn h1 P s h
  rw [parLoop_step D ms l (by omega)] at h
  rw [Option.bind_eq_some_iff] at h
  obtain ⟨⟨ms', l'⟩, h2, h3⟩ := h
  simp only at h3
  unfold parStep at h2
  simp only at h2
  split at h2
  · cases h2
  rename_i hz
  simp only [Option.some.injEq, Prod.mk.injEq] at h2
  have hlen : ms'.length = ms.length - ms.length / 2 := by rw [← h2.1, List.length_map, parPairs_length]
  by_cases h4 : 1 < ms'.length
  · exact ih ms'.length (by omega) ms' l' rfl h4 P s h3
  · have h5 : ms'.length = 1 := by omega
    obtain ⟨a, rfl⟩ := List.length_eq_one_iff.1 h5
    rw [parLoop_one] at h3
    simp only [Option.some.injEq, Prod.mk.injEq] at h3
    have h6 : a ∈ (parPairs ms).map (fun m => m.divReal (m.absSum / (D : ℝ))) := by rw [h2.1]; simp
    obtain ⟨x, hx, rfl⟩ := List.mem_map.1 h6
    have hx0 : x.absSum / (D : ℝ) ≠ 0 := fun h0 => hz ⟨_, List.mem_map.2 ⟨x, hx, rfl⟩, h0⟩
    rw [← h3.1, absSum_divReal, abs_of_nonneg (div_nonneg (Mat.absSum_nonneg _) (Nat.cast_nonneg D))]
    have hA : x.absSum ≠ 0 := fun h0 => hx0 (by rw [h0, zero_div])
    have hD' : (D : ℝ) ≠ 0 := fun h0 => hx0 (by rw [h0, div_zero])
    field_simp

theorem matReduceSeq_absSum [RCLike K] (m : Mat K) (ms : List (Mat K)) (hne : ms ≠ []) (P : Mat K) (s : ℝ)
    (h : matReduceSeq m ms = some (P, s)) : P.absSum = Real.sqrt ((P.r * P.c : ℕ) : ℝ) := by
  unfold matReduceSeq at h
  simp only at h
  split at h
  · split at h
    · cases h
    · rename_i m' ms' hm
      rw [Option.map_eq_some_iff] at h
      obtain ⟨⟨Q, t⟩, h1, h2⟩ := h
      simp only [Prod.mk.injEq] at h2
      have hne' : ms' ≠ [] := by
        rintro rfl
        have := congrArg List.length hm
        simp at this
        exact hne this
      have := seq_fold_absSum ms' m' 0 Q t hne' h1
      rw [← h2.1, absSum_transpose, this]
      simp only [Mat.transpose]
      rw [Nat.mul_comm]
  · exact seq_fold_absSum ms m 0 P s hne h

/-- a matrix in log format whose mantissa has absolute sum `N > 0` -/
theorem scale_of_mantissa [RCLike K] (P A : Mat K) (s N : ℝ) (hN : 0 < N) (hP : P.absSum = N)
    (h : P.smul (Real.exp s : K) = A) :
    0 < A.absSum / N ∧ s = Real.log (A.absSum / N) ∧ ∀ i j, P.e i j = A.e i j / ((A.absSum / N : ℝ) : K) := by
  have h1 : A.absSum / N = Real.exp s := by
    rw [← h, absSum_smul, RCLike.norm_ofReal, abs_of_pos (Real.exp_pos s), hP]
    field_simp
  refine ⟨by rw [h1]; exact Real.exp_pos s, by rw [h1, Real.log_exp], ?_⟩
  intro i j
  have h2 : (Real.exp s : K) ≠ 0 := by exact_mod_cast (Real.exp_pos s).ne'
  rw [h1, ← h]
  simp only [Mat.smul]
  field_simp

theorem absSum_smul_pos [RCLike K] (P A : Mat K) (s : ℝ) (h : P.smul (Real.exp s : K) = A) : P.r = A.r ∧ P.c = A.c := by
  rw [← h]; exact ⟨rfl, rfl⟩

end TorchMPS
