import Verif.Lemmas.SvNorm
import Mathlib.Analysis.InnerProductSpace.PiL2
/-
The truncated singular value decomposition is the best approximation of its rank.
-/
namespace TorchMPS
open Spec

/-- the distance of a vector to a subspace with orthonormal basis `e` -/
theorem dist_sq_ge {E : Type} [NormedAddCommGroup E] [InnerProductSpace ℝ E] {ι : Type} [Fintype ι]
    (W : Submodule ℝ E) (e : OrthonormalBasis ι ℝ W) (a b : E) (hb : b ∈ W) :
    ‖a‖ ^ 2 - ∑ i, (inner ℝ (e i : E) a) ^ 2 ≤ ‖a - b‖ ^ 2 := by
  have hbs : ∑ i, (inner ℝ (e i : E) b) ^ 2 = ‖b‖ ^ 2 := by
    have := e.sum_sq_norm_inner_right ⟨b, hb⟩
    simpa using this
  have hon : Orthonormal ℝ (fun i => (e i : E)) := e.orthonormal.comp_linearIsometry W.subtypeₗᵢ
  have hbes := hon.sum_inner_products_le (s := Finset.univ) (a - b)
  have hbe : b = ∑ i, (inner ℝ (e i : E) b) • (e i : E) := by
    have := e.sum_repr' ⟨b, hb⟩
    have h2 := congrArg (Submodule.subtype W) this
    simp at h2
    exact h2.symm
  have hab : inner ℝ a b = ∑ i, inner ℝ (e i : E) a * inner ℝ (e i : E) b := by
    conv_lhs => rw [hbe]
    rw [inner_sum]
    refine Finset.sum_congr rfl fun i _ => ?_
    rw [inner_smul_right, real_inner_comm (e i : E) a, mul_comm]
  rw [norm_sub_sq_real, hab]
  have h3 : 0 ≤ ∑ i, (inner ℝ (e i : E) a - inner ℝ (e i : E) b) ^ 2 := Finset.sum_nonneg fun i _ => sq_nonneg _
  have h4 : ∑ i, (inner ℝ (e i : E) a - inner ℝ (e i : E) b) ^ 2 =
      ∑ i, (inner ℝ (e i : E) a) ^ 2 - 2 * ∑ i, inner ℝ (e i : E) a * inner ℝ (e i : E) b +
        ∑ i, (inner ℝ (e i : E) b) ^ 2 := by
    rw [Finset.mul_sum, ← Finset.sum_sub_distrib, ← Finset.sum_add_distrib]
    exact Finset.sum_congr rfl fun i _ => by ring
  rw [hbs] at h4
  linarith

/-- a weighted sum of decreasing non-negative numbers, with weights at most one and of sum at most `T` -/
theorem weighted_le (q T : ℕ) (hT : T ≤ q) (σ w : ℕ → ℝ) (hσ : ∀ i j, i ≤ j → j < q → σ j ≤ σ i) (h0 : ∀ i < q, 0 ≤ σ i)
    (hw0 : ∀ i < q, 0 ≤ w i) (hw1 : ∀ i < q, w i ≤ 1) (hw : ∑ i ∈ Finset.range q, w i ≤ T) :
    ∑ i ∈ Finset.range q, σ i * w i ≤ ∑ i ∈ Finset.range T, σ i := by
  rcases Nat.eq_zero_or_pos T with rfl | hTp
  · have : ∀ i ∈ Finset.range q, w i = 0 := by
      have h := (Finset.sum_eq_zero_iff_of_nonneg (fun i hi => hw0 i (Finset.mem_range.1 hi))).1
        (le_antisymm (by simpa using hw) (Finset.sum_nonneg fun i hi => hw0 i (Finset.mem_range.1 hi)))
      exact h
    rw [Finset.sum_congr rfl fun i hi => by rw [this i hi, mul_zero]]
    simp
  · set s := σ (T - 1) with hs
    have hs0 : 0 ≤ s := h0 _ (by omega)
    rw [← Finset.sum_range_add_sum_Ico _ hT] at hw ⊢
    have h1 : ∑ i ∈ Finset.range T, σ i * w i ≤ ∑ i ∈ Finset.range T, (σ i - s * (1 - w i)) := by
      refine Finset.sum_le_sum fun i hi => ?_
      have hi' := Finset.mem_range.1 hi
      have a := hσ i (T - 1) (by omega) (by omega)
      have b := hw1 i (by omega)
      nlinarith
    have h2 : ∑ i ∈ Finset.Ico T q, σ i * w i ≤ ∑ i ∈ Finset.Ico T q, s * w i := by
      refine Finset.sum_le_sum fun i hi => ?_
      have hi' := Finset.mem_Ico.1 hi
      exact mul_le_mul_of_nonneg_right (hσ (T - 1) i (by omega) (by omega)) (hw0 i (by omega))
    rw [Finset.sum_sub_distrib, ← Finset.mul_sum, Finset.sum_sub_distrib] at h1
    rw [← Finset.mul_sum] at h2
    simp at h1
    nlinarith

/-- column `j` of a matrix with `m` rows -/
noncomputable def colVec (m : ℕ) (M : ℕ → ℕ → ℝ) (j : ℕ) : EuclideanSpace ℝ (Fin m) := WithLp.toLp 2 (fun i => M i j)

theorem inner_colVec (m : ℕ) (M N : ℕ → ℕ → ℝ) (j k : ℕ) :
    inner ℝ (colVec m M j) (colVec m N k) = ∑ i ∈ Finset.range m, M i j * N i k := by
  simp only [colVec, PiLp.inner_apply, Finset.sum_range]
  exact Finset.sum_congr rfl fun i _ => by simp [mul_comm]

theorem norm_colVec (m : ℕ) (M : ℕ → ℕ → ℝ) (j : ℕ) : ‖colVec m M j‖ ^ 2 = ∑ i ∈ Finset.range m, M i j ^ 2 := by
  rw [← real_inner_self_eq_norm_sq, inner_colVec]
  exact Finset.sum_congr rfl fun i _ => by ring

/-- Eckart-Young: no product of an `m × q` and a `q × n` matrix is closer to `A` than the truncation of its singular
value decomposition to `q` terms. -/
theorem eckart_young {A : Mat ℝ} {d : SVD} (h : IsSVD A d) (q : ℕ) (X Y : ℕ → ℕ → ℝ) :
    ∑ k ∈ Finset.Ico q (min A.r A.c), d.s.getD k 0 ^ 2 ≤
      ∑ i ∈ Finset.range A.r, ∑ j ∈ Finset.range A.c, (A.e i j - ∑ k ∈ Finset.range q, X i k * Y k j) ^ 2 := by
  rcases Nat.lt_or_ge (min A.r A.c) q with hq | hq
  · rw [Finset.Ico_eq_empty (by omega)]
    exact Finset.sum_nonneg fun i _ => Finset.sum_nonneg fun j _ => sq_nonneg _
  set m := A.r
  set n := A.c
  set p := min m n
  let W : Submodule ℝ (EuclideanSpace ℝ (Fin m)) := Submodule.span ℝ (Set.range fun k : Fin q => colVec m X k)
  have hdim : Module.finrank ℝ W ≤ q := by
    have := finrank_range_le_card (R := ℝ) (fun k : Fin q => colVec m X k)
    simpa [Set.finrank] using this
  let e := stdOrthonormalBasis ℝ W
  let B : ℕ → ℕ → ℝ := fun i j => ∑ k ∈ Finset.range q, X i k * Y k j
  have hB : ∀ j, colVec m B j ∈ W := by
    intro j
    have : colVec m B j = ∑ k : Fin q, Y k j • colVec m X k := by
      ext i
      simp [colVec, B, Finset.sum_range, mul_comm]
    rw [this]
    exact Submodule.sum_mem _ fun k _ => Submodule.smul_mem _ _ (Submodule.subset_span ⟨k, rfl⟩)
  have h1 : ∀ j, ‖colVec m A.e j‖ ^ 2 - ∑ i, (inner ℝ (e i : EuclideanSpace ℝ (Fin m)) (colVec m A.e j)) ^ 2 ≤
      ∑ i ∈ Finset.range m, (A.e i j - B i j) ^ 2 := by
    intro j
    have := dist_sq_ge W e (colVec m A.e j) (colVec m B j) (hB j)
    have h2 : colVec m A.e j - colVec m B j = colVec m (fun i j => A.e i j - B i j) j := by
      ext i; simp [colVec]
    rwa [h2, norm_colVec m (fun i j => A.e i j - B i j)] at this
  -- weights
  let w : ℕ → ℝ := fun k => ∑ i, (inner ℝ (e i : EuclideanSpace ℝ (Fin m)) (colVec m d.U.e k)) ^ 2
  have hA : ∀ j < n, colVec m A.e j = ∑ k ∈ Finset.range p, (d.s.getD k 0 * d.V.e j k) • colVec m d.U.e k := by
    intro j hj
    ext i
    simp only [colVec, PiLp.toLp_apply, h.recon i i.2 j hj, WithLp.ofLp_sum, Finset.sum_apply, WithLp.ofLp_smul, Pi.smul_apply, smul_eq_mul]
    exact Finset.sum_congr rfl fun k _ => by ring
  have hPA : ∑ j ∈ Finset.range n, ∑ i, (inner ℝ (e i : EuclideanSpace ℝ (Fin m)) (colVec m A.e j)) ^ 2 =
      ∑ k ∈ Finset.range p, d.s.getD k 0 ^ 2 * w k := by
    rw [Finset.sum_comm]
    have : ∀ i, ∑ j ∈ Finset.range n, (inner ℝ (e i : EuclideanSpace ℝ (Fin m)) (colVec m A.e j)) ^ 2 =
        ∑ k ∈ Finset.range p, d.s.getD k 0 ^ 2 * (inner ℝ (e i : EuclideanSpace ℝ (Fin m)) (colVec m d.U.e k)) ^ 2 := by
      intro i
      have h2 : ∀ j ∈ Finset.range n, (inner ℝ (e i : EuclideanSpace ℝ (Fin m)) (colVec m A.e j)) ^ 2 =
          ∑ k ∈ Finset.range p, ∑ l ∈ Finset.range p,
            (d.s.getD k 0 * inner ℝ (e i : EuclideanSpace ℝ (Fin m)) (colVec m d.U.e k)) *
            (d.s.getD l 0 * inner ℝ (e i : EuclideanSpace ℝ (Fin m)) (colVec m d.U.e l)) * (d.V.e j k * d.V.e j l) := by
        intro j hj
        rw [hA j (Finset.mem_range.1 hj), inner_sum, sq, Finset.sum_mul_sum]
        refine Finset.sum_congr rfl fun k _ => Finset.sum_congr rfl fun l _ => ?_
        rw [inner_smul_right, inner_smul_right]; ring
      rw [Finset.sum_congr rfl h2, Finset.sum_comm]
      refine Finset.sum_congr rfl fun k hk => ?_
      rw [Finset.sum_comm, Finset.sum_eq_single k]
      · rw [← Finset.mul_sum, h.orthV k (Finset.mem_range.1 hk) k (Finset.mem_range.1 hk), if_pos rfl]; ring
      · intro l hl hlk
        rw [← Finset.mul_sum, h.orthV k (Finset.mem_range.1 hk) l (Finset.mem_range.1 hl), if_neg (Ne.symm hlk)]; ring
      · intro hk'; exact absurd hk hk'
    rw [Finset.sum_congr rfl fun i _ => this i, Finset.sum_comm]
    exact Finset.sum_congr rfl fun k _ => by rw [Finset.mul_sum]
  have hnorm : ∑ j ∈ Finset.range n, ‖colVec m A.e j‖ ^ 2 = ∑ k ∈ Finset.range p, d.s.getD k 0 ^ 2 := by
    rw [← sv_norm A d h, Finset.sum_comm]
    exact Finset.sum_congr rfl fun j _ => norm_colVec m A.e j
  have heon : Orthonormal ℝ (fun i => (e i : EuclideanSpace ℝ (Fin m))) := e.orthonormal.comp_linearIsometry W.subtypeₗᵢ
  have hUon : Orthonormal ℝ (fun k : Fin p => colVec m d.U.e k) := by
    rw [orthonormal_iff_ite]
    intro k l
    rw [inner_colVec, h.orthU k k.2 l l.2]
    simp [Fin.ext_iff]
  have hw1 : ∀ k < p, w k ≤ 1 := by
    intro k hk
    have := heon.sum_inner_products_le (s := Finset.univ) (colVec m d.U.e k)
    have h2 : ‖colVec m d.U.e k‖ = 1 := hUon.1 ⟨k, hk⟩
    simpa [h2, w] using this
  have hw : ∑ k ∈ Finset.range p, w k ≤ q := by
    rw [Finset.sum_comm]
    refine le_trans (Finset.sum_le_sum (g := fun _ => (1 : ℝ)) fun i _ => ?_) ?_
    · have := hUon.sum_inner_products_le (s := Finset.univ) (e i : EuclideanSpace ℝ (Fin m))
      have h2 : ‖(e i : EuclideanSpace ℝ (Fin m))‖ = 1 := heon.1 i
      rw [Finset.sum_range]
      simpa [h2, real_inner_comm] using this
    · simp; exact_mod_cast hdim
  have hkey := weighted_le p q hq (fun k => d.s.getD k 0 ^ 2) w (by
      intro i j hij hj
      have hl : d.s.length = p := h.len
      have hle : d.s.getD j 0 ≤ d.s.getD i 0 := by
        rcases eq_or_lt_of_le hij with rfl | hlt
        · exact le_refl _
        · have := List.pairwise_iff_getElem.1 h.sorted i j (by omega) (by omega) hlt
          simpa [List.getD_eq_getElem?_getD, List.getElem?_eq_getElem (show j < d.s.length by omega),
            List.getElem?_eq_getElem (show i < d.s.length by omega)] using this
      have hnn : 0 ≤ d.s.getD j 0 := by
        have := h.nonneg (d.s[j]'(by omega)) (List.getElem_mem _)
        simpa [List.getD_eq_getElem?_getD, List.getElem?_eq_getElem (show j < d.s.length by omega)] using this
      exact pow_le_pow_left₀ hnn hle 2) (fun i _ => sq_nonneg _) (fun i _ => Finset.sum_nonneg fun j _ => sq_nonneg _) hw1 hw
  have htot := Finset.sum_le_sum fun j (_ : j ∈ Finset.range n) => h1 j
  rw [Finset.sum_sub_distrib, hPA, hnorm, Finset.sum_comm] at htot
  have := Finset.sum_range_add_sum_Ico (fun k => d.s.getD k 0 ^ 2) hq
  linarith

end TorchMPS
