import Verif.Lemmas.SvRank
/-
Norms and singular values.
-/
namespace TorchMPS
open Spec

/-- The squared norm of a matrix `∑ U_ik c_k V_jk` with orthonormal columns is the sum of the `c_k²`. -/
theorem ortho_norm (m n q : ℕ) (U V : ℕ → ℕ → ℝ) (hU : ∀ k < q, ∀ l < q, ∑ i ∈ Finset.range m, U i k * U i l = if k = l then 1 else 0)
    (hV : ∀ k < q, ∀ l < q, ∑ j ∈ Finset.range n, V j k * V j l = if k = l then 1 else 0) (c : ℕ → ℝ) :
    ∑ i ∈ Finset.range m, ∑ j ∈ Finset.range n, (∑ k ∈ Finset.range q, U i k * c k * V j k) ^ 2 = ∑ k ∈ Finset.range q, c k ^ 2 := by
  have h1 : ∀ i j, (∑ k ∈ Finset.range q, U i k * c k * V j k) ^ 2 =
      ∑ k ∈ Finset.range q, ∑ l ∈ Finset.range q, (c k * c l) * ((U i k * U i l) * (V j k * V j l)) := by
    intro i j
    rw [sq, Finset.sum_mul_sum]
    refine Finset.sum_congr rfl fun k _ => Finset.sum_congr rfl fun l _ => ?_
    ring
  simp_rw [h1]
  have h2 : ∀ i, ∑ j ∈ Finset.range n, ∑ k ∈ Finset.range q, ∑ l ∈ Finset.range q, (c k * c l) * ((U i k * U i l) * (V j k * V j l)) =
      ∑ k ∈ Finset.range q, ∑ l ∈ Finset.range q, (c k * c l) * (U i k * U i l) * ∑ j ∈ Finset.range n, V j k * V j l := by
    intro i
    rw [Finset.sum_comm]
    refine Finset.sum_congr rfl fun k _ => ?_
    rw [Finset.sum_comm]
    refine Finset.sum_congr rfl fun l _ => ?_
    rw [Finset.mul_sum]
    refine Finset.sum_congr rfl fun j _ => ?_
    ring
  simp_rw [h2]
  rw [Finset.sum_comm]
  refine Finset.sum_congr rfl fun k hk => ?_
  rw [Finset.sum_comm]
  have h3 : ∀ l ∈ Finset.range q, ∑ i ∈ Finset.range m, (c k * c l) * (U i k * U i l) * ∑ j ∈ Finset.range n, V j k * V j l =
      if k = l then c k ^ 2 else 0 := by
    intro l hl
    rw [← Finset.sum_mul, ← Finset.mul_sum, hU k (Finset.mem_range.1 hk) l (Finset.mem_range.1 hl),
      hV k (Finset.mem_range.1 hk) l (Finset.mem_range.1 hl)]
    split
    · rename_i h; subst h; ring
    · ring
  rw [Finset.sum_congr rfl h3, Finset.sum_ite_eq, if_pos hk]

/-- The sum of the squared singular values is the squared norm. -/
theorem sv_norm (A : Mat ℝ) (d : SVD) (h : IsSVD A d) :
    ∑ i ∈ Finset.range A.r, ∑ j ∈ Finset.range A.c, A.e i j ^ 2 = ∑ k ∈ Finset.range (min A.r A.c), d.s.getD k 0 ^ 2 := by
  rw [← ortho_norm A.r A.c (min A.r A.c) d.U.e d.V.e h.orthU h.orthV (fun k => d.s.getD k 0)]
  refine Finset.sum_congr rfl fun i hi => Finset.sum_congr rfl fun j hj => ?_
  rw [h.recon i (Finset.mem_range.1 hi) j (Finset.mem_range.1 hj)]

/-- The singular value of a matrix with a single entry. -/
theorem sv_single (A : Mat ℝ) (d : SVD) (h : IsSVD A d) (hr : A.r = 1) (hc : A.c = 1) : d.s = [|A.e 0 0|] := by
  have h1 := sv_norm A d h
  have hl := h.len
  rw [hr, hc] at h1 hl
  simp at h1
  match hs : d.s, hl with
  | [x], _ =>
    rw [hs] at h1
    simp at h1
    have hx := h.nonneg x (by rw [hs]; simp)
    rw [← abs_of_nonneg hx]
    congr 1
    rw [← sq_eq_sq_iff_abs_eq_abs, h1]

end TorchMPS
