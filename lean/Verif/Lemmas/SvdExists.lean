import Verif.Spec.Svd
import Mathlib.Analysis.InnerProductSpace.SingularValues
import Mathlib.Analysis.InnerProductSpace.PiL2
/-
Every real matrix has a singular value decomposition, so the contract assumed of `torch.svd` can be met.
-/
namespace TorchMPS
open Module InnerProductSpace

theorem exists_svd_tall (m n : ℕ) (hmn : n ≤ m) (M : Matrix (Fin m) (Fin n) ℝ) :
    ∃ (b : OrthonormalBasis (Fin n) ℝ (EuclideanSpace ℝ (Fin n)))
      (w : OrthonormalBasis (Fin m) ℝ (EuclideanSpace ℝ (Fin m))) (σ : ℕ → ℝ),
      Antitone σ ∧ (∀ k, 0 ≤ σ k) ∧
      ∀ i j, M i j = ∑ k : Fin n, w (Fin.castLE hmn k) i * σ k * b k j := by
  classical
  let T := Matrix.toEuclideanLin M
  have hn : finrank ℝ (EuclideanSpace ℝ (Fin n)) = n := by simp
  have hpos := T.isPositive_adjoint_comp_self
  let b := hpos.isSymmetric.eigenvectorBasis hn
  let σ := fun k : ℕ => T.singularValues k
  have hsq : ∀ k : Fin n, σ k ^ 2 = hpos.isSymmetric.eigenvalues hn k := fun k => T.sq_singularValues_fin hn k
  have hin : ∀ k l : Fin n, ⟪T (b k), T (b l)⟫_ℝ = if k = l then σ k ^ 2 else 0 := by
    intro k l
    rw [← LinearMap.adjoint_inner_left]
    have : (LinearMap.adjoint T) (T (b k)) = (hpos.isSymmetric.eigenvalues hn k : ℝ) • b k := by
      exact hpos.isSymmetric.apply_eigenvectorBasis hn k
    rw [this, inner_smul_left, b.inner_eq_ite, hsq]
    by_cases h : k = l <;> simp [h]
  let e : Fin n → Fin m := Fin.castLE hmn
  have he : Function.Injective e := Fin.castLE_injective hmn
  let v : Fin m → EuclideanSpace ℝ (Fin m) := fun i =>
    if h : (i : ℕ) < n then (σ i)⁻¹ • T (b ⟨i, h⟩) else 0
  let S : Set (Fin m) := {i | (i : ℕ) < n ∧ σ i ≠ 0}
  have hv : Orthonormal ℝ (S.domRestrict v) := by
    rw [orthonormal_iff_ite]
    rintro ⟨i, hi⟩ ⟨j, hj⟩
    show ⟪v i, v j⟫_ℝ = _
    simp only [v, dif_pos hi.1, dif_pos hj.1, inner_smul_left, inner_smul_right, hin]
    by_cases hij : i = j
    · subst hij
      have := hi.2
      simp
      field_simp
    · have : (⟨i, hi.1⟩ : Fin n) ≠ ⟨j, hj.1⟩ := by
        intro h; apply hij; ext; simpa using h
      rw [if_neg this, if_neg (by simpa using hij)]
      simp
  obtain ⟨w, hw⟩ := hv.exists_orthonormalBasis_extension_of_card_eq (by simp)
  have hT : ∀ k : Fin n, T (b k) = σ k • w (e k) := by
    intro k
    by_cases hk : σ k = 0
    · have := hin k k
      simp [hk] at this
      rw [this, hk]; simp
    · have hm : e k ∈ S := ⟨k.2, hk⟩
      rw [hw _ hm]
      simp only [v, e, Fin.val_castLE, k.2, dif_pos, Fin.eta]
      rw [smul_smul, mul_inv_cancel₀ hk, one_smul]
  refine ⟨b, w, σ, T.singularValues_antitone, T.singularValues_nonneg, ?_⟩
  intro i j
  have h1 : M i j = (T (EuclideanSpace.single j 1)) i := by
    simp [T, Matrix.toLpLin_apply, Matrix.mulVec_single]
  have h2 : EuclideanSpace.single j (1 : ℝ) = ∑ k, (b k j) • b k := by
    rw [← b.sum_repr (EuclideanSpace.single j 1)]
    refine Finset.sum_congr rfl (fun k _ => ?_)
    congr 1
    rw [b.repr_apply_apply]
    simp [EuclideanSpace.inner_single_right]
  rw [h1, h2, map_sum]
  simp only [map_smul, hT, WithLp.ofLp_sum, Finset.sum_apply, PiLp.smul_apply, smul_eq_mul]
  refine Finset.sum_congr rfl (fun k _ => ?_)
  simp only [e]; ring

/-- The contract of `torch.svd` can be met for every matrix. -/
theorem exists_svd (A : Mat ℝ) : ∃ d, Spec.IsSVD A d := by
  obtain ⟨m, n, M⟩ := A
  have tall : ∀ (m n : ℕ) (M : ℕ → ℕ → ℝ), n ≤ m → ∃ (U V : ℕ → ℕ → ℝ) (s : List ℝ),
      s.length = n ∧ (∀ i < m, ∀ j < n, M i j = ∑ k ∈ Finset.range n, U i k * s.getD k 0 * V j k) ∧
      (∀ k < n, ∀ l < n, ∑ i ∈ Finset.range m, U i k * U i l = if k = l then 1 else 0) ∧
      (∀ k < n, ∀ l < n, ∑ i ∈ Finset.range n, V i k * V i l = if k = l then 1 else 0) ∧
      (∀ x ∈ s, 0 ≤ x) ∧ s.Pairwise (fun a b => b ≤ a) := by
    intro m n M hmn
    obtain ⟨b, w, σ, h1, h2, h3⟩ := exists_svd_tall m n hmn (fun i j => M i j)
    refine ⟨fun i k => if h : i < m ∧ k < m then w ⟨k, h.2⟩ ⟨i, h.1⟩ else 0,
      fun j k => if h : j < n ∧ k < n then b ⟨k, h.2⟩ ⟨j, h.1⟩ else 0, List.ofFn (fun k : Fin n => σ k), by simp, ?_, ?_, ?_, ?_, ?_⟩
    · intro i hi j hj
      rw [Finset.sum_range]
      have := h3 ⟨i, hi⟩ ⟨j, hj⟩
      simp only at this
      rw [this]
      refine Finset.sum_congr rfl (fun k _ => ?_)
      have hk : (k : ℕ) < m := lt_of_lt_of_le k.2 hmn
      simp [hi, hj, hk, Fin.castLE, List.getD_eq_getElem?_getD]
    · intro k hk l hl
      have hk' : k < m := by omega
      have hl' : l < m := by omega
      have := w.inner_eq_ite ⟨k, hk'⟩ ⟨l, hl'⟩
      rw [PiLp.inner_apply] at this
      rw [Finset.sum_range]
      simp only [Fin.is_lt, hk', hl', and_self, dif_pos]
      simp only [Fin.mk.injEq] at this
      rw [← this]
      refine Finset.sum_congr rfl (fun i _ => ?_)
      simp [mul_comm]
    · intro k hk l hl
      have := b.inner_eq_ite ⟨k, hk⟩ ⟨l, hl⟩
      rw [PiLp.inner_apply] at this
      rw [Finset.sum_range]
      simp only [Fin.is_lt, hk, hl, and_self, dif_pos]
      simp only [Fin.mk.injEq] at this
      rw [← this]
      refine Finset.sum_congr rfl (fun i _ => ?_)
      simp [mul_comm]
    · intro x hx
      rw [List.mem_ofFn] at hx
      obtain ⟨k, rfl⟩ := hx
      exact h2 _
    · rw [List.pairwise_ofFn]
      intro i j hij
      exact h1 (le_of_lt hij)
  rcases le_total n m with h | h
  · obtain ⟨U, V, s, a1, a2, a3, a4, a5, a6⟩ := tall m n M h
    refine ⟨⟨⟨m, n, U⟩, s, ⟨n, n, V⟩⟩, ?_⟩
    have hm : min m n = n := by omega
    exact ⟨rfl, hm.symm, by simp [a1, hm], rfl, hm.symm, by simpa [hm] using a2, by simpa [hm] using a3,
      by simpa [hm] using a4, a5, a6⟩
  · obtain ⟨U, V, s, a1, a2, a3, a4, a5, a6⟩ := tall n m (fun i j => M j i) h
    refine ⟨⟨⟨m, m, V⟩, s, ⟨n, m, U⟩⟩, ?_⟩
    have hm : min m n = m := by omega
    refine ⟨rfl, hm.symm, by simp [a1, hm], rfl, hm.symm, ?_, by simpa [hm] using a4,
      by simpa [hm] using a3, a5, a6⟩
    intro i hi j hj
    simp only [hm] at *
    rw [a2 j hj i hi]
    refine Finset.sum_congr rfl (fun k _ => ?_)
    ring

/-- A singular value decomposition of every matrix. -/
noncomputable def someSvd (A : Mat ℝ) : SVD := (exists_svd A).choose

theorem someSvd_spec (A : Mat ℝ) : Spec.IsSVD A (someSvd A) := (exists_svd A).choose_spec

end TorchMPS
