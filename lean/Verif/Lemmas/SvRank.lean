import Verif.Lemmas.AdSv
import Mathlib.LinearAlgebra.Matrix.Rank
/-
A matrix that factors through dimension `D` has at most `D` non-zero singular values.
-/
namespace TorchMPS
open Spec

theorem sv_rotate (A : Mat ℝ) (d : SVD) (h : IsSVD A d) (a b : ℕ) (ha : a < min A.r A.c) (hb : b < min A.r A.c) :
    ∑ i ∈ Finset.range A.r, ∑ j ∈ Finset.range A.c, d.U.e i a * A.e i j * d.V.e j b = if a = b then d.s.getD a 0 else 0 := by
  have h1 : ∀ i ∈ Finset.range A.r, ∑ j ∈ Finset.range A.c, d.U.e i a * A.e i j * d.V.e j b = d.U.e i a * (d.U.e i b * d.s.getD b 0) := by
    intro i hi
    have hi := Finset.mem_range.1 hi
    have h2 : ∀ j ∈ Finset.range A.c, d.U.e i a * A.e i j * d.V.e j b =
        ∑ m ∈ Finset.range (min A.r A.c), d.U.e i a * (d.U.e i m * d.s.getD m 0) * (d.V.e j m * d.V.e j b) := by
      intro j hj
      rw [h.recon i hi j (Finset.mem_range.1 hj), Finset.mul_sum, Finset.sum_mul]
      refine Finset.sum_congr rfl (fun m _ => ?_)
      ring
    rw [Finset.sum_congr rfl h2, Finset.sum_comm]
    have h3 : ∀ m ∈ Finset.range (min A.r A.c), ∑ j ∈ Finset.range A.c, d.U.e i a * (d.U.e i m * d.s.getD m 0) * (d.V.e j m * d.V.e j b) =
        if m = b then d.U.e i a * (d.U.e i b * d.s.getD b 0) else 0 := by
      intro m hm
      rw [← Finset.mul_sum, h.orthV m (Finset.mem_range.1 hm) b hb]
      split
      · rename_i hmb
        rw [hmb, mul_one]
      · rw [mul_zero]
    rw [Finset.sum_congr rfl h3, Finset.sum_ite_eq' , if_pos (Finset.mem_range.2 hb)]
  rw [Finset.sum_congr rfl h1]
  have h4 : ∀ i ∈ Finset.range A.r, d.U.e i a * (d.U.e i b * d.s.getD b 0) = d.U.e i a * d.U.e i b * d.s.getD b 0 := fun i _ => by ring
  rw [Finset.sum_congr rfl h4, ← Finset.sum_mul, h.orthU a ha b hb]
  split
  · rename_i hab
    rw [hab, one_mul]
  · rw [zero_mul]

theorem sv_rank (A : Mat ℝ) (d : SVD) (h : IsSVD A d) (D : ℕ) (X Y : ℕ → ℕ → ℝ)
    (hf : ∀ i < A.r, ∀ j < A.c, A.e i j = ∑ u ∈ Finset.range D, X i u * Y u j) (k : ℕ) (hk : D ≤ k) : d.s.getD k 0 = 0 := by
  classical
  by_cases hkm : k < min A.r A.c
  · by_contra hne
    have hlen := h.len
    have hpos : ∀ a, a ≤ k → d.s.getD a 0 ≠ 0 := by
      intro a ha h0
      have h1 := getD_antitone d.s h.sorted h.nonneg a k ha
      have h2 : 0 ≤ d.s.getD k 0 := by
        rw [List.getD_eq_getElem _ _ (by omega)]
        exact h.nonneg _ (List.getElem_mem _)
      rw [h0] at h1
      exact hne (le_antisymm h1 h2)
    let P : Matrix (Fin (k + 1)) (Fin D) ℝ := fun a u => ∑ i ∈ Finset.range A.r, d.U.e i a * X i u
    let Q : Matrix (Fin D) (Fin (k + 1)) ℝ := fun u b => ∑ j ∈ Finset.range A.c, Y u j * d.V.e j b
    have hPQ : P * Q = Matrix.diagonal (fun a : Fin (k + 1) => d.s.getD a 0) := by
      ext a b
      have hrot := sv_rotate A d h a b (by omega) (by omega)
      rw [Matrix.mul_apply, Matrix.diagonal_apply]
      have e1 : (∑ u : Fin D, P a u * Q u b) = ∑ i ∈ Finset.range A.r, ∑ j ∈ Finset.range A.c, d.U.e i a * A.e i j * d.V.e j b := by
        have e2 : ∀ i ∈ Finset.range A.r, ∀ j ∈ Finset.range A.c, d.U.e i a * A.e i j * d.V.e j b =
            ∑ u ∈ Finset.range D, d.U.e i a * X i u * (Y u j * d.V.e j b) := by
          intro i hi j hj
          rw [hf i (Finset.mem_range.1 hi) j (Finset.mem_range.1 hj), Finset.mul_sum, Finset.sum_mul]
          exact Finset.sum_congr rfl (fun u _ => by ring)
        rw [Finset.sum_congr rfl (fun i hi => Finset.sum_congr rfl (fun j hj => e2 i hi j hj))]
        rw [Finset.sum_congr rfl (fun i _ => Finset.sum_comm)]
        rw [Finset.sum_comm, ← Fin.sum_univ_eq_sum_range (fun u => ∑ i ∈ Finset.range A.r, ∑ j ∈ Finset.range A.c, d.U.e i a * X i u * (Y u j * d.V.e j b)) D]
        refine Finset.sum_congr rfl (fun u _ => ?_)
        show (∑ i ∈ Finset.range A.r, d.U.e i a * X i u) * (∑ j ∈ Finset.range A.c, Y u j * d.V.e j b) = _
        rw [Finset.sum_mul_sum]
      rw [e1, hrot]
      by_cases hab : a = b
      · rw [if_pos hab, if_pos (by rw [hab])]
      · rw [if_neg hab, if_neg (fun hx => hab (Fin.ext hx))]
    have h1 : (P * Q).rank ≤ D := (Matrix.rank_mul_le_left P Q).trans (Matrix.rank_le_width P)
    rw [hPQ, Matrix.rank_diagonal] at h1
    have h2 : Fintype.card {i : Fin (k + 1) // d.s.getD i 0 ≠ 0} = k + 1 := by
      have h4 : (Finset.univ.filter (fun i : Fin (k + 1) => d.s.getD i 0 ≠ 0)) = Finset.univ := by
        ext i
        simp only [Finset.mem_filter, Finset.mem_univ, true_and, iff_true]
        exact hpos i (by omega)
      rw [Fintype.card_subtype, h4, Finset.card_univ, Fintype.card_fin]
    rw [h2] at h1
    omega
  · rw [List.getD_eq_default _ _ (by rw [h.len]; omega)]

theorem unravel2 (a b i : ℕ) (h : i < a * b) : ∃ x y, unravel [a, b] i = [x, y] ∧ x < a ∧ y < b := by
  have hr := unravel_inRange (sh := [a, b]) (k := i) (by simpa using h)
  have hl := unravel_length [a, b] i
  match hu : unravel [a, b] i, hl with
  | [x, y], _ =>
    rw [hu] at hr
    simp at hr
    exact ⟨x, y, rfl, hr.1, hr.2⟩

theorem pair_rank (svd : Mat ℝ → SVD) (hsvd : ∀ A, IsSVD A (svd A)) (D F : ℕ) (t : Tensor ℝ) (ht : t.shape = [D, D, F, F]) (A1 A2 : ℕ → ℕ → ℕ → ℝ)
    (h : ∀ l < D, ∀ r < D, ∀ f < F, ∀ f' < F, t.get [l, r, f, f'] = ∑ u ∈ Finset.range D, A1 l u f * A2 u r f') (k : ℕ) (hk : D ≤ k) :
    (pairSvs svd t).getD k 0 = 0 := by
  refine sv_rank _ _ (hsvd _) D (fun i u => A1 ((unravel [D, F] i).getD 0 0) u ((unravel [D, F] i).getD 1 0))
    (fun u j => A2 u ((unravel [D, F] j).getD 0 0) ((unravel [D, F] j).getD 1 0)) ?_ k hk
  intro i hi j hj
  have e1 : (['l', 'u', 'i'].filter (· ≠ 'u')) = ['l', 'i'] := by decide
  have e2 : (['u', 'r', 'j'].filter (· ≠ 'u')) = ['r', 'j'] := by decide
  rw [e1, e2] at hi hj ⊢
  simp [flattening, Mat.of, ht, Env.ofOut, Env.set] at hi hj ⊢
  obtain ⟨l, f, u1, u2, u3⟩ := unravel2 D F i hi
  obtain ⟨r, f', v1, v2, v3⟩ := unravel2 D F j hj
  rw [u1, v1, if_pos ⟨hi, hj⟩]
  simp [Env.ofOut, Env.set]
  exact h l u2 r v2 f u3 f' v3

theorem outLeft_rank (svd : Mat ℝ → SVD) (hsvd : ∀ A, IsSVD A (svd A)) (D F O : ℕ) (t : Tensor ℝ) (ht : t.shape = [O, D, D, F]) (C A : ℕ → ℕ → ℕ → ℝ)
    (h : ∀ o < O, ∀ l < D, ∀ r < D, ∀ f < F, t.get [o, l, r, f] = ∑ u ∈ Finset.range D, C o l u * A u r f) (k : ℕ) (hk : D ≤ k) :
    (outLeftSvs svd t).getD k 0 = 0 := by
  refine sv_rank _ _ (hsvd _) D (fun i u => C ((unravel [O, D] i).getD 0 0) ((unravel [O, D] i).getD 1 0) u)
    (fun u j => A u ((unravel [D, F] j).getD 0 0) ((unravel [D, F] j).getD 1 0)) ?_ k hk
  intro i hi j hj
  have e1 : (['o', 'l', 'u'].filter (· ≠ 'u')) = ['o', 'l'] := by decide
  have e2 : (['u', 'r', 'i'].filter (· ≠ 'u')) = ['r', 'i'] := by decide
  rw [e1, e2] at hi hj ⊢
  simp [flattening, Mat.of, ht, Env.ofOut, Env.set] at hi hj ⊢
  obtain ⟨o, l, u1, u2, u3⟩ := unravel2 O D i hi
  obtain ⟨r, f, v1, v2, v3⟩ := unravel2 D F j hj
  rw [u1, v1, if_pos ⟨hi, hj⟩]
  simp [Env.ofOut, Env.set]
  exact h o u2 l u3 r v2 f v3

theorem outRight_rank (svd : Mat ℝ → SVD) (hsvd : ∀ A, IsSVD A (svd A)) (D F O : ℕ) (t : Tensor ℝ) (ht : t.shape = [O, D, D, F]) (C A : ℕ → ℕ → ℕ → ℝ)
    (h : ∀ o < O, ∀ l < D, ∀ r < D, ∀ f < F, t.get [o, l, r, f] = ∑ u ∈ Finset.range D, A l u f * C o u r) (k : ℕ) (hk : D ≤ k) :
    (outRightSvs svd t).getD k 0 = 0 := by
  refine sv_rank _ _ (hsvd _) D (fun i u => C ((unravel [O, D] i).getD 0 0) u ((unravel [O, D] i).getD 1 0))
    (fun u j => A ((unravel [D, F] j).getD 0 0) u ((unravel [D, F] j).getD 1 0)) ?_ k hk
  intro i hi j hj
  have e1 : (['o', 'u', 'r'].filter (· ≠ 'u')) = ['o', 'r'] := by decide
  have e2 : (['l', 'u', 'i'].filter (· ≠ 'u')) = ['l', 'i'] := by decide
  rw [e1, e2] at hi hj ⊢
  simp [flattening, Mat.of, ht, Env.ofOut, Env.set] at hi hj ⊢
  obtain ⟨o, r, u1, u2, u3⟩ := unravel2 O D i hi
  obtain ⟨l, f, v1, v2, v3⟩ := unravel2 D F j hj
  rw [u1, v1, if_pos ⟨hi, hj⟩]
  simp [Env.ofOut, Env.set]
  rw [h o u2 l v2 r u3 f v3]
  exact Finset.sum_congr rfl (fun u _ => mul_comm _ _)

/-- A merged list that was made by merging cores has at most `D` non-zero singular values at every inner bond. -/
theorem merged_rank (svd : Mat ℝ → SVD) (hsvd : ∀ A, IsSVD A (svd A)) (D F O : ℕ) (a : Cores ℝ) (κ : Kind) (m : Module ℝ) (hs : κ.Shaped D F O m)
    (hh : κ.Holds D F O a m) (sv : List ℝ) (hsv : some sv ∈ bondPlan svd m) (k : ℕ) (hk : D ≤ k) : sv.getD k 0 = 0 := by
  cases κ <;> cases m <;> first | exact hs.elim | skip
  · simp [bondPlan] at hsv
  · rename_i i c t
    simp only [Kind.Shaped] at hs
    simp only [bondPlan, hs, List.getD_cons_zero, List.mem_flatMap, List.mem_range, List.mem_cons, List.not_mem_nil, or_false, Option.some.injEq,
      reduceCtorEq] at hsv
    obtain ⟨s, hs1, rfl⟩ := hsv
    refine pair_rank svd hsvd D F _ (by simp [Tensor.select, hs]) (a.A (i + 2 * s)) (a.A (i + 2 * s + 1)) ?_ k hk
    intro l hl r hr f hf f' hf'
    have := hh s hs1 l hl r hr f hf f' hf'
    simpa [Tensor.select] using this
  · simp [bondPlan] at hsv
  · rename_i i b t b'
    obtain ⟨rfl, hs⟩ := hs
    cases b
    · simp [bondPlan] at hsv
      subst hsv
      exact outRight_rank svd hsvd D F O t hs a.C (a.A i) hh k hk
    · simp [bondPlan] at hsv
      subst hsv
      exact outLeft_rank svd hsvd D F O t hs a.C (a.A i) hh k hk

end TorchMPS
