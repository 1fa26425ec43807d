import Verif.Lemmas.Mat
/-
Properties of the matrix reductions of `torchmps/mps_base.py`: C08, C09.
`none` stands for NaN.
-/
namespace TorchMPS
open Spec
variable {K : Type}

theorem toMatrix_ofMatrix [Zero K] {n m : ℕ} (A : Matrix (Fin n) (Fin m) K) :
    toMatrix n m (ofMatrix A) = A := by
  ext i j; simp [toMatrix, ofMatrix]

theorem isZero_iff_toMatrix [Semiring K] (A : Mat K) : IsZero A ↔ toMatrix A.r A.c A = 0 := by
  constructor
  · intro h; ext i j; exact h i i.2 j j.2
  · intro h i hi j hj
    exact congrFun (congrFun h ⟨i, hi⟩) ⟨j, hj⟩

theorem ofMatrix_list_prod [RCLike K] (D : ℕ) (A : Matrix (Fin D) (Fin D) K)
    (L : List (Matrix (Fin D) (Fin D) K)) :
    toMatrix D D (matProd (ofMatrix A) (L.map ofMatrix)) = (A :: L).prod ∧
    (matProd (ofMatrix A) (L.map ofMatrix)).r = D ∧ (matProd (ofMatrix A) (L.map ofMatrix)).c = D := by
  refine ⟨?_, ?_, ?_⟩
  · rw [toMatrix_matProd D]
    · congr 1
      rw [← List.map_cons, List.map_map]
      conv_rhs => rw [← List.map_id (A :: L)]
      exact List.map_congr_left (fun B _ => toMatrix_ofMatrix B)
    · intro a ha
      rw [← List.map_cons] at ha
      obtain ⟨B, _, rfl⟩ := List.mem_map.1 ha
      rfl
  · rw [matProd_r]; rfl
  · rw [matProd_c]
    have : ∀ x ∈ (ofMatrix A :: L.map ofMatrix), x.c = D := by
      intro x hx
      rw [← List.map_cons] at hx
      obtain ⟨B, _, rfl⟩ := List.mem_map.1 hx
      rfl
    exact this _ (List.getLast_mem _)

/-! ### C08 -/

/-- C08. For every list of square matrices (of any length) whose ordered product is non-zero,
`mat_reduce_par` returns a pair `(P, s)` with `exp(s) * P` equal to that product. -/
theorem C08_matReducePar_value [RCLike K] (D : ℕ) (L : List (Matrix (Fin D) (Fin D) K))
    (h : L.prod ≠ 0) :
    ∃ P s, matReducePar D (L.map ofMatrix) = some (P, s) ∧ P.r = D ∧ P.c = D ∧
      ((Real.exp s : ℝ) : K) • toMatrix D D P = L.prod := by
  cases L with
  | nil =>
    refine ⟨_, _, rfl, rfl, rfl, ?_⟩
    rw [toMatrix_eye]; simp
  | cons A L =>
    obtain ⟨e1, e2, e3⟩ := ofMatrix_list_prod D A L
    obtain ⟨k1, k2⟩ := matReducePar_spec D (ofMatrix A) (L.map ofMatrix) (by
      intro _ a ha
      rw [← List.map_cons] at ha
      obtain ⟨B, _, rfl⟩ := List.mem_map.1 ha
      exact ⟨rfl, rfl⟩)
    rw [List.map_cons]
    cases hr : matReducePar D (ofMatrix A :: L.map ofMatrix) with
    | none =>
      have := (k1.1 hr).2
      rw [isZero_iff_toMatrix, e2, e3, e1] at this
      exact absurd this h
    | some p =>
      obtain ⟨P, s⟩ := p
      have := k2 P s hr
      have hr' : (P.smul (Real.exp s : K)).r = D := by rw [this, e2]
      have hc' : (P.smul (Real.exp s : K)).c = D := by rw [this, e3]
      refine ⟨P, s, rfl, hr', hc', ?_⟩
      rw [← toMatrix_smul, this, e1]

/-- C08. It returns NaN exactly for two or more matrices with product zero; any returned value is exact. -/
theorem C08_matReducePar_exact [RCLike K] (D : ℕ) (L : List (Matrix (Fin D) (Fin D) K)) :
    (matReducePar D (L.map ofMatrix) = none ↔ 2 ≤ L.length ∧ L.prod = 0) ∧
    ∀ P s, matReducePar D (L.map ofMatrix) = some (P, s) →
      ((Real.exp s : ℝ) : K) • toMatrix D D P = L.prod := by
  cases L with
  | nil =>
    refine ⟨by simp [matReducePar], ?_⟩
    intro P s h
    simp only [List.map_nil, matReducePar, Option.some.injEq, Prod.mk.injEq] at h
    rw [← h.1, ← h.2, toMatrix_eye]; simp
  | cons A L =>
    obtain ⟨e1, e2, e3⟩ := ofMatrix_list_prod D A L
    obtain ⟨k1, k2⟩ := matReducePar_spec D (ofMatrix A) (L.map ofMatrix) (by
      intro _ a ha
      rw [← List.map_cons] at ha
      obtain ⟨B, _, rfl⟩ := List.mem_map.1 ha
      exact ⟨rfl, rfl⟩)
    rw [List.map_cons]
    refine ⟨?_, ?_⟩
    · rw [k1, isZero_iff_toMatrix, e2, e3, e1]
      cases L <;> simp
    · intro P s h
      rw [← toMatrix_smul, k2 P s h, e1]

/-- C08, n = 0: the identity matrix with log scale 0. -/
theorem C08_matReducePar_empty [RCLike K] (D : ℕ) :
    ∃ P, matReducePar D ([] : List (Mat K)) = some (P, 0) ∧ P.r = D ∧ P.c = D ∧
      toMatrix D D P = (1 : Matrix (Fin D) (Fin D) K) :=
  ⟨_, rfl, rfl, rfl, toMatrix_eye D⟩

/-- the hypothesis of C08 is met by five copies of a non-commuting pair -/
example : ([!![1, 1; 0, 1], !![1, 0; 1, 1], !![1, 1; 0, 1], !![1, 0; 1, 1], !![2, 0; 0, 1]] :
    List (Matrix (Fin 2) (Fin 2) ℝ)).prod ≠ 0 := by
  intro h
  have := congrFun (congrFun h 0) 0
  simp [Matrix.mul_apply, Fin.sum_univ_two] at this
  norm_num at this

/-! ### C09 -/

/-- C09. For every chain of compatible rectangular matrices with non-zero product, `mat_reduce_seq`
returns a pair `(P, s)` with `exp(s) * P` equal to the ordered product. -/
theorem C09_matReduceSeq_value [RCLike K] (m : Mat K) (ms : List (Mat K)) (h : ChainOK (m :: ms))
    (hz : ¬ IsZero (matProd m ms)) :
    ∃ P s, matReduceSeq m ms = some (P, s) ∧ P.smul (Real.exp s : K) = matProd m ms := by
  obtain ⟨k1, k2⟩ := matReduceSeq_spec m ms h
  cases hr : matReduceSeq m ms with
  | none => exact absurd (k1.1 hr).2 hz
  | some p => exact ⟨p.1, p.2, rfl, k2 p.1 p.2 hr⟩

/-- C09. NaN exactly for at least two matrices with product zero - for both directions of
multiplication; any returned value is exact. -/
theorem C09_matReduceSeq_exact [RCLike K] (m : Mat K) (ms : List (Mat K)) (h : ChainOK (m :: ms)) :
    (matReduceSeq m ms = none ↔ ms ≠ [] ∧ IsZero (matProd m ms)) ∧
    ∀ P s, matReduceSeq m ms = some (P, s) → P.smul (Real.exp s : K) = matProd m ms :=
  matReduceSeq_spec m ms h

/-- C09. For square matrices: the product is Mathlib's `List.prod`. -/
theorem C09_matReduceSeq_square [RCLike K] (D : ℕ) (A : Matrix (Fin D) (Fin D) K)
    (L : List (Matrix (Fin D) (Fin D) K)) (h : (A :: L).prod ≠ 0) :
    ∃ P s, matReduceSeq (ofMatrix A) (L.map ofMatrix) = some (P, s) ∧
      ((Real.exp s : ℝ) : K) • toMatrix D D P = (A :: L).prod := by
  obtain ⟨e1, e2, e3⟩ := ofMatrix_list_prod D A L
  have hch : ∀ (A : Matrix (Fin D) (Fin D) K) (L : List (Matrix (Fin D) (Fin D) K)),
      ChainOK (ofMatrix A :: L.map ofMatrix) := by
    intro A L
    induction L generalizing A with
    | nil => simp [ChainOK]
    | cons B L ih => exact ⟨rfl, ih B⟩
  obtain ⟨P, s, h1, h2⟩ := C09_matReduceSeq_value (ofMatrix A) (L.map ofMatrix) (hch A L) (by
    rw [isZero_iff_toMatrix, e2, e3, e1]; exact h)
  exact ⟨P, s, h1, by rw [← toMatrix_smul, h2, e1]⟩

/-- The hypotheses of C09 are met by a chain 3 x 2, 2 x 1 (multiplied right to left, as 1 < 3). -/
example : let m : Mat ℝ := Mat.of 3 2 (fun i j => i + j)
    let m' : Mat ℝ := Mat.of 2 1 (fun i _ => i + 1)
    ChainOK [m, m'] ∧ ¬ IsZero (matProd m [m']) ∧ m'.c < m.r := by
  refine ⟨⟨rfl, trivial⟩, ?_, by simp [Mat.of]⟩
  intro h
  have := h 1 (by simp [matProd, Mat.mul, Mat.of]) 0 (by simp [matProd, Mat.mul, Mat.of])
  simp [matProd, Mat.mul, Mat.of, Finset.sum_range_succ] at this
  norm_num at this

end TorchMPS
