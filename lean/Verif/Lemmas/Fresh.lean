import Verif.Props.MpsParams
import Mathlib.Analysis.Matrix.Normed
/-
Norms of products of matrices near a projection.
-/
namespace TorchMPS
open Spec
variable {D : ℕ}

attribute [local instance] Matrix.linftyOpNormedRing

theorem linfty_le (M : Matrix (Fin D) (Fin D) ℝ) (c : ℝ) (hc : 0 ≤ c) (h : ∀ i, ∑ j, |M i j| ≤ c) : ‖M‖ ≤ c := by
  rw [Matrix.linfty_opNorm_def]
  have h2 : (Finset.univ.sup fun i : Fin D => ∑ j, ‖M i j‖₊) ≤ ⟨c, hc⟩ := by
    refine Finset.sup_le ?_
    intro i _
    refine NNReal.coe_le_coe.1 ?_
    push_cast
    exact h i
  exact_mod_cast h2

theorem linfty_row (M : Matrix (Fin D) (Fin D) ℝ) (i : Fin D) : ∑ j, |M i j| ≤ ‖M‖ := by
  rw [Matrix.linfty_opNorm_def]
  have h2 : (∑ j, ‖M i j‖₊) ≤ Finset.univ.sup fun i : Fin D => ∑ j, ‖M i j‖₊ :=
    Finset.le_sup (f := fun i : Fin D => ∑ j, ‖M i j‖₊) (Finset.mem_univ i)
  have h3 := NNReal.coe_le_coe.2 h2
  push_cast at h3
  exact_mod_cast h3

theorem linfty_entry (M : Matrix (Fin D) (Fin D) ℝ) (i j : Fin D) : |M i j| ≤ ‖M‖ :=
  (Finset.single_le_sum (f := fun j => |M i j|) (fun _ _ => abs_nonneg _) (Finset.mem_univ j)).trans (linfty_row M i)

theorem linfty_entries (M : Matrix (Fin D) (Fin D) ℝ) (c : ℝ) (hc : 0 ≤ c) (h : ∀ i j, |M i j| ≤ c) : ‖M‖ ≤ D * c := by
  refine linfty_le M _ (by positivity) ?_
  intro i
  refine (Finset.sum_le_sum (fun j _ => h i j)).trans ?_
  simp

/-- entry (0,0) or trace -/
noncomputable def readOff (per : Bool) (M : Matrix (Fin D) (Fin D) ℝ) : ℝ :=
  if per then M.trace else if h : 0 < D then M ⟨0, h⟩ ⟨0, h⟩ else 0

/-- number of entries read off -/
def readNum (per : Bool) (D : ℕ) : ℝ := if per then D else 1

theorem readNum_nonneg (per : Bool) (D : ℕ) : 0 ≤ readNum per D := by
  unfold readNum; split_ifs <;> positivity

theorem readOff_sub (per : Bool) (M N : Matrix (Fin D) (Fin D) ℝ) : readOff per M - readOff per N = readOff per (M - N) := by
  unfold readOff
  split_ifs <;> simp

theorem readOff_le (per : Bool) (M : Matrix (Fin D) (Fin D) ℝ) : |readOff per M| ≤ readNum per D * ‖M‖ := by
  unfold readOff readNum
  split_ifs with h1 h2
  · unfold Matrix.trace
    refine (Finset.abs_sum_le_sum_abs _ _).trans ?_
    refine (Finset.sum_le_sum (fun i _ => linfty_entry M i i)).trans ?_
    simp
  · simpa using linfty_entry M _ _
  · simp

theorem mpsValue_readOff (F n k : ℕ) (hk : k ≤ n) (ub per : Bool) (hD : per = true ∨ 1 ≤ D) (p : Params ℝ) (e : Tensor ℝ) (b o : ℕ) :
    mpsValue D F n k ub per p e b o = readOff per (chainMatrix D F n k ub p e b o) := by
  unfold readOff
  cases per with
  | true => exact (mpsValue_chain D F n k hk ub true p e b o).1 rfl
  | false =>
    have hD : 0 < D := hD.resolve_left (by simp)
    simp only [Bool.false_eq_true, if_false, dif_pos hD]
    exact (mpsValue_chain D F n k hk ub false p e b o).2 rfl hD

theorem seqProd_near (P : Matrix (Fin D) (Fin D) ℝ) (hP : P * P = P) (hP1 : ‖P‖ ≤ 1) (A : ℕ → Matrix (Fin D) (Fin D) ℝ) (c : ℝ) (N : ℕ)
    (h : ∀ j < N + 1, ‖A j - P‖ ≤ c) : ‖seqProd A (N + 1) - P‖ ≤ (1 + c) ^ (N + 1) - 1 := by
  induction N with
  | zero =>
    rw [seqProd_succ]
    simpa [seqProd] using h 0 (by omega)
  | succ N ih =>
    have ih := ih (fun j hj => h j (by omega))
    have hA : ‖A (N + 1)‖ ≤ 1 + c := by
      have : A (N + 1) = P + (A (N + 1) - P) := by abel
      rw [this]
      exact (norm_add_le _ _).trans (add_le_add hP1 (h (N + 1) (by omega)))
    have e1 : seqProd A (N + 1 + 1) - P = (seqProd A (N + 1) - P) * A (N + 1) + P * (A (N + 1) - P) := by
      rw [seqProd_succ, Matrix.sub_mul, Matrix.mul_sub, hP]
      abel
    rw [e1]
    have hpow : 0 ≤ (1 + c) ^ (N + 1) - 1 := (norm_nonneg _).trans ih
    calc ‖(seqProd A (N + 1) - P) * A (N + 1) + P * (A (N + 1) - P)‖
        ≤ ‖seqProd A (N + 1) - P‖ * ‖A (N + 1)‖ + ‖P‖ * ‖A (N + 1) - P‖ :=
          (norm_add_le _ _).trans (add_le_add (norm_mul_le _ _) (norm_mul_le _ _))
      _ ≤ ((1 + c) ^ (N + 1) - 1) * (1 + c) + 1 * c :=
          add_le_add (mul_le_mul ih hA (norm_nonneg _) hpow) (mul_le_mul hP1 (h (N + 1) (by omega)) (norm_nonneg _) (by norm_num))
      _ = (1 + c) ^ (N + 1 + 1) - 1 := by ring

theorem seqProd_norm (A : ℕ → Matrix (Fin D) (Fin D) ℝ) (N : ℕ) : ‖seqProd A (N + 1)‖ ≤ ∏ j ∈ Finset.range (N + 1), ‖A j‖ := by
  induction N with
  | zero => simp [seqProd]
  | succ N ih =>
    rw [seqProd_succ, Finset.prod_range_succ]
    exact (norm_mul_le _ _).trans (mul_le_mul_of_nonneg_right ih (norm_nonneg _))

/-- Changing one factor. -/
theorem seqProd_change (A B : ℕ → Matrix (Fin D) (Fin D) ℝ) (q N : ℕ) (hq : q < N + 1) (h : ∀ j < N + 1, j ≠ q → B j = A j) :
    ‖seqProd B (N + 1) - seqProd A (N + 1)‖ ≤ ‖B q - A q‖ * ∏ j ∈ (Finset.range (N + 1)).erase q, ‖A j‖ := by
  -- the difference is the product with factor `B q - A q` in place of `A q`
  have key : ∀ M, q < M + 1 → M ≤ N → seqProd B (M + 1) - seqProd A (M + 1) = seqProd (fun j => if j = q then B q - A q else A j) (M + 1) := by
    intro M
    induction M with
    | zero =>
      intro h0 _
      have : q = 0 := by omega
      subst this
      simp [seqProd]
    | succ M ih =>
      intro h0 hM
      by_cases hqM : q = M + 1
      · have e1 : seqProd B (M + 1) = seqProd A (M + 1) := seqProd_congr _ _ _ (fun j hj => h j (by omega) (by omega))
        have e2 : seqProd (fun j => if j = q then B q - A q else A j) (M + 1) = seqProd A (M + 1) :=
          seqProd_congr _ _ _ (fun j hj => by simp [show j ≠ q by omega])
        rw [seqProd_succ, seqProd_succ A, seqProd_succ (fun j => if j = q then B q - A q else A j), e1, e2, if_pos hqM.symm, Matrix.mul_sub, hqM]
      · rw [seqProd_succ, seqProd_succ A, seqProd_succ (fun j => if j = q then B q - A q else A j), ← ih (by omega) (by omega), if_neg (by omega),
          h (M + 1) (by omega) (by omega), Matrix.sub_mul]
  rw [key N hq (le_refl _)]
  refine (seqProd_norm _ N).trans ?_
  rw [← Finset.mul_prod_erase _ _ (Finset.mem_range.2 hq)]
  simp only [if_pos]
  refine le_of_eq ?_
  congr 1
  refine Finset.prod_congr rfl ?_
  intro j hj
  rw [if_neg (Finset.ne_of_mem_erase hj)]

end TorchMPS
