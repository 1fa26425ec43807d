import Verif.Lemmas.ArithEval
import Verif.Spec.Autodiff
import Verif.Props.Rounded
import Mathlib.Analysis.Calculus.Deriv.Mul
import Mathlib.Analysis.Calculus.Deriv.Add
/-
Automatic differentiation of the matrix reductions.
-/
namespace TorchMPS
open Spec
variable {K : Type} [RCLike K]

/-- the dual number of `exp(l)` -/
noncomputable def dualExp (l : DualNumber ℝ) : DualNumber K := jet (Real.exp l.fst : K) ((Real.exp l.fst * l.snd : ℝ) : K)

/-- a real dual number as a number of `K` -/
noncomputable def dualCoe (r : DualNumber ℝ) : DualNumber K := jet (r.fst : K) (r.snd : K)

theorem dual_ext {R : Type} {a b : DualNumber R} (h1 : a.fst = b.fst) (h2 : a.snd = b.snd) : a = b := TrivSqZeroExt.ext h1 h2

theorem dualOps_prod (rs : List (DualNumber ℝ)) (h : ∀ r ∈ rs, 0 < r.fst) :
    (dualExp (jet (rs.map (fun r => Real.log r.fst)).sum (rs.map (fun r => r.snd / r.fst)).sum) : DualNumber K) = (rs.map dualCoe).prod := by
  induction rs with
  | nil => refine dual_ext ?_ ?_ <;> simp [dualExp]
  | cons r rs ih =>
    have h0 := h r (by simp)
    have ih := ih (fun x hx => h x (List.mem_cons_of_mem _ hx))
    rw [List.map_cons, List.map_cons, List.map_cons, List.prod_cons, ← ih, List.sum_cons, List.sum_cons]
    generalize (rs.map (fun r => Real.log r.fst)).sum = a
    generalize (rs.map (fun r => r.snd / r.fst)).sum = b
    refine dual_ext ?_ ?_
    · rw [TrivSqZeroExt.fst_mul]
      simp only [dualExp, dualCoe, jet_fst, Real.exp_add, Real.exp_log h0]
      push_cast
      rfl
    · rw [DualNumber.snd_mul]
      simp only [dualExp, dualCoe, jet_fst, jet_snd, Real.exp_add, Real.exp_log h0]
      rw [← RCLike.ofReal_mul, ← RCLike.ofReal_mul, ← RCLike.ofReal_add]
      congr 1
      field_simp
      ring

theorem dualExp_add (a b : DualNumber ℝ) : (dualExp (a + b) : DualNumber K) = dualExp a * dualExp b := by
  refine dual_ext ?_ ?_
  · rw [TrivSqZeroExt.fst_mul]
    show ((Real.exp (a.fst + b.fst) : ℝ) : K) = ((Real.exp a.fst : ℝ) : K) * ((Real.exp b.fst : ℝ) : K)
    rw [Real.exp_add]
    push_cast
    rfl
  · rw [DualNumber.snd_mul]
    show ((Real.exp (a.fst + b.fst) * (a.snd + b.snd) : ℝ) : K) = ((Real.exp a.fst : ℝ) : K) * ((Real.exp b.fst * b.snd : ℝ) : K) +
      ((Real.exp a.fst * a.snd : ℝ) : K) * ((Real.exp b.fst : ℝ) : K)
    rw [Real.exp_add]
    push_cast
    ring

/-- dual number arithmetic is exact, whatever the tangents of the rescaling factors -/
theorem dualOps_exact (dAbs : Mat (DualNumber K) → ℝ) : ExactArith (dualOps dAbs) dualExp dualCoe where
  mm A B := rfl
  zero := by
    refine dual_ext ?_ ?_
    · show ((Real.exp (0 : ℝ) : ℝ) : K) = 1
      simp
    · show ((Real.exp (0 : ℝ) * 0 : ℝ) : K) = 0
      simp
  logAdd l rs h := by
    have hpos : ∀ r ∈ rs, 0 < r.fst := by
      intro r hr
      obtain ⟨h1, t, A, ht, rfl⟩ := h r hr
      exact lt_of_le_of_ne (div_nonneg (Mat.absSum_nonneg _) ht) (fun h0 => h1 h0.symm)
    rw [← dualOps_prod rs hpos, ← dualExp_add]
    rfl
  div A r h := by
    have h0 : (r.fst : K) ≠ 0 := by
      have : r.fst ≠ 0 := h
      exact_mod_cast this
    obtain ⟨n, m, e⟩ := A
    show Mat.mk n m _ = _
    congr 1
    funext i j
    refine dual_ext ?_ ?_
    · rw [TrivSqZeroExt.fst_mul]
      show (r.fst : K) * ((e i j).fst / (r.fst : K)) = (e i j).fst
      field_simp
    · rw [DualNumber.snd_mul]
      show (r.fst : K) * ((e i j).snd / (r.fst : K) - (e i j).fst * (r.snd : K) / ((r.fst : K) * (r.fst : K))) + (r.snd : K) * ((e i j).fst / (r.fst : K)) = (e i j).snd
      field_simp
      ring

/-- the values without their tangents are computed as without differentiation -/
theorem dualOps_sim (dAbs : Mat (DualNumber K) → ℝ) : ArithSim (dualOps dAbs) (exactOps K) TrivSqZeroExt.fst TrivSqZeroExt.fst where
  mm A B := by
    show Mat.mk A.r B.c _ = Mat.mk A.r B.c _
    congr 1
    funext i j
    show (∑ k ∈ Finset.range A.c, A.e i k * B.e k j).fst = ∑ k ∈ Finset.range A.c, (A.e i k).fst * (B.e k j).fst
    rw [TrivSqZeroExt.fst_sum]
    rfl
  scale t A := rfl
  div A s := rfl
  logAdd l rs := by
    show l.fst + _ = l.fst + _
    rw [List.map_map]
    rfl
  isZero s := Iff.rfl
  zero := rfl
  eye n := by
    show Mat.mk n n _ = Mat.mk n n _
    congr 1
    funext i j
    show ((if i = j then 1 else 0 : DualNumber K)).fst = _
    split <;> rfl

end TorchMPS
