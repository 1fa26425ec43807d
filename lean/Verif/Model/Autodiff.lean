import Verif.Model.Rounded
import Mathlib.Algebra.DualNumber
/-
Automatic differentiation: every number carries a tangent, i.e. the arithmetic is that of the dual numbers `a + a' ε` with `ε * ε = 0`, and every elementary
operation propagates the tangents by the rule of its derivative. This is forward mode; `torch.autograd` is reverse mode, which applies the transposed linear
maps to the same local derivatives, so that `grad · (tangent of the parameters) = tangent of the result`. (That torch implements the derivatives of its
elementary operations correctly is trusted.)
-/
namespace TorchMPS
variable {K : Type}

/-- the dual number `a + a' ε` -/
def jet (a a' : K) : DualNumber K := (a, a')

@[simp] theorem jet_fst (a a' : K) : (jet a a').fst = a := rfl
@[simp] theorem jet_snd (a a' : K) : (jet a a').snd = a' := rfl

/-- entrywise application -/
def Mat.map {L : Type} (f : K → L) (A : Mat K) : Mat L := ⟨A.r, A.c, fun i j => f (A.e i j)⟩

/-- the values without their tangents -/
def Mat.primal (A : Mat (DualNumber K)) : Mat K := A.map TrivSqZeroExt.fst

/-- the quotient of a number by a real number, with the quotient rule -/
noncomputable def dualDiv [RCLike K] (a : DualNumber K) (s : DualNumber ℝ) : DualNumber K :=
  jet (a.fst / (s.fst : K)) (a.snd / (s.fst : K) - a.fst * (s.snd : K) / ((s.fst : K) * (s.fst : K)))

/-- Dual number arithmetic for the matrix reductions of `torchmps/mps_base.py:248-334`. The tangent `dAbs A` of `A.abs().sum()` is left open: the absolute
value is not differentiable at 0, and there the derivative of a framework is a convention (torch: 0). -/
noncomputable def dualOps [RCLike K] (dAbs : Mat (DualNumber K) → ℝ) : Arith (DualNumber K) (DualNumber ℝ) where
  mm := Mat.mul
  scale t A := jet (A.primal.absSum / t) (dAbs A / t)
  div A s := A.map (fun a => dualDiv a s)
  logAdd l rs := jet (l.fst + (rs.map (fun r => Real.log r.fst)).sum) (l.snd + (rs.map (fun r => r.snd / r.fst)).sum)
  isZero s := s.fst = 0

/-- the tangent of `A.abs().sum()` as `torch` computes it: the sign of 0 is 0 -/
noncomputable def torchAbs [RCLike K] (A : Mat (DualNumber K)) : ℝ :=
  ∑ i ∈ Finset.range A.r, ∑ j ∈ Finset.range A.c, RCLike.re (star ((A.e i j).fst / (‖(A.e i j).fst‖ : K)) * (A.e i j).snd)

/-- `exp(l) * p`, torchmps/mps_base.py:245, with the product rule and the derivative of the exponential -/
noncomputable def dualExpMul [RCLike K] (l : DualNumber ℝ) (p : DualNumber K) : DualNumber K :=
  jet ((Real.exp l.fst : K) * p.fst) ((Real.exp l.fst : K) * p.snd + ((Real.exp l.fst * l.snd : ℝ) : K) * p.fst)

/-- `log(abs(p)) + l`, torchmps/prob_mps.py:201, for `p ≠ 0` -/
noncomputable def dualLogAbs [RCLike K] (l : DualNumber ℝ) (p : DualNumber K) : DualNumber ℝ :=
  jet (Real.log ‖p.fst‖ + l.fst) (RCLike.re (star p.fst * p.snd) / ‖p.fst‖ ^ 2 + l.snd)

end TorchMPS
