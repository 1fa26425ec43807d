import Verif.Model.RoundedMps
import Verif.Spec.MpsFn
import Verif.Spec.TiMps
import Verif.Spec.Rounded
import Verif.Model.Rounded
import Mathlib.Analysis.RCLike.Basic
/-
What is assumed of the arithmetic of a number format, and the quantities in the error bounds.
-/
namespace TorchMPS.Spec
variable {K : Type} [RCLike K]

/-- Sums of at most `S` products (terms) are computed up to `γ` times the sum of the absolute values of the products (terms), a single addition
and `1 - x` up to a relative error `u`. -/
structure AccurateNet (A : NetArith K) (S : ℕ) (γ u : ℝ) : Prop where
  gamma : 0 ≤ γ
  unit : 0 ≤ u
  dot : ∀ idx l, l.length ≤ S → ‖A.dot idx l - (l.map (fun p => p.1 * p.2)).sum‖ ≤ γ * (l.map (fun p => ‖p.1‖ * ‖p.2‖)).sum
  sum : ∀ idx l, l.length ≤ S → ‖A.sum idx l - l.sum‖ ≤ γ * (l.map (fun x => ‖x‖)).sum
  add : ∀ idx a b, ‖A.add idx a b - (a + b)‖ ≤ u * ‖a + b‖
  compl : ∀ idx x, ‖A.compl idx x - (1 - x)‖ ≤ u * ‖1 - x‖

/-- the tensor of the absolute values -/
noncomputable def absT (t : Tensor K) : Tensor ℝ := ⟨t.shape, fun idx => ‖t.get idx‖⟩

/-- the absolute values of all parameters of an MPS -/
noncomputable def absParams (p : Params K) : Params ℝ :=
  ⟨absT p.left, absT p.leftBias, absT p.out, absT p.right, absT p.rightBias⟩

/-- a TI_MPS with the absolute values of all parameters -/
noncomputable def absTi (m : TiMps K) : TiMps ℝ :=
  ⟨m.outputDim, m.bondDim, m.featureDim, m.parallel, m.useBias, m.fixedBias, none, absT m.core, absT m.initVec, absT m.termMat,
    m.biasMat.map absT⟩

/-- the entries of all parameters are nonnegative -/
def NonnegNet (p : Params ℝ) : Prop :=
  (∀ idx, 0 ≤ p.left.get idx) ∧ (∀ idx, 0 ≤ p.leftBias.get idx) ∧ (∀ idx, 0 ≤ p.out.get idx) ∧ (∀ idx, 0 ≤ p.right.get idx) ∧ ∀ idx, 0 ≤ p.rightBias.get idx

/-- Arithmetic on real numbers that rounds after every multiplication, addition and subtraction. Sums are taken in the order `ord`, which may differ
from entry to entry and depend on the data. -/
noncomputable def rndNet (rnd : ℝ → ℝ) (ord : List ℕ → List ℝ → List ℝ) : NetArith ℝ where
  dot idx l := flSum rnd ((ord idx (l.map (fun p => p.1 * p.2))).map rnd)
  sum idx l := flSum rnd ((ord idx l).map rnd)
  add _ a b := rnd (a + b)
  compl _ x := rnd (1 - x)

end TorchMPS.Spec
