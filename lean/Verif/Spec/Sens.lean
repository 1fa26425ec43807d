import Verif.Spec.RoundedMps
/-
The quantities in the bounds on the effect of changed parameters and inputs.
-/
namespace TorchMPS.Spec
variable {K : Type} [RCLike K]

/-- entrywise: the absolute value of `t` plus the distance between `t` and `t'` -/
noncomputable def wideT (t t' : Tensor K) : Tensor ℝ := ⟨t.shape, fun idx => ‖t.get idx‖ + ‖t'.get idx - t.get idx‖⟩

/-- the absolute values of all parameters of an MPS, each increased by the amount it is changed by -/
noncomputable def wideParams (p p' : Params K) : Params ℝ :=
  ⟨wideT p.left p'.left, wideT p.leftBias p'.leftBias, wideT p.out p'.out, wideT p.right p'.right, wideT p.rightBias p'.rightBias⟩

/-- the bias matrix of `wideTi` -/
noncomputable def wideBias (b b' : Option (Tensor K)) : Option (Tensor ℝ) :=
  match b, b' with
  | some b, some b' => some (wideT b b')
  | _, _ => none

/-- a TI_MPS with the absolute values of all parameters, each increased by the amount it is changed by -/
noncomputable def wideTi (m m' : TiMps K) : TiMps ℝ :=
  ⟨m.outputDim, m.bondDim, m.featureDim, m.parallel, m.useBias, m.fixedBias, none, wideT m.core m'.core, wideT m.initVec m'.initVec,
    wideT m.termMat m'.termMat, wideBias m.biasMat m'.biasMat⟩

/-- every entry changes at most by the fraction `ε` of its absolute value -/
def RelClose (ε : ℝ) (t t' : Tensor K) : Prop := ∀ idx, InRange idx t.shape → ‖t'.get idx - t.get idx‖ ≤ ε * ‖t.get idx‖

/-- every entry changes at most by `δ` -/
def AbsClose (δ : ℝ) (t t' : Tensor K) : Prop := ∀ idx, InRange idx t.shape → ‖t'.get idx - t.get idx‖ ≤ δ

/-- a statement about all five parameter tensors -/
def AllParams (P : Tensor K → Tensor K → Prop) (p p' : Params K) : Prop :=
  P p.left p'.left ∧ P p.leftBias p'.leftBias ∧ P p.out p'.out ∧ P p.right p'.right ∧ P p.rightBias p'.rightBias

/-- two models of the same shape, possibly with different parameters, evaluation modes, paths and feature maps -/
structure SameShape (m m' : MPS K) : Prop where
  input : m'.inputDim = m.inputDim
  output : m'.outputDim = m.outputDim
  bond : m'.bondDim = m.bondDim
  feature : m'.featureDim = m.featureDim
  periodic : m'.periodic = m.periodic

/-- two TI_MPS of the same shape -/
structure TiSameShape (m m' : TiMps K) : Prop where
  output : m'.outputDim = m.outputDim
  bond : m'.bondDim = m.bondDim
  feature : m'.featureDim = m.featureDim
  bias : m'.useBias = m.useBias

end TorchMPS.Spec
