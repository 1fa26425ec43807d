import Verif.Spec.Autodiff
import Verif.Spec.MpsFn
import Verif.Spec.Gauge
import Verif.Lemmas.Mat
/-
Specification of derivatives with respect to the parameters and the input of an MPS.
-/
namespace TorchMPS.Spec
variable {K : Type}

/-- curves of the parameters of an MPS and their jets -/
structure ParamsFollow [RCLike K] (p : ℝ → Params K) (d : Params (DualNumber K)) (t₀ : ℝ) : Prop where
  left : TensorFollows (fun t => (p t).left) d.left t₀
  leftBias : TensorFollows (fun t => (p t).leftBias) d.leftBias t₀
  out : TensorFollows (fun t => (p t).out) d.out t₀
  right : TensorFollows (fun t => (p t).right) d.right t₀
  rightBias : TensorFollows (fun t => (p t).rightBias) d.rightBias t₀

/-- the same hyperparameters -/
structure SameHyper {L : Type} (m : MPS K) (m' : MPS L) : Prop where
  inputDim : m.inputDim = m'.inputDim
  outputDim : m.outputDim = m'.outputDim
  bondDim : m.bondDim = m'.bondDim
  featureDim : m.featureDim = m'.featureDim
  periodic : m.periodic = m'.periodic

/-- A feature map and its differentiated version: the latter gives the derivative of the former along every curve of scalars. `none` is the default map. -/
def FeatureFollows [RCLike K] (φ : Option (K → Tensor K)) (dφ : Option (DualNumber K → Tensor (DualNumber K))) (t₀ : ℝ) : Prop :=
  match φ, dφ with
  | none, none => True
  | some φ, some dφ => ∀ (s : ℝ → K) (ds : DualNumber K), Follows s ds t₀ → TensorFollows (fun t => φ (s t)) (dφ ds) t₀
  | _, _ => False

/-- ordered product of square matrices, the identity for the empty list -/
def envMat [CommSemiring K] (D : ℕ) (l : List (Mat K)) : Matrix (Fin D) (Fin D) K := (l.map (toMatrix D D)).prod

/-- the environment of the core of pixel `q`: the matrices before it and after it in the chain of sample `b` and output `o`, multiplied -/
def envBefore [CommSemiring K] (m : MPS K) (k : ℕ) (ub : Bool) (p : Params K) (e : Tensor K) (b o pos : ℕ) : Matrix (Fin m.bondDim) (Fin m.bondDim) K :=
  envMat m.bondDim ((mpsMats m.bondDim m.featureDim m.inputDim k ub p e b o).take pos)

/-- see `envBefore` -/
def envAfter [CommSemiring K] (m : MPS K) (k : ℕ) (ub : Bool) (p : Params K) (e : Tensor K) (b o pos : ℕ) : Matrix (Fin m.bondDim) (Fin m.bondDim) K :=
  envMat m.bondDim ((mpsMats m.bondDim m.featureDim m.inputDim k ub p e b o).drop (pos + 1))

end TorchMPS.Spec
