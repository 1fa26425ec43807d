import Verif.Spec.Gauge
import Verif.Spec.TrainGrad
import Verif.Spec.ProbMps
import Verif.Spec.TiTrain
import Mathlib.Analysis.Calculus.Deriv.Basic
/-
C114: gradients along the cores themselves; norms of the cores during training.
-/
namespace TorchMPS.Spec

/-- the sum of the products of corresponding entries of two `a × b × c` tensors -/
noncomputable def inner3 (a b c : ℕ) (G T : ℕ → ℕ → ℕ → ℝ) : ℝ := ∑ i ∈ Finset.range a, ∑ j ∈ Finset.range b, ∑ l ∈ Finset.range c, G i j l * T i j l

/-- the sum of the squares of the entries (the squared Frobenius norm) -/
noncomputable def sq3 (a b c : ℕ) (T : ℕ → ℕ → ℕ → ℝ) : ℝ := ∑ i ∈ Finset.range a, ∑ j ∈ Finset.range b, ∑ l ∈ Finset.range c, T i j l ^ 2

/-- the entries of the output core -/
def outCore (p : Params ℝ) : ℕ → ℕ → ℕ → ℝ := fun o l r => p.out.get [o, l, r]

/-- The function `L` of the parameters depends on nothing but the outputs which the model with these parameters computes for the input `x` (as every loss does). -/
def OfOutputs (m : MPS ℝ) (k : ℕ) (ub : Bool) (x : Tensor ℝ) (g : Option ℕ) (L : Params ℝ → ℝ) : Prop :=
  ∀ p p' y y', IsMps k ub p (withParams m k ub p) → IsMps k ub p' (withParams m k ub p') → ((withParams m k ub p).forward x g).1 = .ok y →
    ((withParams m k ub p').forward x g).1 = .ok y' → y.Eqv y' → L p = L p'

/-- `G` is the gradient of `L` with respect to the core of pixel `q` -/
def IsCoreGrad (D F k q : ℕ) (L : Params ℝ → ℝ) (p : Params ℝ) (G : ℕ → ℕ → ℕ → ℝ) : Prop :=
  ∀ T : ℕ → ℕ → ℕ → ℝ, HasDerivAt (fun t : ℝ => L (setCore k q (fun l r f => p.core k q l r f + t * T l r f) p)) (inner3 D D F G T) 0

/-- `G` is the gradient of `L` with respect to the output core -/
def IsOutGrad (O D : ℕ) (L : Params ℝ → ℝ) (p : Params ℝ) (G : ℕ → ℕ → ℕ → ℝ) : Prop :=
  ∀ T : ℕ → ℕ → ℕ → ℝ, HasDerivAt (fun t : ℝ => L (setOut (fun o l r => outCore p o l r + t * T o l r) p)) (inner3 O D D G T) 0

/-- the tensor moved by `t` in the direction `T` -/
noncomputable def movedTensor (c T : Tensor ℝ) (t : ℝ) : Tensor ℝ := ⟨c.shape, fun idx => c.get idx + t * T.get idx⟩

/-- the probabilistic model with another core tensor -/
def withCoreTensor (m : ProbMPS ℝ) (c : Tensor ℝ) : ProbMPS ℝ := { m with core := c }

/-- `m` with the core `C` (entries: left bond, right bond, feature) -/
def setTiCore (m : TiMps ℝ) (C : ℕ → ℕ → ℕ → ℝ) : TiMps ℝ :=
  { m with core := ⟨[m.bondDim, m.bondDim, m.featureDim], fun idx => C (idx.getD 0 0) (idx.getD 1 0) (idx.getD 2 0)⟩ }

/-- The function `L` of a TI_MPS depends on nothing but the outputs it computes for the input. -/
def TiOfOutputs (inp : TiInput ℝ) (g : Option ℕ) (L : TiMps ℝ → ℝ) : Prop :=
  ∀ m m' y y', (m.forward inp g).1 = .ok y → (m'.forward inp g).1 = .ok y' → y.Eqv y' → L m = L m'

/-- `G` is the gradient of `L` with respect to the initial vector -/
def IsInitGrad (L : TiMps ℝ → ℝ) (m : TiMps ℝ) (G : ℕ → ℝ) : Prop :=
  ∀ T : ℕ → ℝ, HasDerivAt (fun t : ℝ => L (setInit m (fun l => m.initVec.get [l] + t * T l))) (∑ l ∈ Finset.range m.bondDim, G l * T l) 0

/-- `G` is the gradient of `L` with respect to the terminal matrix -/
def IsTermGrad (L : TiMps ℝ → ℝ) (m : TiMps ℝ) (G : ℕ → ℕ → ℝ) : Prop :=
  ∀ T : ℕ → ℕ → ℝ, HasDerivAt (fun t : ℝ => L (setTerm m (fun l o => m.termMat.get [l, o] + t * T l o)))
    (∑ l ∈ Finset.range m.bondDim, ∑ o ∈ Finset.range m.outputDim, G l o * T l o) 0

/-- `G` is the gradient of `L` with respect to the shared core -/
def IsTiCoreGrad (L : TiMps ℝ → ℝ) (m : TiMps ℝ) (G : ℕ → ℕ → ℕ → ℝ) : Prop :=
  ∀ T : ℕ → ℕ → ℕ → ℝ, HasDerivAt (fun t : ℝ => L (setTiCore m (fun l r f => m.core.get [l, r, f] + t * T l r f))) (inner3 m.bondDim m.bondDim m.featureDim G T) 0

end TorchMPS.Spec
