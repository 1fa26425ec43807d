import Verif.Spec.Adaptive
import Verif.Spec.Sens
import Verif.Spec.MatProd
/-
C112: what the modules of an adaptive model compute between two flips, and changes of their parameters.
-/
namespace TorchMPS.Spec

/-- The value of a list of modules for sample `b` and output `o`: the product of the matrices the modules contribute, closed by a trace (periodic boundary) or by
taking the first entry (open boundary). -/
noncomputable def chainOut (D F : ℕ) (per : Bool) (e : Tensor ℝ) (b o : ℕ) (ms : List (Module ℝ)) : ℝ :=
  match orderedProd (chainMats D F e b o 0 ms) with
  | some M => if per then ∑ i ∈ Finset.range D, M.e i i else M.e 0 0
  | none => 0

/-- the module with the absolute values of its parameters -/
noncomputable def absModule (m : Module ℝ) : Module ℝ := m.setTensor (absT m.tensor)

/-- the module with the absolute values of its parameters, each increased by the amount it is changed by when the parameters become those of `m'` -/
noncomputable def wideModule (m m' : Module ℝ) : Module ℝ := m.setTensor (wideT m.tensor m'.tensor)

/-- modules whose tensor holds several merged pairs of cores -/
def IsPairs : Module ℝ → Prop
  | .mergedInput _ => True
  | _ => False

/-- One (merged or lone) core of the module `w` moves along a straight line: class and shapes stay those of `w`, all entries of the tensor move from those of
`u 0` towards those of `u 1`; if the tensor holds several merged pairs, only one of them changes. -/
def CoreLine (w : Module ℝ) (u : ℝ → Module ℝ) : Prop :=
  ∃ T : ℝ → Tensor ℝ, (∀ t, (T t).shape = w.tensor.shape ∧ u t = w.setTensor (T t)) ∧
    (∀ t idx, (T t).get idx = (1 - t) * (T 0).get idx + t * (T 1).get idx) ∧
    (IsPairs w → ∃ s, ∀ s' rest, s' ≠ s → (T 1).get (s' :: rest) = (T 0).get (s' :: rest))

end TorchMPS.Spec
