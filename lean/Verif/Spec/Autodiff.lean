import Verif.Model.Autodiff
import Verif.Spec.Contract
import Mathlib.Analysis.Calculus.Deriv.Basic
/-
Specification of derivatives.
-/
namespace TorchMPS.Spec
variable {K : Type}

/-- At `t₀`, the curve `f` has the value and the derivative of the dual number `d`. -/
def Follows [RCLike K] (f : ℝ → K) (d : DualNumber K) (t₀ : ℝ) : Prop := f t₀ = d.fst ∧ HasDerivAt f d.snd t₀

/-- the same for the entries of a matrix of constant size -/
def MatFollows [RCLike K] (f : ℝ → Mat K) (D : Mat (DualNumber K)) (t₀ : ℝ) : Prop :=
  (∀ t, (f t).r = D.r ∧ (f t).c = D.c) ∧ ∀ i < D.r, ∀ j < D.c, Follows (fun t => (f t).e i j) (D.e i j) t₀

/-- the same for the entries of a tensor of constant shape -/
def TensorFollows [RCLike K] (f : ℝ → Tensor K) (d : Tensor (DualNumber K)) (t₀ : ℝ) : Prop :=
  (∀ t, (f t).shape = d.shape) ∧ ∀ idx, InRange idx d.shape → Follows (fun t => (f t).get idx) (d.get idx) t₀

/-- the values without their tangents -/
def primalT (t : Tensor (DualNumber K)) : Tensor K := ⟨t.shape, fun idx => (t.get idx).fst⟩

/-- the matrix of the tangents -/
def tangentMat (A : Mat (DualNumber K)) : Mat K := A.map TrivSqZeroExt.snd

/-- The product rule: the sum over all positions of the product with the tangent in that position and the values elsewhere. -/
def leibniz [Semiring K] : List (Mat (DualNumber K)) → List (List (Mat K))
  | [] => []
  | m :: ms => (tangentMat m :: ms.map Mat.primal) :: (leibniz ms).map (m.primal :: ·)

/-- entry `(i, j)` of the product of a list of matrices -/
def prodEntry [Semiring K] (l : List (Mat K)) (i j : ℕ) : K :=
  match l with
  | [] => 0
  | m :: l => (matProd m l).e i j

/-- entry `(i, j)` of the derivative of a product of matrices: the sum over the products of `leibniz` -/
def leibnizEntry [Semiring K] (ms : List (Mat (DualNumber K))) (i j : ℕ) : K :=
  ((leibniz ms).map (prodEntry · i j)).sum

/-- curves of tensors of matrices and their jets: single tensors, or lists of the same length -/
def SeqFollows [RCLike K] (f : ℝ → TensorSeq K) (d : TensorSeq (DualNumber K)) (t₀ : ℝ) : Prop :=
  match d with
  | .single d => ∃ g, (∀ t, f t = .single (g t)) ∧ TensorFollows g d t₀
  | .seq ds => ∃ gs : List (ℝ → Tensor K), (∀ t, f t = .seq (gs.map (· t))) ∧ List.Forall₂ (fun g d => TensorFollows g d t₀) gs ds

/-- curves of optional tensors and their jets -/
def OptFollows [RCLike K] (f : ℝ → Option (Tensor K)) (d : Option (Tensor (DualNumber K))) (t₀ : ℝ) : Prop :=
  match d with
  | none => ∀ t, f t = none
  | some d => ∃ g, (∀ t, f t = some (g t)) ∧ TensorFollows g d t₀

end TorchMPS.Spec
