import Verif.Spec.MpsFn
import Mathlib.Data.Fintype.Powerset
/-
C109: an MPS as linear regression, and as a polynomial in the pixels.
-/
namespace TorchMPS.Spec
variable {K : Type}

/-- One coordinate of the big feature space: for every pixel one of its features, or the constant 1. The coordinate of a sample is the product of these. -/
def bigFeature [CommRing K] {n F : ℕ} (e : Tensor K) (b : ℕ) (s : Fin n → Option (Fin F)) : K :=
  ∏ i : Fin n, match s i with
    | some f => e.get [b, i.val, f.val]
    | none => 1

/-- the outputs are a linear function of the coordinates of the big feature space, with the weights `W` -/
def LinearIn [CommRing K] {n F O : ℕ} (W : Fin O → (Fin n → Option (Fin F)) → K) (e y : Tensor K) : Prop :=
  ∀ b < e.shape.getD 0 0, ∀ o : Fin O, y.get [b, o.val] = ∑ s, W o s * bigFeature e b s

/-- a polynomial of degree at most one in each of the pixels `x i`: `a S` is the coefficient of the product of the pixels in `S` -/
def pixelPoly [CommRing K] {n : ℕ} (a : Finset (Fin n) → K) (x : Fin n → K) : K := ∑ S, a S * ∏ i ∈ S, x i

end TorchMPS.Spec
