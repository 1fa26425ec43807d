import Verif.Spec.Hankel
import Mathlib.LinearAlgebra.Matrix.NonsingularInverse
/-
C110: the parameters of a TI_MPS are determined by its outputs up to a change of basis of the bond space.
-/
namespace TorchMPS.Spec
open Matrix
variable {K : Type}

/-- the matrix of the shared core for feature `f` -/
def coreOf (m : TiMps K) (D f : ℕ) : Matrix (Fin D) (Fin D) K := Matrix.of fun l r => m.core.get [l.val, r.val, f]

/-- the bias matrix (0 without bias) -/
def biasOf [Zero K] (m : TiMps K) (D : ℕ) : Matrix (Fin D) (Fin D) K := Matrix.of fun l r => tiBiasAt m l r

/-- the initial vector -/
def initOf (m : TiMps K) (D : ℕ) : Fin D → K := fun l => m.initVec.get [l.val]

/-- the terminal vector of output `o` -/
def termOf (m : TiMps K) (D o : ℕ) : Fin D → K := fun l => m.termMat.get [l.val, o]

/-- The matrix applied at a step with feature vector `x`: the core contracted with the features, plus the bias. -/
def stepOf [CommRing K] (m : TiMps K) (D F : ℕ) (x : ℕ → K) : Matrix (Fin D) (Fin D) K := ∑ f ∈ Finset.range F, x f • coreOf m D f + biasOf m D

/-- `m'` is `m` after the change of basis `X` of the bond space -/
structure ChangeOfBasis [CommRing K] (D F O : ℕ) (m m' : TiMps K) (X : Matrix (Fin D) (Fin D) K) : Prop where
  invertible : IsUnit X.det
  core : ∀ f < F, coreOf m' D f = X⁻¹ * coreOf m D f * X
  bias : biasOf m' D = X⁻¹ * biasOf m D * X
  init : initOf m' D = initOf m D ᵥ* X
  term : ∀ o < O, termOf m' D o = X⁻¹ *ᵥ termOf m D o

/-- As many beginnings and endings of words as the bond dimension, none empty, such that the table of the outputs for beginning and ending put together (for each ending one of the
outputs) has a nonzero determinant: no smaller bond dimension would do (C99). -/
def FullRank [CommRing K] {A O : Type} (D : ℕ) (c : List A → O → K) : Prop :=
  ∃ (p s : Fin D → List A) (o : Fin D → O), (∀ i, p i ≠ []) ∧ (∀ j, s j ≠ []) ∧ (Matrix.of fun i j => c (p i ++ s j) (o j)).det ≠ 0

/-- all feature vectors with `F` entries are combinations of those of the symbols -/
def Spanning [CommRing K] {M : ℕ} (F : ℕ) (v : Fin M → ℕ → K) : Prop := ∀ f < F, ∃ g : Fin M → K, ∀ f' < F, ∑ a, g a * v a f' = if f' = f then 1 else 0

end TorchMPS.Spec
