import Mathlib.Data.List.Basic
/-
Specification vocabulary of the "horizontal/vertical" data set (C44).
-/
namespace TorchMPS.Spec

/-- A black-and-white stripe pattern of length `L`: `L` values 0 or 1, not all equal. -/
def StripePattern (L : ℕ) (p : List ℕ) : Prop :=
  p.length = L ∧ (∀ v ∈ p, v = 0 ∨ v = 1) ∧ 0 ∈ p ∧ 1 ∈ p

/-- An `L × L` image, as the list of its rows. -/
def SquareImage (L : ℕ) (img : List (List ℕ)) : Prop := img.length = L ∧ ∀ row ∈ img, row.length = L

/-- the pixel in row `i` and column `j` -/
def pixel (img : List (List ℕ)) (i j : ℕ) : ℕ := (img.getD i []).getD j 0

/-- All rows of the image are constant: row `i` has colour `p[i]`. -/
def HorizontalStripes (L : ℕ) (p : List ℕ) (img : List (List ℕ)) : Prop :=
  SquareImage L img ∧ ∀ i < L, ∀ j < L, pixel img i j = p.getD i 0

/-- All columns of the image are constant: column `j` has colour `p[j]`. -/
def VerticalStripes (L : ℕ) (p : List ℕ) (img : List (List ℕ)) : Prop :=
  SquareImage L img ∧ ∀ i < L, ∀ j < L, pixel img i j = p.getD j 0

end TorchMPS.Spec
