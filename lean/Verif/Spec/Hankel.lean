import Mathlib.LinearAlgebra.Dimension.Finrank
import Mathlib.Analysis.RCLike.Basic
import Verif.Spec.TiMps
/-
Specification of what a translation-invariant model of a given bond dimension can represent: the Hankel matrix of a function of words.
-/
namespace TorchMPS.Spec

/-- The row of the word `u` of the Hankel matrix of a function `c` of words (with values indexed by `O`): the column of the word `v` and the index `o` holds the value `c (u v) o`. -/
def hankelRow {K A O : Type} (c : List A → O → K) (u : List A) : List A × O → K := fun v => c (u ++ v.1) v.2

/-- The rank of the Hankel matrix of `c` (the dimension of the space spanned by its rows) is at most `D`. -/
def HankelLe {K A O : Type} [Field K] (c : List A → O → K) (D : ℕ) : Prop :=
  _root_.Module.rank K (Submodule.span K (Set.range (hankelRow c))) ≤ (D : Cardinal)

/-- the table of a function of words with its value at the empty word replaced -/
def withEmpty {K A O : Type} (c : List A → O → K) (e : O → K) : List A → O → K
  | [] => e
  | a :: w => c (a :: w)

/-- `m` returns the outputs `c`: whenever it is given a batch of `B` words of length `n ≥ 1` in any accepted form, symbol `a` being described by the feature vector `v a`, `forward` returns the
`c w o` for the words `w` and outputs `o`, whatever has happened before in the process. -/
def TiReturns {K : Type} [CommRing K] {M O : ℕ} (m : TiMps K) (v : Fin M → ℕ → K) (c : List (Fin M) → Fin O → K) : Prop :=
  ∀ (B n : ℕ) (w : Fin B → Fin n → Fin M) (inp : TiInput K) (g : Option ℕ), 1 ≤ n → TiAccepts m B n inp →
    (∀ (b : Fin B) (i : Fin n), ∀ f < m.featureDim, tiEntry m inp b i f = v (w b i) f) →
    ∃ y, m.forward inp g = (.ok y, some B) ∧ y.shape = [B, O] ∧ ∀ (b : Fin B) (o : Fin O), y.get [b.val, o.val] = c (List.ofFn (w b)) o

/-- the sum of the squared moduli over all words of length `n` -/
noncomputable def wordMass {K : Type} [RCLike K] {d : ℕ} (Ψ : List (Fin d) → K) (n : ℕ) : ℝ := ∑ x : Fin n → Fin d, ‖Ψ (List.ofFn x)‖ ^ 2

end TorchMPS.Spec
