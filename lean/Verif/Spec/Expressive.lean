import Mathlib.LinearAlgebra.Matrix.Rank
import Verif.Spec.MpsFn
/-
Specification of what a bond dimension can represent: unfoldings of a tensor and their ranks.
-/
namespace TorchMPS.Spec

/-- the sequence whose entries before position `t` are those of `u` and whose other entries are those of `v` -/
def glue {n : ℕ} {β : Fin n → Type} (t : ℕ) (u v : ∀ s, β s) : ∀ s, β s := fun s => if s.val < t then u s else v s

/-- The unfolding at position `t` of a tensor with `n` indices: the matrix whose rows are labelled by the values of the first `t` indices and whose columns are
labelled by the values of the others. (Rows and columns are labelled by full sequences, of which only the relevant half counts; so rows and columns are repeated, which does not change the rank.) -/
def unfolding {K : Type} {n : ℕ} {β : Fin n → Type} (ψ : (∀ s, β s) → K) (t : ℕ) : Matrix (∀ s, β s) (∀ s, β s) K :=
  Matrix.of fun u v => ψ (glue t u v)

/-- A table with one index per pixel and an output index, unfolded at a bond before the output core: rows are labelled by the first `t` pixels, columns by the other pixels and the output. -/
def leftUnfolding {K : Type} {O n M : ℕ} (c : Fin O → (Fin n → Fin M) → K) (t : ℕ) : Matrix (Fin n → Fin M) ((Fin n → Fin M) × Fin O) K :=
  Matrix.of fun u v => c v.2 (glue (β := fun _ => Fin M) t u v.1)

/-- The same unfolded at a bond after the output core: rows are labelled by the first `t` pixels and the output, columns by the other pixels. -/
def rightUnfolding {K : Type} {O n M : ℕ} (c : Fin O → (Fin n → Fin M) → K) (t : ℕ) : Matrix ((Fin n → Fin M) × Fin O) (Fin n → Fin M) K :=
  Matrix.of fun u v => c u.2 (glue (β := fun _ => Fin M) t u.1 v)

/-- The unfoldings at all inner bonds of an MPS with the output at site `k` have rank at most `D`. -/
def RanksLe {K : Type} [Field K] {O n M : ℕ} (c : Fin O → (Fin n → Fin M) → K) (k D : ℕ) : Prop :=
  (∀ t, 0 < t → t ≤ k → (leftUnfolding c t).rank ≤ D) ∧ ∀ t, k ≤ t → t < n → (rightUnfolding c t).rank ≤ D

/-- The input of one sample whose pixel `i` has the feature vector `v (s i)`. -/
def pixelInput {K : Type} [Zero K] {n M : ℕ} (F : ℕ) (v : Fin M → ℕ → K) (s : Fin n → Fin M) : Tensor K :=
  ⟨[1, n, F], fun idx => match idx with
    | [_, i, f] => if h : i < n then v (s ⟨i, h⟩) f else 0
    | _ => 0⟩

/-- On all inputs with a feature axis the model returns, for every sample and output `o`, the value at the feature vectors of the pixels of the multilinear function with coefficients `c o`. -/
def Computes {K : Type} [CommRing K] {O n F : ℕ} (m : MPS K) (k : ℕ) (c : Fin O → (Fin n → Fin F) → K) : Prop :=
  ∀ (B : ℕ) (x : Tensor K) (g : Option ℕ), x.shape = [B, n, F] → BatchKnown k B g →
    ∃ y g', m.forward x g = (.ok y, g') ∧ y.shape = [B, O] ∧ ∀ b < B, ∀ o : Fin O, y.get [b, o.val] = ∑ s : Fin n → Fin F, c o s * ∏ i, x.get [b, i.val, (s i).val]

end TorchMPS.Spec
