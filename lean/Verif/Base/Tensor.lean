import Verif.Base.Err
import Mathlib.Algebra.BigOperators.Group.Finset.Basic
import Mathlib.Algebra.BigOperators.Ring.Finset
/-
The part of `torch.Tensor` the library relies on.

A tensor is a shape together with its entries, addressed by multi-indices. Entries at out-of-range
indices carry no meaning; every theorem about tensors only speaks about in-range indices.
-/
namespace TorchMPS

abbrev Shape := List ℕ

structure Tensor (K : Type) where
  shape : Shape
  get : List ℕ → K

/-- `idx` is a valid multi-index into `shape`. -/
def InRange (idx : List ℕ) (shape : Shape) : Prop := List.Forall₂ (· < ·) idx shape

instance (idx shape) : Decidable (InRange idx shape) := by unfold InRange; infer_instance

namespace Tensor
variable {K : Type}

/-- `t.ndim` -/
def ndim (t : Tensor K) : ℕ := t.shape.length

/-- Same shape and same (in-range) entries. -/
def Eqv (s t : Tensor K) : Prop :=
  s.shape = t.shape ∧ ∀ idx, InRange idx s.shape → s.get idx = t.get idx

/-- Index into a tensor of shape `sh` when it is addressed with an index of the tensor it was
broadcast to: size-1 axes are always read at 0. -/
def clampIdx (sh : Shape) (idx : List ℕ) : List ℕ :=
  List.zipWith (fun n i => if n = 1 then 0 else i) sh idx

/-- `t[(None,) * k]`: insert `k` leading axes of size 1. -/
def unsqueezeFront (t : Tensor K) (k : ℕ) : Tensor K where
  shape := List.replicate k 1 ++ t.shape
  get idx := t.get (idx.drop k)

/-- `t.expand(*shp)` for `shp` of the same rank: every axis keeps its size or is a size-1 axis
which is repeated; torch raises `RuntimeError` otherwise. -/
def expand (t : Tensor K) (shp : Shape) : Except Err (Tensor K) :=
  if List.Forall₂ (fun n m => n = m ∨ n = 1) t.shape shp then
    .ok ⟨shp, fun idx => t.get (clampIdx t.shape idx)⟩
  else .error .runtime

/-- `torch.stack(ts, dim)` for a non-empty list of tensors of equal shape; `pos` is the position of
the new axis in the result. -/
def stack (t₀ : Tensor K) (ts : List (Tensor K)) (pos : ℕ) : Tensor K where
  shape := t₀.shape.take pos ++ (ts.length + 1) :: t₀.shape.drop pos
  get idx := ((t₀ :: ts).getD (idx.getD pos 0) t₀).get (idx.take pos ++ idx.drop (pos + 1))

end Tensor

theorem inRange_nil_iff {sh : Shape} : InRange [] sh ↔ sh = [] := by
  unfold InRange; simp

@[simp] theorem inRange_nil_nil : InRange [] [] := List.Forall₂.nil

@[simp] theorem inRange_cons {i : ℕ} {idx : List ℕ} {n : ℕ} {sh : Shape} :
    InRange (i :: idx) (n :: sh) ↔ i < n ∧ InRange idx sh := by
  unfold InRange; simp

@[simp] theorem not_inRange_cons_nil {i : ℕ} {idx : List ℕ} : ¬ InRange (i :: idx) [] := by
  unfold InRange; simp

@[simp] theorem not_inRange_nil_cons {n : ℕ} {sh : Shape} : ¬ InRange [] (n :: sh) := by
  unfold InRange; simp

theorem InRange.length_eq {idx : List ℕ} {sh : Shape} (h : InRange idx sh) :
    idx.length = sh.length := List.Forall₂.length_eq h

theorem InRange.append {a b : List ℕ} {s t : Shape} (h₁ : InRange a s) (h₂ : InRange b t) :
    InRange (a ++ b) (s ++ t) := List.rel_append h₁ h₂

theorem Tensor.clampIdx_of_inRange {sh : Shape} {idx : List ℕ} (h : InRange idx sh) :
    Tensor.clampIdx sh idx = idx := by
  induction h with
  | nil => rfl
  | @cons i n idx sh hi _ ih =>
    simp only [Tensor.clampIdx, List.zipWith_cons_cons] at ih ⊢
    rw [ih]
    split
    · have : i = 0 := by omega
      rw [this]
    · rfl

end TorchMPS
