import Verif.Base.Tensor
/-
Specification of NumPy/PyTorch broadcasting, stated per axis counted from the right.
-/
namespace TorchMPS.Spec

/-- Size of axis `i` counted from the right (`i = 0` is the last axis); missing axes count as 1. -/
def sizeAt (s : Shape) (i : ℕ) : ℕ := s.reverse.getD i 1

/-- `out` is the broadcast of `shapes`: its rank is the largest rank; on every axis each shape has
size 1 or the size of `out`, and the size of `out` is the size of one of the shapes. -/
structure IsBroadcast (shapes : List Shape) (out : Shape) : Prop where
  rank_ge : ∀ s ∈ shapes, s.length ≤ out.length
  rank_eq : ∃ s ∈ shapes, s.length = out.length
  fits : ∀ i, ∀ s ∈ shapes, sizeAt s i = 1 ∨ sizeAt s i = sizeAt out i
  attained : ∀ i, ∃ s ∈ shapes, sizeAt s i = sizeAt out i

/-- The shapes can be broadcast together: on each axis all sizes different from 1 agree. -/
def Compatible (shapes : List Shape) : Prop :=
  ∀ i, ∀ s ∈ shapes, ∀ t ∈ shapes, sizeAt s i = 1 ∨ sizeAt t i = 1 ∨ sizeAt s i = sizeAt t i

/-- batch part of the shape of a tensor with `k` non-batch axes -/
def batchShape {K : Type} (t : Tensor K) (k : ℕ) : Shape := t.shape.take (t.ndim - k)

/-- non-batch part (last `k` axes) of the shape of a tensor -/
def nonBatchShape {K : Type} (t : Tensor K) (k : ℕ) : Shape := t.shape.drop (t.ndim - k)

/-- Where entry `b` of the broadcast batch is found in a tensor of batch shape `s`: keep the last
`s.length` components, and read size-1 axes at 0. -/
def sourceIndex (s : Shape) (b : List ℕ) : List ℕ :=
  List.zipWith (fun n i => if n = 1 then 0 else i) s (b.drop (b.length - s.length))

end TorchMPS.Spec
