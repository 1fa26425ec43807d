import Verif.Base.View
/-
More operations of `torch.Tensor` used by contractables.py and torchmps.py.
-/
namespace TorchMPS
variable {K : Type}

namespace Tensor

/-- `t.unsqueeze(d)` -/
def unsqueeze (t : Tensor K) (d : ℕ) : Tensor K :=
  ⟨t.shape.insertIdx d 1, fun idx => t.get (idx.eraseIdx d)⟩

/-- `t.squeeze(d)`: the axis is removed if it has size 1, otherwise nothing happens. -/
def squeeze (t : Tensor K) (d : ℕ) : Tensor K :=
  if t.shape.getD d 0 = 1 then ⟨t.shape.eraseIdx d, fun idx => t.get (idx.insertIdx d 0)⟩ else t

/-- `t[..., start::step]` on axis `d`, keeping `count` entries. -/
def sliceAx (t : Tensor K) (d start step count : ℕ) : Tensor K :=
  ⟨t.shape.set d count, fun idx => t.get (idx.set d (start + step * idx.getD d 0))⟩

/-- `t[..., i]` on axis `d` (in range). -/
def select (t : Tensor K) (d i : ℕ) : Tensor K :=
  ⟨t.shape.eraseIdx d, fun idx => t.get (idx.insertIdx d i)⟩

/-- `torch.cat([a, b], d)`: RuntimeError unless all other axes agree. -/
def cat (a b : Tensor K) (d : ℕ) : Except Err (Tensor K) :=
  if a.shape.eraseIdx d = b.shape.eraseIdx d ∧ a.shape.length = b.shape.length ∧ d < a.shape.length then
    .ok ⟨a.shape.set d (a.shape.getD d 0 + b.shape.getD d 0), fun idx =>
      if idx.getD d 0 < a.shape.getD d 0 then a.get idx
      else b.get (idx.set d (idx.getD d 0 - a.shape.getD d 0))⟩
  else .error .runtime

/-- `torch.bmm(a, b)`: no broadcasting. -/
def bmm [CommSemiring K] (a b : Tensor K) : Except Err (Tensor K) :=
  match a.shape, b.shape with
  | [B, n, m], [B', m', p] =>
    if B = B' ∧ m = m' then
      .ok ⟨[B, n, p], fun idx => ∑ k ∈ Finset.range m,
        a.get [idx.getD 0 0, idx.getD 1 0, k] * b.get [idx.getD 0 0, k, idx.getD 2 0]⟩
    else .error .runtime
  | _, _ => .error .runtime

end Tensor
end TorchMPS
