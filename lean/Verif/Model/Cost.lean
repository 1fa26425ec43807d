import Verif.Model.Rounded
/-
The work done by the matrix reductions and by `contract_matseq` of `torchmps/mps_base.py`: the same algorithms (`Model/Rounded.lean`), run on matrices
that carry, instead of values, the work that went into them.
-/
namespace TorchMPS

/-- Work: the number of scalar multiplications in matrix products, and the number of matrix products that had to be done one after the other
(products which do not depend on each other are done at the same time). -/
abbrev Work := ℕ × ℕ

/-- the work that went into a matrix; all its entries carry it -/
def Mat.work (A : Mat Work) : Work := A.e 0 0

/-- The arithmetic that counts. `torch.matmul` of an `r × k` and a `k × c` matrix (mps_base.py:211, 213, 290, 324) takes `r * k * c` multiplications, after
everything that was needed for both factors. (Every matrix is a factor of at most one product, so that nothing is counted twice.) Rescaling
(mps_base.py:295-297, 327-330) is linear in the number of entries, and not counted. -/
def costOps : Arith Work Unit where
  mm A B := ⟨A.r, B.c, fun _ _ => (A.work.1 + B.work.1 + A.r * A.c * B.c, max A.work.2 B.work.2 + 1)⟩
  scale _ _ := ()
  div A _ := A
  logAdd _ _ := ()
  isZero _ := False

end TorchMPS
