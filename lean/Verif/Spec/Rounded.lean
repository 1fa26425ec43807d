import Verif.Model.Rounded
import Verif.Spec.Contract
import Mathlib.Data.Int.Log
/-
Specification of rounded arithmetic.
-/
namespace TorchMPS.Spec
variable {K : Type}

/-- The arithmetic `ops` is accurate for matrix products with inner dimension at most `D` and sums of at most `N` logarithms: every entry of a matrix
product has error at most `γ` times the sum of the absolute values of its terms, every quotient has relative error at most `u`, the update of the log
scale has error at most `μ` times the sum of the absolute values of its terms; a rescaling factor is positive unless the matrix is zero (its value does
not matter otherwise). -/
structure Accurate [RCLike K] (ops : FlOps K) (D N : ℕ) (γ u μ : ℝ) : Prop where
  gamma : 0 ≤ γ
  unit : 0 ≤ u
  mu : 0 ≤ μ
  mmSize : ∀ A B, (ops.mm A B).r = A.r ∧ (ops.mm A B).c = B.c
  mm : ∀ A B, A.c = B.r → A.c ≤ D → ∀ i < A.r, ∀ j < B.c,
    ‖(ops.mm A B).e i j - ∑ k ∈ Finset.range A.c, A.e i k * B.e k j‖ ≤ γ * ∑ k ∈ Finset.range A.c, ‖A.e i k‖ * ‖B.e k j‖
  scaleNonneg : ∀ t A, 0 < t → 0 ≤ ops.scale t A
  isZero : ∀ s, ops.isZero s ↔ s = 0
  scaleZero : ∀ t A, 0 < t → (ops.scale t A = 0 ↔ IsZero A)
  divSize : ∀ A s, (ops.div A s).r = A.r ∧ (ops.div A s).c = A.c
  div : ∀ A s, 0 < s → ∀ i < A.r, ∀ j < A.c, ‖(ops.div A s).e i j - A.e i j / (s : K)‖ ≤ u * ‖A.e i j / (s : K)‖
  logAdd : ∀ s rs, (∀ r ∈ rs, 0 < r) → rs.length ≤ N →
    |ops.logAdd s rs - (s + (rs.map Real.log).sum)| ≤ μ * (|s| + (rs.map (fun r => |Real.log r|)).sum)

/-- All rescaling factors of the number format are between `e^-S` and `e^S` (`S` is about 88 in single and 709 in double precision). -/
def ScalesBounded (ops : FlOps K) (S : ℝ) : Prop := 0 ≤ S ∧ ∀ t A, 0 < t → 0 < ops.scale t A → |Real.log (ops.scale t A)| ≤ S

/-- The error factor of a computation with `a` matrix products and `b` divisions in every entry, and `k` updates of the log scale with `l` logarithms. -/
noncomputable def roundErr (γ u μ S : ℝ) (a b k l : ℕ) : ℝ := (1 + γ) ^ a * (1 + u) ^ b * Real.exp (((1 + μ) ^ k - 1) * (l * S)) - 1

/-- The matrix of absolute values. -/
noncomputable def absMat [RCLike K] (A : Mat K) : Mat ℝ := ⟨A.r, A.c, fun i j => ‖A.e i j‖⟩

/-- the product of the matrices of absolute values -/
noncomputable def absProd [RCLike K] (m : Mat K) (ms : List (Mat K)) : Mat ℝ := matProd (absMat m) (ms.map absMat)

/-- all sizes are between 1 and `D` -/
def SizesUpTo (D : ℕ) (ms : List (Mat K)) : Prop := ∀ m ∈ ms, 1 ≤ m.r ∧ m.r ≤ D ∧ 1 ≤ m.c ∧ m.c ≤ D

/-- The result `v` of a reduction (`none` for NaN) approximates the matrix `X`, whose entries are bounded by those of `Y`, with error factor `ε`: each entry
of `exp(log_scale) * product` differs from that of `X` by at most `ε` times the entry of `Y`, and NaN arises only if all entries of `X` are that small. -/
def Approximates [RCLike K] (v : Option (Mat K × ℝ)) (X : Mat K) (Y : Mat ℝ) (ε : ℝ) : Prop :=
  match v with
  | none => ∀ i < X.r, ∀ j < X.c, ‖X.e i j‖ ≤ ε * Y.e i j
  | some (P, s) => P.r = X.r ∧ P.c = X.c ∧ ∀ i < X.r, ∀ j < X.c, ‖((Real.exp s : ℝ) : K) * P.e i j - X.e i j‖ ≤ ε * Y.e i j

/-- `rnd` has relative error at most `u` (without overflow and underflow). -/
def IsRounding (rnd : ℝ → ℝ) (u : ℝ) : Prop := ∀ x, |rnd x - x| ≤ u * |x|

/-- Rounding towards minus infinity to `p` bits after the leading one. -/
noncomputable def truncBits (p : ℕ) (x : ℝ) : ℝ := ⌊x / (2 : ℝ) ^ (Int.log 2 |x| - p)⌋ * (2 : ℝ) ^ (Int.log 2 |x| - p)

end TorchMPS.Spec
