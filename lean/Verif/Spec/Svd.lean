import Verif.Model.Utils
/-
Specification for `svd_flex`.
-/
namespace TorchMPS.Spec

/-- `d` is a (reduced) singular value decomposition `A = U diag(s) Vᵀ`: what `torch.svd` promises. -/
structure IsSVD (A : Mat ℝ) (d : SVD) : Prop where
  urows : d.U.r = A.r
  ucols : d.U.c = min A.r A.c
  len : d.s.length = min A.r A.c
  vrows : d.V.r = A.c
  vcols : d.V.c = min A.r A.c
  recon : ∀ i < A.r, ∀ j < A.c, A.e i j = ∑ k ∈ Finset.range (min A.r A.c), d.U.e i k * d.s.getD k 0 * d.V.e j k
  orthU : ∀ k < min A.r A.c, ∀ l < min A.r A.c,
    ∑ i ∈ Finset.range A.r, d.U.e i k * d.U.e i l = if k = l then 1 else 0
  orthV : ∀ k < min A.r A.c, ∀ l < min A.r A.c,
    ∑ j ∈ Finset.range A.c, d.V.e j k * d.V.e j l = if k = l then 1 else 0
  nonneg : ∀ x ∈ d.s, 0 ≤ x
  sorted : d.s.Pairwise (fun a b => b ≤ a)

/-- A well-formed index string `ini->l,r` with new bond letter `c`: lowercase letters, none repeated inside
a group, `c` is new and is the only letter common to both outputs, and all other output letters
come from the input. -/
structure SvdString (ini l r : List Char) (c : Char) : Prop where
  lower : ∀ d ∈ ini ++ l ++ r, d.isLower = true
  nodupIni : ini.Nodup
  nodupL : l.Nodup
  nodupR : r.Nodup
  new : c ∉ ini
  left : c ∈ l
  right : c ∈ r
  subL : ∀ d ∈ l, d = c ∨ d ∈ ini
  subR : ∀ d ∈ r, d = c ∨ d ∈ ini
  disjoint : ∀ d ∈ l, d ∈ r → d = c

/-- The documented requirement that the outputs *partition* the input letters. -/
def Covers (ini l r : List Char) : Prop := ∀ d ∈ ini, d ∈ l ∨ d ∈ r

/-- The string `ini->l,r`. -/
def svdStr (ini l r : List Char) : List Char := ini ++ '-' :: '>' :: l ++ ',' :: r

/-- The input tensor as a matrix whose row index runs over the letters `lp` and whose column index runs
over the letters `rp` (both row-major), when `lp` and `rp` together are the letters `ini` of the tensor. -/
def flattening (t : Tensor ℝ) (ini lp rp : List Char) : Mat ℝ :=
  let sz : Char → ℕ := Env.ofOut ini t.shape
  Mat.of (lp.map sz).prod (rp.map sz).prod (fun i j =>
    t.get (ini.map (Env.ofOut (lp ++ rp) (unravel (lp.map sz) i ++ unravel (rp.map sz) j))))

/-- The singular values that `svd_flex` sees: those of the flattened tensor. -/
def singularValues (svd : Mat ℝ → SVD) (t : Tensor ℝ) (ini l r : List Char) (c : Char) : List ℝ :=
  (svd (flattening t ini (l.filter (· ≠ c)) (r.filter (· ≠ c)))).s

/-- Sum over all multi-indices of a shape. -/
def sumIdx : Shape → (List ℕ → ℝ) → ℝ
  | [], g => g []
  | n :: sh, g => ∑ i ∈ Finset.range n, sumIdx sh (fun idx => g (i :: idx))

end TorchMPS.Spec
