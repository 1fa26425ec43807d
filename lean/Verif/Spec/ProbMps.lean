import Verif.Model.ProbMps
import Verif.Spec.Input
/-
Specification of probabilistic MPS: amplitude, normalisation, Born rule.
-/
namespace TorchMPS.Spec
variable {K : Type}

/-- The parameter shapes of a model with bond dimension `D > 0` and input dimension `d` for sequences of
length `n` (uniform models: for every `n`). -/
structure ValidModel (m : ProbMPS K) (n d D : ℕ) : Prop where
  core : m.core.shape = if m.uniform then [d, D, D] else [n, d, D, D]
  edge : m.edge.shape = [2, D]
  bias : ∀ b ∈ m.bias, b.shape = [D, D]
  pos : D ≠ 0

/-- the bias matrix (zero when there is none) -/
def biasMat [Zero K] (m : ProbMPS K) (D : ℕ) : Matrix (Fin D) (Fin D) K :=
  match m.bias with
  | none => 0
  | some b => Matrix.of fun i j => b.get [i, j]

/-- the matrices `A_1[x_1] + B, ..., A_n[x_n] + B` of batch element `b` -/
def transMats [RCLike K] (m : ProbMPS K) (x : SeqInput K) (n d D b : ℕ) : List (Matrix (Fin D) (Fin D) K) :=
  (List.range n).map (fun s => inputMat x m.core d D b s + biasMat m D)

/-- the amplitude `leftᵀ (A_1[x_1] + B) ... (A_n[x_n] + B) right` of batch element `b` -/
def psi [RCLike K] (m : ProbMPS K) (x : SeqInput K) (n d D b : ℕ) : K :=
  amplitude (boundVec m.edge D 0) (boundVec m.edge D 1) (transMats m x n d D b)

/-- the amplitude of one sequence of indices -/
def psiSeq [RCLike K] (m : ProbMPS K) (n d D : ℕ) (x : Fin n → Fin d) : K :=
  amplitude (boundVec m.edge D 0) (boundVec m.edge D 1)
    (List.ofFn fun s : Fin n => coreMat m.core D s (x s) + biasMat m D)

/-- the normalisation constant: the sum of the squared modulus of the amplitudes of all index sequences -/
noncomputable def modelZ [RCLike K] (m : ProbMPS K) (n d D : ℕ) : ℝ :=
  ∑ x : Fin n → Fin d, ‖psiSeq m n d D x‖ ^ 2

/-- `log(|ψ|² / Z)`, `-inf` for `ψ = 0` -/
noncomputable def bornLog [RCLike K] (p : K) (Z : ℝ) : EReal :=
  open Classical in if p = 0 then ⊥ else ((Real.log (‖p‖ ^ 2 / Z) : ℝ) : EReal)

/-- Which sequences an evaluation strategy can evaluate (the others give NaN, caught by an assertion):
default - the amplitude is not zero; parallel - the product of the matrices is not zero (or there
are less than two); slim - no partial row vector is zero. -/
def Accepts [RCLike K] (m : ProbMPS K) (x : SeqInput K) (n d D : ℕ) (slim par : Bool) (b : ℕ) : Prop :=
  if slim then n = 0 ∨ Matrix.vecMul (boundVec m.edge D 0) (transMats m x n d D b).prod ≠ 0
  else if par then n ≤ 1 ∨ (transMats m x n d D b).prod ≠ 0
  else psi m x n d D b ≠ 0

/-- the batch with the single sequence of indices `x` -/
def single {n d : ℕ} (x : Fin n → Fin d) : SeqInput K :=
  .ints ⟨[1, n], fun idx => match idx with
    | [_, s] => if h : s < n then (x ⟨s, h⟩ : ℤ) else 0
    | _ => 0⟩

/-- the probability denoted by a returned log probability -/
noncomputable def probOf (y : Option EReal) : ℝ :=
  match y with
  | some (some (some r)) => Real.exp r
  | _ => 0

/-- the probability denoted by the result of `forward` for a batch of one sequence: the exponential of the returned log
probability; sequences which the model refuses to evaluate count as 0 (C21 shows that their amplitude is zero) -/
noncomputable def resultProb (r : Except Err (Tensor (Option EReal))) : ℝ :=
  match r with
  | .ok out => probOf (out.get [0])
  | .error _ => 0

/-- the probability a model assigns to one sequence of indices -/
noncomputable def probSeq [RCLike K] (m : ProbMPS K) (slim par : Bool) {n d : ℕ} (x : Fin n → Fin d) : ℝ :=
  resultProb (m.forward (single x) slim par).1

/-- `slim_eval` excludes a bias matrix, and needs a non-empty sequence or a batch of size one -/
def SlimOK (m : ProbMPS K) (slim : Bool) (B n : ℕ) : Prop := slim = true → m.bias = none ∧ (0 < n ∨ B = 1)

/-- `x[b:b+1]`: the batch consisting of element `b` only -/
def rowBatch (x : SeqInput K) (b : ℕ) : SeqInput K :=
  match x with
  | .ints t => .ints ⟨1 :: t.shape.tail, fun idx => t.get (b :: idx.tail)⟩
  | .floats t => .floats ⟨1 :: t.shape.tail, fun idx => t.get (b :: idx.tail)⟩

/-- `m'` is obtained from `m` by rescaling the core of site `s` by `c s` (and the boundary vectors by `cl`, `cr`) and
inserting the invertible matrices `G 0, ..., G n` on the bonds. -/
structure GaugeOf [RCLike K] (m m' : ProbMPS K) (n d D : ℕ) (c : ℕ → K) (cl cr : K)
    (G : ℕ → (Matrix (Fin D) (Fin D) K)ˣ) : Prop where
  core : ∀ s < n, ∀ k < d, coreMat m'.core D s k = c s • ((G s)⁻¹.val * coreMat m.core D s k * (G (s + 1)).val)
  bias : ∀ s < n, biasMat m' D = c s • ((G s)⁻¹.val * biasMat m D * (G (s + 1)).val)
  left : boundVec m'.edge D 0 = cl • Matrix.vecMul (boundVec m.edge D 0) (G 0).val
  right : boundVec m'.edge D 1 = cr • Matrix.mulVec (G n)⁻¹.val (boundVec m.edge D 1)

end TorchMPS.Spec
