import Verif.Spec.ProbMps
/-
Specification of embeddings: feature maps, quadrature weights, exact lambda matrices.
-/
namespace TorchMPS.Spec
variable {K : Type}

/-- On index tensors with values in `[0, N)`, `f` appends an axis of size `d` holding the feature vector `v x` of each
value `x`. -/
def EmbedsInts (f : EmbFun K) (N d : ℕ) (v : ℕ → ℕ → K) : Prop :=
  ∀ t : Tensor ℤ, (∀ idx, InRange idx t.shape → 0 ≤ t.get idx ∧ t.get idx < N) →
    ∃ o, f (.ints t) = .ok o ∧ o.shape = t.shape ++ [d] ∧
      ∀ idx, InRange idx t.shape → ∀ k < d, o.get (idx ++ [k]) = v (t.get idx).toNat k

/-- On tensors of real numbers in `[lo, hi]`, `f` appends an axis of size `d` holding the feature vector of each
value. -/
def EmbedsReals [RCLike K] (f : EmbFun K) (lo hi : ℝ) (d : ℕ) (v : ℝ → ℕ → K) : Prop :=
  ∀ (sh : Shape) (x : List ℕ → ℝ), (∀ idx, InRange idx sh → lo ≤ x idx ∧ x idx ≤ hi) →
    ∃ o, f (.floats ⟨sh, fun idx => (x idx : K)⟩) = .ok o ∧ o.shape = sh ++ [d] ∧
      ∀ idx, InRange idx sh → ∀ k < d, o.get (idx ++ [k]) = v (x idx) k

/-- the weights of the trapezoidal rule for `N + 1` equidistant points of `[lo, hi]` -/
noncomputable def trapWeight (lo hi : ℝ) (N k : ℕ) : ℝ :=
  if k = 0 ∨ k = N then (hi - lo) / N / 2 else (hi - lo) / N

/-- the `N + 1` equidistant points of `[lo, hi]` -/
noncomputable def gridPoint (lo hi : ℝ) (N k : ℕ) : ℝ := lo + k * ((hi - lo) / N)

/-- `∑ a, w a • v_a v_a†` -/
noncomputable def gram [RCLike K] {ι : Type} [Fintype ι] (w : ι → ℝ) (v : ι → ℕ → K) (i j : ℕ) : K :=
  ∑ a, (w a : K) * (v a i * star (v a j))

/-- The lambda matrix which `forward` of an embedding object uses: a fixed embedding uses the stored one, a
trainable one the matrix computed from its current function. -/
def UsesLambda [RCLike K] (e : Embedding K) (lam : Tensor K) : Prop :=
  if e.trainable then makeLambda e.embFun e.domain 1000 = .ok lam else e.lamb = some lam

/-- the batch with the single sequence of reals `x` -/
noncomputable def singleReal [RCLike K] {n : ℕ} (x : Fin n → ℝ) : SeqInput K :=
  .floats ⟨[1, n], fun idx => ((match idx with
    | [_, s] => if h : s < n then x ⟨s, h⟩ else 0
    | _ => 0 : ℝ) : K)⟩

/-- the probability density a model assigns to one sequence of reals -/
noncomputable def densSeq [RCLike K] (m : ProbMPS K) (slim par : Bool) {n : ℕ} (x : Fin n → ℝ) : ℝ :=
  resultProb (m.forward (singleReal x) slim par).1

/-- the amplitude of a sequence of feature vectors, with bias -/
def psiFeat [RCLike K] (m : ProbMPS K) (n d D : ℕ) (v : Fin n → ℕ → K) : K :=
  amplitude (boundVec m.edge D 0) (boundVec m.edge D 1)
    (List.ofFn fun s : Fin n => featMat m.core d D s (v s) + biasMat m D)

/-- the normalisation used with an embedding -/
noncomputable def embZ [RCLike K] {ι : Type} [Fintype ι] (m : ProbMPS K) (n d D : ℕ) (w : ι → ℝ)
    (v : ι → ℕ → K) : ℝ := ∑ x : Fin n → ι, (∏ s, w (x s)) * ‖psiFeat m n d D (fun s => v (x s))‖ ^ 2

/-- The conditions under which replacing the matrix by its diagonal or mean loses nothing: `torch.allclose` does not
accept the diagonal, or the matrix is exactly diagonal and `torch.allclose` does not accept the mean or
the diagonal is exactly constant. -/
def ExactCompression [RCLike K] (Λ : ℕ → ℕ → K) (d : ℕ) : Prop :=
  (∃ i < d, ∃ j < d, ¬ closeTo (if i = j then Λ i i else 0) (Λ i j)) ∨
  ((∀ i < d, ∀ j < d, i ≠ j → Λ i j = 0) ∧
    ((∃ i < d, ¬ closeTo ((∑ k ∈ Finset.range d, Λ k k) / d) (Λ i i)) ∨ ∀ i < d, ∀ j < d, Λ i i = Λ j j))

end TorchMPS.Spec
