import Verif.Model.Mps
import Verif.Spec.Contractables
/-
Specification of tensor-train functions: which matrices a sequence of cores contributes for one sample and one output.
-/
namespace TorchMPS.Spec
variable {K : Type}

/-- An input core contracted with a feature vector, plus a bias: the matrix
`∑ f, A l r f * v f + bias l r`. -/
def affMat [Semiring K] (D F : ℕ) (A : ℕ → ℕ → ℕ → K) (v : ℕ → K) (bias : ℕ → ℕ → K) : Mat K :=
  Mat.of D D (fun l r => ∑ f ∈ Finset.range F, A l r f * v f + bias l r)

/-- A merged pair of input cores contracted with the feature vectors of both pixels. -/
def pairMat [Semiring K] (D F : ℕ) (A : ℕ → ℕ → ℕ → ℕ → K) (v w : ℕ → K) : Mat K :=
  Mat.of D D (fun l r => ∑ f ∈ Finset.range F, ∑ f' ∈ Finset.range F, A l r f f' * v f * w f')

/-- the entries of an optional bias matrix of shape [1, D, D] -/
def biasEntry [Zero K] : Option (Tensor K) → ℕ → ℕ → K
  | none, _, _ => 0
  | some t, l, r => t.get [0, l, r]

/-- The tensors of a module have the shapes belonging to bond dimension `D`, feature dimension `F` and output
dimension `O`; there is at least one site. -/
def Fits (D F O : ℕ) : Module K → Prop
  | .inputRegion t bias => (∃ n, 1 ≤ n ∧ t.shape = [n, D, D, F]) ∧ ∀ bm ∈ bias, bm.shape = [1, D, D]
  | .mergedInput t => ∃ n, 1 ≤ n ∧ t.shape = [n, D, D, F, F]
  | .inputSite t => t.shape = [D, D, F]
  | .outputSite t => t.shape = [O, D, D]
  | .mergedOutput t _ => t.shape = [O, D, D, F]

/-- The matrices (in order) a module contributes for sample `b` and output `o` of the embedded input `x`, the first
pixel of the module being number `i`. -/
def moduleMats [Semiring K] (D F : ℕ) (x : Tensor K) (b o i : ℕ) : Module K → List (Mat K)
  | .inputRegion t bias => (List.range (t.shape.getD 0 0)).map (fun s =>
      affMat D F (fun l r f => t.get [s, l, r, f]) (fun f => x.get [b, i + s, f]) (biasEntry bias))
  | .mergedInput t => (List.range (t.shape.getD 0 0)).map (fun s =>
      pairMat D F (fun l r f f' => t.get [s, l, r, f, f']) (fun f => x.get [b, i + 2 * s, f]) (fun f => x.get [b, i + 2 * s + 1, f]))
  | .inputSite t => [affMat D F (fun l r f => t.get [l, r, f]) (fun f => x.get [b, i, f]) (fun _ _ => 0)]
  | .outputSite t => [Mat.of D D (fun l r => t.get [o, l, r])]
  | .mergedOutput t _ => [affMat D F (fun l r f => t.get [o, l, r, f]) (fun f => x.get [b, i, f]) (fun _ _ => 0)]

/-- The matrices of a list of modules. -/
def chainMats [Semiring K] (D F : ℕ) (x : Tensor K) (b o : ℕ) : ℕ → List (Module K) → List (Mat K)
  | _, [] => []
  | i, m :: ms => moduleMats D F x b o i m ++ chainMats D F x b o (i + m.len) ms

/-- modules with an output index -/
def HasOutput : Module K → Prop
  | .outputSite _ => True
  | .mergedOutput _ _ => True
  | _ => False

/-- modules which do not take any input -/
def IsOutputSite : Module K → Prop
  | .outputSite _ => True
  | _ => False

/-- an input region of just one site -/
def ShortRegion : Module K → Prop
  | .inputRegion t _ => t.shape.getD 0 0 = 1
  | _ => False

/-- Exactly one module has an output index. -/
def OneOut (ms : List (Module K)) : Prop :=
  ∃ as m bs, ms = as ++ m :: bs ∧ (∀ a ∈ as, ¬ HasOutput a) ∧ HasOutput m ∧ ∀ a ∈ bs, ¬ HasOutput a

end TorchMPS.Spec
