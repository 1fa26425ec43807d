import Verif.Spec.Amplitude
import Verif.Model.MpsBase
/-
Specification: the transition matrix selected by an input (index or feature vector) at one site.
-/
namespace TorchMPS.Spec
variable {K : Type}

/-- a batch of `B` sequences of length `T`: tokens in `[0, d)`, or feature vectors with `d` entries -/
def ValidInput (x : SeqInput K) (B T d : ℕ) : Prop :=
  match x with
  | .ints t => t.shape = [B, T] ∧ ∀ b < B, ∀ s < T, 0 ≤ t.get [b, s] ∧ t.get [b, s] < d
  | .floats t => t.shape = [B, T, d]

/-- the transition matrix of batch element `b` at site `s` -/
def inputMat [RCLike K] (x : SeqInput K) (core : Tensor K) (d D b s : ℕ) : Matrix (Fin D) (Fin D) K :=
  match x with
  | .ints t => coreMat core D s (t.get [b, s]).toNat
  | .floats t => featMat core d D s (fun k => t.get [b, s, k])

/-- the transition matrices of batch element `b`, in order -/
def inputMats [RCLike K] (x : SeqInput K) (core : Tensor K) (T d D b : ℕ) : List (Matrix (Fin D) (Fin D) K) :=
  (List.range T).map (inputMat x core d D b)

end TorchMPS.Spec
