import Verif.Spec.MpsFn
import Verif.Spec.TiMps
import Verif.Model.Threads
/-
Specification of calls made by several threads.
-/
namespace TorchMPS.Spec
variable {K : Type}

/-- A call of `forward`, made by one thread: of an MPS or of a TI_MPS. -/
inductive Call (K : Type) where
  | mps (m : MPS K) (x : Tensor K)
  | ti (m : TiMps K) (inp : TiInput K)

/-- what the thread executes -/
def Call.program [CommRing K] : Call K → Prog (Tensor K)
  | .mps m x => Threads.mpsForward m x
  | .ti m inp => Threads.tiForward m inp

/-- The result of the call in a process without other threads, when the global batch size is `g`. -/
def Call.alone [CommRing K] (g : Option ℕ) : Call K → Except Err (Tensor K)
  | .mps m x => (m.forward x g).1
  | .ti m inp => (m.forward inp g).1

/-- The model is well-formed and its input is a batch of `B` samples which it accepts. -/
def Call.OnBatch [CommRing K] (B : ℕ) : Call K → Prop
  | .mps m x => (∃ k ub p, IsMps k ub p m) ∧ ∃ e, Embedded m x e ∧ e.shape.getD 0 0 = B
  | .ti m inp => IsTi m ∧ ∃ n, TiAccepts m B n inp

/-- The model does not start with its output core. -/
def Call.LabelInside : Call K → Prop
  | .mps m _ => ∃ k ub p, IsMps k ub p m ∧ 1 ≤ k
  | .ti _ _ => True

/-- The process at the moment when all threads have been started. -/
def started [CommRing K] (g : Option ℕ) (cs : List (Call K)) : Process (Tensor K) := ⟨g, cs.map Call.program⟩

/-- Thread number `i` has finished with the result `r`. -/
def Finished (s : Process (Tensor K)) (i : ℕ) (r : Except Err (Tensor K)) : Prop := s.threads[i]? = some (.ret r)

end TorchMPS.Spec
