import Verif.Props.AutodiffProb
/-
C85: the differentiated evaluation refuses the lengths that the evaluation refuses.
-/
namespace TorchMPS
open Spec
variable {K : Type} [RCLike K]

/-- C85: with `slim_eval` a fixed-length model refuses every batch of sequences of another length, differentiated or not, index sequences or vectors. -/
theorem C85_slim_length (dAbs : Mat (DualNumber K) → ℝ) (dm : ProbMPS (DualNumber K)) (m : ProbMPS K) (n d D : ℕ) (hm : ValidModel dm n d D) (hm' : ValidModel m n d D)
    (hu : dm.uniform = false) (hu' : m.uniform = false) (hb : dm.bias = none) (hb' : m.bias = none) (dx : SeqInput (DualNumber K)) (x : SeqInput K) (B T : ℕ)
    (hx : dx.shape = [B, T] ∨ dx.shape = [B, T, d]) (hx' : x.shape = [B, T] ∨ x.shape = [B, T, d]) (hT : T ≠ n) (par : Bool) :
    dualBody dAbs dm dx B T true par = .error .assertion ∧ slimEvalFun x m.core m.edge = .error .assertion := by
  have hc := hm.core
  have hc' := hm'.core
  rw [hu] at hc
  rw [hu'] at hc'
  constructor
  · unfold dualBody dualEvalPsi dualSlimEval
    rcases hx with hx | hx <;>
      simp [hx, hc, hm.edge, hb, Tensor.ndim, assert, bind, Except.bind, Ne.symm hT]
  · unfold slimEvalFun
    rcases hx' with hx' | hx' <;>
      simp [hx', hc', hm'.edge, Tensor.ndim, assert, bind, Except.bind, Ne.symm hT]

/-- the two-site model `posJet` and its value refuse the sequences of length three -/
example (dAbs : Mat (DualNumber ℝ) → ℝ) (x : Fin 3 → Fin 2) (par : Bool) :
    dualBody dAbs posJet (single x) 1 3 true par = .error .assertion ∧ slimEvalFun (single x : SeqInput ℝ) posModel.core posModel.edge = .error .assertion :=
  C85_slim_length dAbs posJet posModel 2 2 2 ⟨rfl, rfl, by simp [posJet], by norm_num⟩ ⟨rfl, rfl, by simp [posModel], by norm_num⟩ rfl rfl rfl rfl
    (single x) (single x) 1 3 (Or.inl rfl) (Or.inl rfl) (by norm_num) par

end TorchMPS
