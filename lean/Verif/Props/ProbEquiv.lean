import Verif.Props.ProbMps2
import Verif.Spec.ProbEquiv
/-
C75: different descriptions of the same distribution.
-/
namespace TorchMPS
open Spec
variable {K : Type}

theorem same_outcome [RCLike K] (m m' : ProbMPS K) (n d D : ℕ) (hm : ValidModel m n d D) (hm' : ValidModel m' n d D)
    (he : m.embedding = none) (he' : m'.embedding = none) (x x' : SeqInput K) (B : ℕ) (hx : ValidInput x B n d) (hx' : ValidInput x' B n d)
    (slim par : Bool) (hs : SlimOK m slim B n) (hs' : SlimOK m' slim B n)
    (hZ : modelZ m' n d D = modelZ m n d D) (hp : ∀ b < B, psi m' x' n d D b = psi m x n d D b)
    (ha : ∀ b < B, (Accepts m' x' n d D slim par b ↔ Accepts m x n d D slim par b)) :
    SameOutcome B (m.forward x slim par).1 (m'.forward x' slim par).1 := by
  obtain ⟨-, h1, h2⟩ := C21_forward_exact m n d D hm he x B hx slim par hs
  obtain ⟨-, h1', h2'⟩ := C21_forward_exact m' n d D hm' he' x' B hx' slim par hs'
  have hiff : (modelZ m' n d D ≠ 0 ∧ ∀ b < B, Accepts m' x' n d D slim par b) ↔
      (modelZ m n d D ≠ 0 ∧ ∀ b < B, Accepts m x n d D slim par b) := by
    rw [hZ]
    exact and_congr Iff.rfl (forall₂_congr ha)
  by_cases hacc : modelZ m n d D ≠ 0 ∧ ∀ b < B, Accepts m x n d D slim par b
  · right
    obtain ⟨o, ho, k3, k4⟩ := h1 hacc
    obtain ⟨o', ho', k3', k4'⟩ := h1' (hiff.2 hacc)
    refine ⟨o, o', ho, ho', k3, k3', fun b hb => ?_⟩
    rw [k4 b hb, k4' b hb, hZ, hp b hb]
  · left
    exact ⟨h2 hacc, h2' (fun hh => hacc (hiff.1 hh))⟩

theorem same_mats [RCLike K] (m m' : ProbMPS K) (n d D : ℕ) (hm : ValidModel m n d D) (hm' : ValidModel m' n d D)
    (he : m.embedding = none) (he' : m'.embedding = none) (x : SeqInput K) (B : ℕ) (hx : ValidInput x B n d)
    (slim par : Bool) (hs : SlimOK m slim B n) (hs' : SlimOK m' slim B n) (hedge : m'.edge = m.edge)
    (hmats : ∀ b < B, transMats m' x n d D b = transMats m x n d D b)
    (hseq : ∀ y : Fin n → Fin d, transMats m' (single y) n d D 0 = transMats m (single y) n d D 0) :
    SameOutcome B (m.forward x slim par).1 (m'.forward x slim par).1 := by
  refine same_outcome m m' n d D hm hm' he he' x x B hx hx slim par hs hs' ?_ ?_ ?_
  · unfold modelZ
    refine Finset.sum_congr rfl fun y _ => ?_
    rw [← psi_single m' n d D y 0, ← psi_single m n d D y 0]
    unfold psi
    rw [hseq, hedge]
  · intro b hb
    unfold psi
    rw [hmats b hb, hedge]
  · intro b hb
    unfold Accepts psi
    rw [hmats b hb, hedge]

/-- C75: a `ProbUnifMPS` gives sequences of length `n` the same log probabilities as the `ProbMPS` with `n` copies of its core. -/
theorem C75_uniform_is_unrolled [RCLike K] (m m' : ProbMPS K) (n d D : ℕ) (h : Unrolled m m' n d D) (hm : ValidModel m n d D)
    (he : m.embedding = none) (he' : m'.embedding = none) (x : SeqInput K) (B : ℕ) (hx : ValidInput x B n d) (slim par : Bool)
    (hs : SlimOK m slim B n) : SameOutcome B (m.forward x slim par).1 (m'.forward x slim par).1 := by
  have hm' : ValidModel m' n d D := ⟨by rw [h.fixed]; exact h.coreShape', by rw [h.edge]; exact hm.edge, by rw [h.bias]; exact hm.bias, hm.pos⟩
  have hb : biasMat m' D = biasMat m D := by unfold biasMat; rw [h.bias]
  have hcm : ∀ s < n, ∀ k < d, coreMat m'.core D s k = coreMat m.core D s k := by
    intro s hs k hk
    ext i j
    simp [coreMat, h.coreShape, h.coreShape', h.core s hs k hk i i.2 j j.2]
  have key : ∀ (y : SeqInput K) (B : ℕ), ValidInput y B n d → ∀ b < B, transMats m' y n d D b = transMats m y n d D b := by
    intro y B hy b hb'
    unfold transMats
    refine List.map_congr_left fun s hs => ?_
    have hs := List.mem_range.1 hs
    rw [hb]
    congr 1
    cases y with
    | ints t =>
      have := hy.2 b hb' s hs
      exact hcm s hs _ (by omega)
    | floats t =>
      simp only [Spec.inputMat, featMat]
      refine Finset.sum_congr rfl fun k hk => ?_
      rw [hcm s hs k (Finset.mem_range.1 hk)]
  exact same_mats m m' n d D hm hm' he he' x B hx slim par hs (fun hh => by rw [h.bias]; exact hs hh) h.edge (key x B hx)
    (fun y => key (single y) 1 (single_valid y) 0 (by norm_num))

/-- C75: without an embedding, a bias matrix acts on sequences of indices as if it were added to every slice of the cores. -/
theorem C75_bias_absorbed [RCLike K] (m m' : ProbMPS K) (n d D : ℕ) (bias : Tensor K) (h : BiasAbsorbed m m' bias D) (hm : ValidModel m n d D)
    (he : m.embedding = none) (he' : m'.embedding = none) (t : Tensor ℤ) (B : ℕ) (hx : ValidInput (.ints t : SeqInput K) B n d) (par : Bool) :
    SameOutcome B (m.forward (.ints t) false par).1 (m'.forward (.ints t) false par).1 := by
  have hm' : ValidModel m' n d D := ⟨by rw [h.uniform, h.shape]; exact hm.core, by rw [h.edge]; exact hm.edge, by simp [h.noBias], hm.pos⟩
  have key : ∀ (t : Tensor ℤ) (b : ℕ), transMats m' (.ints t) n d D b = transMats m (.ints t) n d D b := by
    intro t b
    unfold transMats
    refine List.map_congr_left fun s _ => ?_
    ext i j
    simp only [Spec.inputMat, coreMat, biasMat, h.noBias, h.biasIs, h.shape, Matrix.add_apply, Matrix.of_apply, Matrix.zero_apply, add_zero]
    split
    · exact h.core [_] i i.2 j j.2
    · exact h.core [_, _] i i.2 j j.2
  exact same_mats m m' n d D hm hm' he he' _ B hx false par (fun hh => by cases hh) (fun hh => by cases hh) h.edge (fun b _ => key t b)
    (fun y => key _ 0)

theorem reversed_valid (x : SeqInput K) (B n d : ℕ) (hx : ValidInput x B n d) : ValidInput (reversed x n) B n d := by
  cases x with
  | ints t => exact ⟨hx.1, fun b hb s hs => hx.2 b hb _ (by omega)⟩
  | floats t => exact hx

theorem Spec.Mirrored.transMats [RCLike K] {m m' : ProbMPS K} {n d D : ℕ} (h : Mirrored m m' n d D) (x : SeqInput K) (B b : ℕ) (hb : b < B)
    (hx : ValidInput x B n d) :
    transMats m' (reversed x n) n d D b = ((transMats m x n d D b).map Matrix.transpose).reverse := by
  have hmat : ∀ s < n, Spec.inputMat (reversed x n) m'.core d D b s + biasMat m' D =
      (Spec.inputMat x m.core d D b (n - 1 - s) + biasMat m D).transpose := by
    intro s hs
    rw [h.bias, Matrix.transpose_add]
    congr 1
    cases x with
    | ints t =>
      have := hx.2 b hb (n - 1 - s) (by omega)
      simp only [reversed, Spec.inputMat, List.getD_cons_zero, List.getD_cons_succ]
      exact h.core s hs _ (by omega)
    | floats t =>
      simp only [reversed, Spec.inputMat, featMat, Matrix.transpose_sum, Matrix.transpose_smul, List.getD_cons_zero, List.getD_cons_succ]
      refine Finset.sum_congr rfl fun k hk => ?_
      rw [h.core s hs k (Finset.mem_range.1 hk)]
  unfold Spec.transMats
  apply List.ext_getElem
  · simp
  · intro s h1 h2
    simp only [List.length_map, List.length_range] at h1
    simp only [List.getElem_map, List.getElem_range, List.getElem_reverse, List.length_map, List.length_range]
    exact hmat s h1

/-- C75: a model read from right to left gives the reversed sequences the same log probabilities. -/
theorem C75_mirrored [RCLike K] (m m' : ProbMPS K) (n d D : ℕ) (h : Mirrored m m' n d D) (hm : ValidModel m n d D) (hm' : ValidModel m' n d D)
    (he : m.embedding = none) (he' : m'.embedding = none) (x : SeqInput K) (B : ℕ) (hx : ValidInput x B n d) (par : Bool) :
    SameOutcome B (m.forward x false par).1 (m'.forward (reversed x n) false par).1 := by
  have hprod : ∀ (y : SeqInput K) (B b : ℕ), b < B → ValidInput y B n d →
      (Spec.transMats m' (reversed y n) n d D b).prod = (Spec.transMats m y n d D b).prod.transpose := by
    intro y B b hb hy
    rw [h.transMats y B b hb hy, Matrix.transpose_list_prod]
  have hpsi : ∀ (y : SeqInput K) (B b : ℕ), b < B → ValidInput y B n d → psi m' (reversed y n) n d D b = psi m y n d D b := by
    intro y B b hb hy
    unfold psi amplitude
    rw [hprod y B b hb hy, h.left, h.right, Matrix.mulVec_transpose, dotProduct_comm, ← Matrix.dotProduct_mulVec]
  refine same_outcome m m' n d D hm hm' he he' x _ B hx (reversed_valid x B n d hx) false par (fun hh => by cases hh) (fun hh => by cases hh) ?_
    (fun b hb => hpsi x B b hb hx) ?_
  · unfold modelZ
    refine Fintype.sum_equiv (Equiv.arrowCongr Fin.revPerm (Equiv.refl _)) _ _ fun y => ?_
    have e1 : psiSeq m' n d D y = psi m' (reversed (single (fun s => y (Fin.rev s))) n) n d D 0 := by
      rw [← psi_single m' n d D y 0]
      unfold psi Spec.transMats
      congr 1
      refine List.map_congr_left fun s hs => ?_
      have hs := List.mem_range.1 hs
      congr 1
      simp only [reversed, single, Spec.inputMat, List.getD_cons_zero, List.getD_cons_succ]
      rw [dif_pos hs, dif_pos (show n - 1 - s < n by omega)]
      congr 4
      apply congrArg
      apply Fin.ext
      simp only [Fin.val_rev]
      omega
    rw [e1, hpsi _ 1 0 (by norm_num) (single_valid _), psi_single]
    rfl
  · intro b hb
    unfold Accepts
    simp only [Bool.false_eq_true, if_false]
    rw [hprod x B b hb hx, hpsi x B b hb hx]
    simp [Matrix.transpose_eq_zero]

/-- A bond basis which is not symmetric: symbol `k` at site `s` has the matrix `(1, k + 2; 0, s + 1)`. -/
noncomputable def slopeModel : ProbMPS ℝ where
  uniform := false
  core := ⟨[3, 2, 2, 2], fun idx => if idx.getD 2 0 = 0 then (if idx.getD 3 0 = 0 then 1 else idx.getD 1 0 + 2)
    else (if idx.getD 3 0 = 0 then 0 else idx.getD 0 0 + 1)⟩
  edge := ⟨[2, 2], fun idx => idx.getD 0 0 + 2 * idx.getD 1 0 + 1⟩
  bias := some ⟨[2, 2], fun idx => idx.getD 0 0 + 5 * idx.getD 1 0⟩
  embedding := none

/-- Concrete case for C75_mirrored: slopeModel read from right to left. -/
example : ∃ m', Mirrored slopeModel m' 3 2 2 ∧ ValidModel slopeModel 3 2 2 ∧ ValidModel m' 3 2 2 ∧ m'.embedding = none := by
  refine ⟨⟨false, ⟨[3, 2, 2, 2], fun idx => slopeModel.core.get [2 - idx.getD 0 0, idx.getD 1 0, idx.getD 3 0, idx.getD 2 0]⟩,
    ⟨[2, 2], fun idx => slopeModel.edge.get [1 - idx.getD 0 0, idx.getD 1 0]⟩,
    some ⟨[2, 2], fun idx => idx.getD 1 0 + 5 * idx.getD 0 0⟩, none⟩, ⟨?_, ?_, ?_, ?_⟩, ⟨rfl, rfl, ?_, by norm_num⟩, ⟨rfl, rfl, ?_, by norm_num⟩, rfl⟩
  · intro s _ k _
    ext i j
    simp [coreMat, slopeModel]
  · ext i j
    simp [biasMat, slopeModel]
  · ext i
    simp [boundVec]
  · ext i
    simp [boundVec]
  · simp [slopeModel]
  · simp

/-- Concrete case for C75_bias_absorbed. -/
example : ∃ m' bias, BiasAbsorbed slopeModel m' bias 2 ∧ ValidModel slopeModel 3 2 2 ∧ m'.embedding = none := by
  refine ⟨⟨false, ⟨[3, 2, 2, 2], fun idx => slopeModel.core.get idx + (idx.getD (idx.length - 2) 0 + 5 * idx.getD (idx.length - 1) 0)⟩,
    slopeModel.edge, none, none⟩, _, ⟨rfl, rfl, rfl, rfl, ?_, rfl⟩, ⟨rfl, rfl, by simp [slopeModel], by norm_num⟩, rfl⟩
  intro idx i _ j _
  have e1 : (idx ++ [i, j]).getD ((idx ++ [i, j]).length - 2) 0 = i := by simp [List.getD_eq_getElem?_getD, List.getElem?_append]
  have e2 : (idx ++ [i, j]).getD ((idx ++ [i, j]).length - 1) 0 = j := by simp [List.getD_eq_getElem?_getD, List.getElem?_append]
  simp only [e1, e2]
  simp

/-- Concrete case for C75_uniform_is_unrolled, for every length. -/
example (n : ℕ) : ∃ m m' : ProbMPS ℝ, Unrolled m m' n 2 2 ∧ ValidModel m n 2 2 ∧ m.embedding = none ∧ m'.embedding = none :=
  ⟨⟨true, ⟨[2, 2, 2], fun idx => idx.getD 0 0 + 3 * idx.getD 1 0 + 1⟩, slopeModel.edge, slopeModel.bias, none⟩,
    ⟨false, ⟨[n, 2, 2, 2], fun idx => idx.getD 1 0 + 3 * idx.getD 2 0 + 1⟩, slopeModel.edge, slopeModel.bias, none⟩,
    ⟨rfl, rfl, rfl, rfl, by simp, rfl, rfl⟩, ⟨rfl, rfl, by simp [slopeModel], by norm_num⟩, rfl, rfl⟩

end TorchMPS
