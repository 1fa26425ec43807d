import Verif.Props.TotalMass
import Verif.Props.AutodiffProb
/-
C85: trainable embeddings. The compression of the lambda matrix can lose the gradient of the normalisation.
-/
namespace TorchMPS
open Spec

/-- feature vectors of a domain with two values: `(1, t)` and `(0, 1)` -/
noncomputable def tiltVec (t : ℝ) (a k : ℕ) : ℝ := if a = 0 then (if k = 0 then 1 else t) else (if k = 0 then 0 else 1)

/-- a trainable module with one parameter `t` and these feature vectors -/
noncomputable def tiltModule (t : ℝ) : EmbFun ℝ
  | .ints s => .ok ⟨s.shape.dropLast ++ [2], fun idx => tiltVec t (s.get (idx.dropLast ++ [0])).toNat (idx.getLast?.getD 0)⟩
  | .floats s => .ok ⟨s.shape.dropLast ++ [2], fun _ => 0⟩

/-- one site, bond dimension one, all cores 1, and the trainable embedding with the parameter `t` -/
noncomputable def tiltModel (t : ℝ) : ProbMPS ℝ := oneSite 2 none (Embedding.trainable' (tiltModule t) (.discrete (2 : ℕ)))

theorem tilt_embeds (t : ℝ) : EmbedsInts (Embedding.trainable' (tiltModule t) (.discrete (2 : ℕ))).embFun 2 2 (tiltVec t) := by
  intro s _
  refine ⟨_, rfl, by simp, fun idx _ k _ => ?_⟩
  simp

theorem tilt_psi (t : ℝ) (x : Fin 1 → Fin 2) : psiFeat (tiltModel t) 1 2 1 (fun s => tiltVec t (x s)) = if x 0 = 0 then 1 + t else 1 := by
  generalize hx : x 0 = a
  fin_cases a <;> simp [psiFeat, amplitude, featMat, coreMat, tiltModel, oneSite, boundVec, biasMat, dotProduct, Matrix.mulVec, hx, tiltVec, Finset.sum_range_succ]

theorem tilt_usedZ (t : ℝ) (ht : |t| ≤ 1e-8) : usedZ (tiltModel t) 1 2 1 (fun _ : Fin 2 => (1 : ℝ)) (fun a => tiltVec t a) = 2 + t ^ 2 := by
  have h2 : t ^ 2 ≤ 1e-8 := by
    have : t ^ 2 = |t| ^ 2 := (sq_abs t).symm
    rw [this]
    nlinarith [abs_nonneg t]
  have hd : NearDiagonal (fun _ : Fin 2 => (1 : ℝ)) (fun a => tiltVec t a) 2 := by
    intro i hi j hj hij
    have e : gram (fun _ : Fin 2 => (1 : ℝ)) (fun a => tiltVec t a) i j = t := by
      interval_cases i <;> interval_cases j <;> simp_all [gram, tiltVec, Fin.sum_univ_two]
    rw [e, Real.norm_eq_abs]
    nlinarith [abs_nonneg t]
  have hD0 : diagEntry (fun _ : Fin 2 => (1 : ℝ)) (fun a => tiltVec t a) 0 = 1 := by simp [diagEntry, tiltVec, Fin.sum_univ_two]
  have hD1 : diagEntry (fun _ : Fin 2 => (1 : ℝ)) (fun a => tiltVec t a) 1 = t ^ 2 + 1 := by simp [diagEntry, tiltVec, Fin.sum_univ_two]
  have hM : meanEntry (fun _ : Fin 2 => (1 : ℝ)) (fun a => tiltVec t a) 2 = 1 + t ^ 2 / 2 := by
    simp only [meanEntry, Finset.sum_range_succ, Finset.sum_range_zero, hD0, hD1]
    push_cast
    ring
  have hs : NearScalar (fun _ : Fin 2 => (1 : ℝ)) (fun a => tiltVec t a) 2 := by
    intro i hi
    rw [hM]
    have := sq_nonneg t
    interval_cases i
    · rw [hD0, abs_le]; constructor <;> nlinarith
    · rw [hD1, abs_le]; constructor <;> nlinarith
  have hZ : modelZ (tiltModel t) 1 2 1 = 2 := by
    simp [modelZ, psiSeq, amplitude, coreMat, tiltModel, oneSite, boundVec, biasMat, dotProduct, Matrix.mulVec]
  rw [usedZ, if_pos hd, if_pos hs, hM, hZ]
  ring

theorem tilt_embZ (t : ℝ) : embZ (tiltModel t) 1 2 1 (fun _ : Fin 2 => (1 : ℝ)) (fun a => tiltVec t a) = (1 + t) ^ 2 + 1 := by
  unfold embZ
  simp only [tilt_psi]
  rw [← (Equiv.funUnique (Fin 1) (Fin 2)).symm.sum_comp]
  simp [Fin.sum_univ_two]

theorem tilt_prob (t : ℝ) (ht : |t| ≤ 1e-8) (x : Fin 1 → Fin 2) (slim par : Bool) :
    probSeq (tiltModel t) slim par x = (if x 0 = 0 then (1 + t) ^ 2 else 1) / (2 + t ^ 2) := by
  obtain ⟨l, h1, h2, h3⟩ := rawLambda_ints _ 2 2 _ (tilt_embeds t) 1000
  have hm : ValidModel (tiltModel t) 1 2 1 := ⟨rfl, rfl, by simp [tiltModel, oneSite], by norm_num⟩
  have h := (mass_general (tiltModel t) 1 2 1 hm _ rfl (fun _ : Fin 2 => (1 : ℝ)) (fun _ => zero_le_one) (fun a => tiltVec t a) l h1 h2 h3 (Or.inl rfl)
    (fun x => single x) (fun x => ⟨rfl, single_embed _ 2 1 2 _ (tilt_embeds t) x⟩) slim par (fun _ => rfl)).1 (by
      rw [tilt_usedZ t ht]; positivity)
  rw [probSeq, h.1 x, tilt_psi, tilt_usedZ t ht]
  split <;> simp

/-- C85, trainable embeddings: a model whose normalisation has the wrong gradient. At the parameter value 0 the probabilities are right (one half each, which is
`|ψ|² / Z` with the exact normalisation `Z`), but their derivatives are 1 and 0, with every evaluation strategy, where those of `|ψ|² / Z` are 1/2 and -1/2: the lambda matrix
at 0 is a multiple of the identity, so only the mean of its diagonal is kept and the derivative of the other entries, which is not zero, is lost. Following
this gradient makes the "probabilities" sum to more than one. -/
theorem C85_embedding_gradient (slim par : Bool) (x : Fin 1 → Fin 2) :
    probSeq (tiltModel 0) slim par x = 1 / 2 ∧
    probSeq (tiltModel 0) slim par x = ‖psiFeat (tiltModel 0) 1 2 1 (fun s => tiltVec 0 (x s))‖ ^ 2 / embZ (tiltModel 0) 1 2 1 (fun _ : Fin 2 => (1 : ℝ)) (fun a => tiltVec 0 a) ∧
    HasDerivAt (fun t => probSeq (tiltModel t) slim par x) (if x 0 = 0 then 1 else 0) 0 ∧
    HasDerivAt (fun t => ‖psiFeat (tiltModel t) 1 2 1 (fun s => tiltVec t (x s))‖ ^ 2 / embZ (tiltModel t) 1 2 1 (fun _ : Fin 2 => (1 : ℝ)) (fun a => tiltVec t a))
      (if x 0 = 0 then 1 / 2 else -1 / 2) 0 ∧
    HasDerivAt (fun t => ∑ x : Fin 1 → Fin 2, probSeq (tiltModel t) slim par x) 1 0 := by
  have hev : ∀ᶠ t : ℝ in nhds 0, |t| ≤ 1e-8 := by
    have : ContinuousAt (fun t : ℝ => |t|) 0 := continuous_abs.continuousAt
    exact (this.eventually_lt (continuousAt_const (y := (1e-8 : ℝ))) (by norm_num)).mono fun t h => le_of_lt h
  have hp : ∀ x : Fin 1 → Fin 2, HasDerivAt (fun t => probSeq (tiltModel t) slim par x) (if x 0 = 0 then 1 else 0) 0 := by
    intro x
    refine HasDerivAt.congr_of_eventuallyEq ?_ (hev.mono fun t ht => tilt_prob t ht x slim par)
    have hden : HasDerivAt (fun t : ℝ => 2 + t ^ 2) 0 0 := by
      exact (((hasDerivAt_id (0 : ℝ)).fun_pow 2).const_add 2).congr_deriv (by norm_num)
    by_cases h : x 0 = 0
    · simp only [h, if_true]
      have hnum : HasDerivAt (fun t : ℝ => (1 + t) ^ 2) 2 0 := by
        exact (((hasDerivAt_id (0 : ℝ)).const_add 1).fun_pow 2).congr_deriv (by norm_num)
      exact (hnum.fun_div hden (by norm_num)).congr_deriv (by norm_num)
    · simp only [h, if_false]
      exact ((hasDerivAt_const (0 : ℝ) (1 : ℝ)).fun_div hden (by norm_num)).congr_deriv (by norm_num)
  refine ⟨?_, ?_, hp x, ?_, ?_⟩
  · rw [tilt_prob 0 (by norm_num) x slim par]
    split <;> norm_num
  · rw [tilt_prob 0 (by norm_num) x slim par, tilt_psi, tilt_embZ]
    split <;> norm_num
  · simp only [tilt_psi, tilt_embZ]
    have hnum : HasDerivAt (fun t : ℝ => (1 + t) ^ 2) 2 0 := by
      exact (((hasDerivAt_id (0 : ℝ)).const_add 1).fun_pow 2).congr_deriv (by norm_num)
    have hden : HasDerivAt (fun t : ℝ => (1 + t) ^ 2 + 1) 2 0 := hnum.add_const 1
    by_cases h : x 0 = 0
    · simp only [h, if_true, Real.norm_eq_abs, sq_abs]
      exact (hnum.fun_div hden (by norm_num)).congr_deriv (by norm_num)
    · simp only [h, if_false, norm_one, one_pow]
      exact ((hasDerivAt_const (0 : ℝ) (1 : ℝ)).fun_div hden (by norm_num)).congr_deriv (by norm_num)
  · have := HasDerivAt.fun_sum (u := Finset.univ) (fun x _ => hp x)
    refine this.congr_deriv ?_
    rw [← (Equiv.funUnique (Fin 1) (Fin 2)).symm.sum_comp]
    simp [Fin.sum_univ_two]

/-- C85, the reason: differentiating the compression of a lambda matrix gives the values of the compressed matrix, but as soon as the matrix passes for a
diagonal one the tangents of all its off-diagonal entries are dropped, whatever they are; as soon as it passes for a multiple of the identity, all the tangents of the
diagonal are replaced by their mean. -/
theorem C85_compress {K : Type} [RCLike K] (t : Tensor (DualNumber K)) (d : ℕ) (hs : t.shape = [d, d]) :
    primalT (dualCompress t) = compressLambda (primalT t) ∧
    ((∀ i < d, ∀ j < d, closeTo (if i = j then (t.get [i, i]).fst else 0) (t.get [i, j]).fst) →
      ∀ i < d, ∀ j < d, i ≠ j → lambEntry (some (dualCompress t)) i j = 0) ∧
    ((∀ i < d, ∀ j < d, closeTo (if i = j then (t.get [i, i]).fst else 0) (t.get [i, j]).fst) → (∀ i < d, closeTo (diagMean (primalT t) d) (t.get [i, i]).fst) →
      ∀ i < d, (lambEntry (some (dualCompress t)) i i).snd = (∑ i ∈ Finset.range d, (t.get [i, i]).snd) / (d : K)) := by
  classical
  have hsum : ∀ n, (∑ i ∈ Finset.range n, t.get [i, i]).fst = ∑ i ∈ Finset.range n, (t.get [i, i]).fst := fun n => TrivSqZeroExt.fst_sum _ _
  have hsum' : ∀ n, (∑ i ∈ Finset.range n, t.get [i, i]).snd = ∑ i ∈ Finset.range n, (t.get [i, i]).snd := fun n => TrivSqZeroExt.snd_sum _ _
  refine ⟨?_, ?_, ?_⟩
  · unfold dualCompress compressLambda
    simp only [hs, List.getD_cons_zero, primalT]
    split
    · split
      · simp only [Tensor.mk.injEq, true_and]
        funext idx
        rw [TrivSqZeroExt.fst_smul, hsum, smul_eq_mul, diagMean]
        ring
      · rfl
    · rw [hs]
  · intro h i hi j hj hij
    unfold dualCompress
    simp only [hs, List.getD_cons_zero]
    rw [if_pos h]
    split
    · simp [lambEntry, hij]
    · simp [lambEntry, hij]
  · intro h h' i hi
    unfold dualCompress
    simp only [hs, List.getD_cons_zero]
    have h'' : ∀ i < d, closeTo (diagMean (⟨[d, d], fun idx => (t.get idx).fst⟩ : Tensor K) d) (t.get [i, i]).fst := by
      have := h'
      unfold primalT at this
      rwa [hs] at this
    rw [if_pos h, if_pos h'']
    simp only [lambEntry, if_true]
    rw [TrivSqZeroExt.snd_smul, hsum', smul_eq_mul]
    ring

/-- the lambda matrix of `tiltModel` at 0 with its derivative: its off-diagonal tangents are 1 and get lost -/
example : ∃ t : Tensor (DualNumber ℝ), t.shape = [2, 2] ∧ (∀ i < 2, ∀ j < 2, closeTo (if i = j then (t.get [i, i]).fst else 0) (t.get [i, j]).fst) ∧
    (t.get [0, 1]).snd = 1 := by
  refine ⟨⟨[2, 2], fun idx => jet (if idx.getD 0 0 = idx.getD 1 0 then 1 else 0) (if idx.getD 0 0 = idx.getD 1 0 then 0 else 1)⟩, rfl, ?_, by simp⟩
  intro i hi j hj
  by_cases h : i = j
  · subst h; simp [closeTo]; norm_num
  · simp [h, closeTo]; norm_num

end TorchMPS
