import Verif.Props.AdaptiveExact
import Verif.Props.AdaptiveInactive
import Verif.Props.MpsInput
import Verif.Props.TotalMass
/-
Concrete cases meeting the hypotheses of theorems which have no example beside them.
-/
namespace TorchMPS
open Spec

/-! ### adaptive models -/

theorem exAd_embedded (m : AdMps) (h4 : m.mps.inputDim = 4) (h5 : m.mps.path = none) (h6 : m.mps.featureDim = 2) (x : Tensor ℝ) (hx : x.shape = [3, 4, 2]) :
    Embedded m.mps x x := by
  refine ⟨x, by rw [h5]; rfl, ?_⟩
  unfold MPS.embedInput
  rw [assert_true _ (Or.inr (by simp [Tensor.ndim, hx])), assert_true _ (by simp [hx, h4])]
  simp [Tensor.ndim, hx, h6]
  rfl

/-- C59_forward, C60_flips, C61_structure, C61_flips_iff, C62_call, C62_history, C63_balanced: a new model of four pixels and threshold 3, called
twice with batches of three samples, goes through a history whose first call does not flip and whose second call does. -/
theorem exAd_history (d : Draws) (x : Tensor ℝ) (hx : x.shape = [3, 4, 2]) (g : Option ℕ) :
    ∃ m m' g', AdMps.init d exAdArgs (1 / 10) 3 = .ok m ∧ IsAdMps 1 m ∧ m.mps.inputDim = 4 ∧ m.mps.bondDim = 1 ∧ m.region.offset = 0 ∧ 0 < m.region.cutoff ∧
      History someSvd popHead m g [3, 3] [false, true] m' g' ∧ Embedded m'.mps x x := by
  obtain ⟨m, h1, h2, h3, hper, h4, h5, h6, hfm, h7, h8, h9, h10, h11, h12, h13, h14⟩ := exAd_facts someSvd someSvd_spec d (1 / 10) (by norm_num) 3
  have hoff : m.region.offset = 0 := by
    obtain ⟨m0, z1, _, _, _, _, _, _, _, _, _, z2, _⟩ := C59_construction d exAdArgs (1 / 10) 3 1 (by decide) (by decide) (Or.inl rfl) none rfl
    rw [h1] at z1
    rw [Except.ok.inj z1]
    exact z2
  have he := exAd_embedded m h4 h5 h6 x hx
  obtain ⟨y, y1, _⟩ := C59_forward someSvd popHead 1 _ m h2 h10 (by rw [h7, h8]; omega) (Or.inr (by rw [h3])) x x he g (Or.inr hoff)
  obtain ⟨m1, g1, hf⟩ : ∃ m1 g1, m.forward someSvd popHead x g = (.ok y, m1, g1) := ⟨_, _, by rw [← y1]⟩
  have hm1 := quiet_call someSvd popHead m m1 x x y g g1 he (by rw [h7, h8]; omega) hf
  have hB : x.shape.getD 0 0 = 3 := by rw [hx]; rfl
  rw [hB, h8] at hm1
  have he1 : Embedded m1.mps x x := by rw [hm1]; exact he
  obtain ⟨y', w1, w2, _⟩ := C64_untrained someSvd someSvd_spec popHead popHead_mem 1 m1 (by rw [hm1]; exact count_wf 1 m h2 _) (by rw [hm1]; exact h3.ge) _
    (by rw [hm1]; exact h10) (by rw [hm1]; exact h7.le) (by rw [hm1]; exact h11) (by rw [hm1]; show 0 < m.region.cutoff; rw [h9]; norm_num)
    (by rw [hm1]; exact h14) (by rw [hm1]; exact h12) (by rw [hm1]; exact h13) x x he1 g1 (Or.inl le_rfl)
  obtain ⟨m2, g2, hf2⟩ : ∃ m2 g2, m1.forward someSvd popHead x g1 = (.ok y', m2, g2) := ⟨_, _, by rw [← w1]⟩
  have hh : History someSvd popHead m g [x.shape.getD 0 0, x.shape.getD 0 0]
      [decide (m1.region.offset ≠ m.region.offset), decide (m2.region.offset ≠ m1.region.offset)] m2 g2 :=
    .call he hf (.call he1 hf2 (.nil _ _))
  have o1 : m1.region.offset = m.region.offset := by rw [hm1]
  rw [hf2] at w2
  have o2 : m2.region.offset = 1 - m.region.offset := by rw [← o1]; exact w2
  rw [hB, o1, o2, hoff] at hh
  obtain ⟨_, ⟨f, hmps⟩, _⟩ := C61_structure someSvd someSvd_spec popHead popHead_mem 1 m m2 g g2 _ _ h2 (by rw [h3]) hh
  refine ⟨m, m2, g2, h1, h2, h4, h3, hoff, by rw [h9]; norm_num, by simpa using hh, ?_⟩
  exact exAd_embedded m2 (by rw [hmps]; exact h4) (by rw [hmps]; exact h5) (by rw [hmps]; exact h6) x hx

/-- C60_flips at work on this history: the counter is 3 + 3 - 3, the merge state has changed. -/
example (d : Draws) (x : Tensor ℝ) (hx : x.shape = [3, 4, 2]) (g : Option ℕ) :
    ∃ m m' g', AdMps.init d exAdArgs (1 / 10) 3 = .ok m ∧ History someSvd popHead m g [3, 3] [false, true] m' g' ∧
      m'.region.offset = 1 ∧ m'.region.counter + m.region.threshold = m.region.counter + 6 := by
  obtain ⟨m, m', g', h1, h2, _, _, h3, _, h4, _⟩ := exAd_history d x hx g
  obtain ⟨_, _, q1, q2, _⟩ := C60_flips someSvd popHead m m' g g' _ _ h2.offset h4
  refine ⟨m, m', g', h1, h4, ?_, ?_⟩
  · rw [q2, h3]; rfl
  · have : (List.count true [false, true]) = 1 := rfl
    rw [this] at q1
    simpa using q1

/-- C59_merge and C63_rescale: a chain of four pixel cores with the output core in the middle. -/
def exCores : Cores ℝ := ⟨fun i l r f => i + l + r + f + 1, fun o l r => o + l + r + 1⟩

/-- the chain as a list of modules -/
def exChain : List (Module ℝ) :=
  [.inputRegion ⟨[2, 2, 2, 3], fun idx => exCores.A (idx.getD 0 0) (idx.getD 1 0) (idx.getD 2 0) (idx.getD 3 0)⟩ none,
    .outputSite ⟨[2, 2, 2], fun idx => exCores.C (idx.getD 0 0) (idx.getD 1 0) (idx.getD 2 0)⟩,
    .inputRegion ⟨[2, 2, 2, 3], fun idx => exCores.A (2 + idx.getD 0 0) (idx.getD 1 0) (idx.getD 2 0) (idx.getD 3 0)⟩ none]

theorem exChain_unmerged : Unmerged 2 3 2 2 4 exCores exChain := by
  refine ⟨[_], _, [_], rfl, .region ⟨by omega, _, _, rfl, rfl, ?_⟩, ⟨_, rfl, rfl, ?_⟩, .region ⟨by omega, _, _, rfl, rfl, ?_⟩⟩
  · intro s _ l _ r _ f _; simp
  · intro o _ l _ r _; rfl
  · intro s _ l _ r _ f _; simp

theorem coreNorm_pos (D F : ℕ) (A : ℕ → ℕ → ℕ → ℝ) (hD : 0 < D) (hF : 0 < F) (h : A 0 0 0 ≠ 0) : coreNorm D F A ≠ 0 := by
  unfold coreNorm
  apply ne_of_gt
  apply Real.sqrt_pos.mpr
  refine Finset.sum_pos' (fun l _ => Finset.sum_nonneg (fun r _ => Finset.sum_nonneg (fun f _ => sq_nonneg _))) ⟨0, by simpa using hD, ?_⟩
  refine Finset.sum_pos' (fun r _ => Finset.sum_nonneg (fun f _ => sq_nonneg _)) ⟨0, by simpa using hD, ?_⟩
  exact Finset.sum_pos' (fun f _ => sq_nonneg _) ⟨0, by simpa using hF, by positivity⟩

theorem outNorm_pos (D O : ℕ) (C : ℕ → ℕ → ℕ → ℝ) (hD : 0 < D) (hO : 0 < O) (h : C 0 0 0 ≠ 0) : outNorm D O C ≠ 0 := by
  unfold outNorm
  apply ne_of_gt
  apply Real.sqrt_pos.mpr
  refine Finset.sum_pos' (fun l _ => Finset.sum_nonneg (fun r _ => Finset.sum_nonneg (fun f _ => sq_nonneg _))) ⟨0, by simpa using hO, ?_⟩
  refine Finset.sum_pos' (fun r _ => Finset.sum_nonneg (fun f _ => sq_nonneg _)) ⟨0, by simpa using hD, ?_⟩
  exact Finset.sum_pos' (fun f _ => sq_nonneg _) ⟨0, by simpa using hD, by positivity⟩

/-- C63_rescale: this chain is rescaled successfully; with the output core replaced by zero everything becomes NaN. -/
example : (∃ ms', rescaleCores exChain = .ok ms') ∧
    rescaleCores [exChain.getD 0 (.inputSite ⟨[], fun _ => 0⟩), .outputSite ⟨[2, 2, 2], fun _ => 0⟩, exChain.getD 2 (.inputSite ⟨[], fun _ => 0⟩)] = .error .nan := by
  constructor
  · obtain ⟨ms', _, _, h, _⟩ := (C63_rescale 2 3 2 2 4 (by omega) exCores exChain exChain_unmerged).2
      (outNorm_pos _ _ _ (by omega) (by omega) (by simp [exCores]))
      (fun q _ => coreNorm_pos _ _ _ (by omega) (by omega) (by simp [exCores]; positivity))
    exact ⟨ms', h⟩
  · refine (C63_rescale 2 3 2 2 4 (by omega) ⟨exCores.A, fun _ _ _ => 0⟩ _ ?_).1 (Or.inl (by simp [outNorm]))
    refine ⟨[_], _, [_], rfl, .region ⟨by omega, _, _, rfl, rfl, ?_⟩, ⟨_, rfl, rfl, ?_⟩, .region ⟨by omega, _, _, rfl, rfl, ?_⟩⟩
    · intro s _ l _ r _ f _; simp
    · intro o _ l _ r _; rfl
    · intro s _ l _ r _ f _; simp

/-- C59_merge: both ways of merging this chain give the value of its cores. -/
example (p : ℕ) (hp : p ≤ 1) (e : Tensor ℝ) (he : e.shape = [5, 4, 3]) : ∃ ms' y, mergeList p exChain = .ok ms' ∧
    (linearForward ms' true false e none).1 = .ok y ∧ y.get [4, 1] = chainValue 2 3 2 4 true exCores e 4 1 := by
  obtain ⟨ms', h1, _, h2⟩ := C59_merge 2 3 2 p 2 4 5 hp (by omega) (by omega) exCores exChain exChain_unmerged
  obtain ⟨y, g', y1, _, y2⟩ := h2 true false (Or.inl rfl) e he none (Or.inr (by omega))
  exact ⟨ms', y, h1, by rw [y1], y2 4 (by omega) 1 (by omega)⟩

/-- C65_inactive: a new model, and the same model with all parameters not in use replaced by zeros; a program with a call, a change of the
unused parameters and a call. -/
example (d : Draws) (x : Tensor ℝ) (u u' : List (Module ℝ)) (hu : List.Forall₂ Retuned u u') (g : Option ℕ) : ∃ m l, AdMps.init d exAdArgs (1 / 10) 3 = .ok m ∧
    List.Forall₂ Retuned (inactive m) l ∧
    results someSvd popHead m g [.call x, .update (m.region.listAt 0) u, .call x] =
      results someSvd popHead (withInactive m l) g [.call x, .update (m.region.listAt 0) u', .call x] := by
  obtain ⟨m, h1, h2, _⟩ := exAd_facts someSvd someSvd_spec d (1 / 10) (by norm_num) 3
  have hl : List.Forall₂ Retuned (inactive m) ((inactive m).map (fun w => w.setTensor ⟨w.tensor.shape, fun _ => 0⟩)) := by
    rw [List.forall₂_map_right_iff]
    exact List.forall₂_same.mpr (fun w _ => ⟨⟨w.tensor.shape, fun _ => 0⟩, rfl, rfl⟩)
  exact ⟨m, _, h1, hl, C65_inactive someSvd popHead m h2.offset _ hl g _ _ (.cons rfl (.cons ⟨rfl, hu⟩ (.cons rfl .nil)))⟩

/-! ### MPS -/

/-- C58_multi_affine, C54, C53: the model `exMps` without a path, batches of 5 samples. -/
example (periodic : Bool) (x : Tensor ℤ) (hx : x.shape = [5, 4, 2]) : ∃ (c0 : ℕ → ℕ → ℤ) (c : ℕ → ℕ → ℕ → ℤ), ∀ v : ℕ → ℕ → ℤ,
    ∃ y, (({ exMps periodic with path := none } : MPS ℤ).forward (setPixel x 3 v) none).1 = .ok y ∧
      y.get [4, 2] = c0 4 2 + ∑ f ∈ Finset.range 2, c 4 2 f * v 4 f := by
  obtain ⟨c0, c, _, h⟩ := C58_multi_affine 2 true exParams { exMps periodic with path := none }
    (by have h := exMps_isMps periodic; exact ⟨h.label, h.modules, h.left, h.leftBias, h.out, h.right, h.rightBias⟩) rfl
    (Or.inr (by show 1 ≤ 2; omega)) ⟨by decide, show 4 - 2 ≠ 1 by decide⟩ 5 x hx 3 (show 3 < 4 by omega) none (Or.inl (by decide))
  refine ⟨c0, c, fun v => ?_⟩
  obtain ⟨y, y1, _, y2⟩ := h v
  exact ⟨y, y1, y2 4 (by omega) 2 (show 2 < 3 by omega)⟩

/-- parameters of the model rotated by two pixels -/
def rotParams : Params ℤ := ⟨⟨[0, 2, 2, 2], fun _ => 0⟩, ⟨[1, 2, 2], fun _ => 0⟩, exParams.out,
  ⟨[4, 2, 2, 2], fun i => exParams.core 2 ((i.getD 0 0 + 2) % 4) (i.getD 1 0) (i.getD 2 0) (i.getD 3 0)⟩, ⟨[1, 2, 2], fun _ => 0⟩⟩

/-- C52_rotation: the model without bias and its rotation by two pixels (label_site 0). -/
example (x : Tensor ℤ) (hx : x.shape = [5, 4, 2]) :
    let m : MPS ℤ := ⟨4, 3, 2, 2, true, false, none, none, [.inputRegion exParams.left none, .outputSite exParams.out, .inputRegion exParams.right none]⟩
    let m' : MPS ℤ := ⟨4, 3, 2, 2, true, false, none, none, [.outputSite rotParams.out, .inputRegion rotParams.right none]⟩
    let x' : Tensor ℤ := ⟨[5, 4, 2], fun i => x.get [i.getD 0 0, (i.getD 1 0 + 2) % 4, i.getD 2 0]⟩
    ∃ y y' g1 g1', m.forward x none = (.ok y, g1) ∧ m'.forward x' (some 5) = (.ok y', g1') ∧ y'.get [4, 2] = y.get [4, 2] := by
  intro m m' x'
  have e1 : Embedded m x x := ⟨x, rfl, by
    unfold MPS.embedInput
    rw [assert_true _ (Or.inr (by simp [Tensor.ndim, hx])), assert_true _ (by simp [hx, m])]
    simp [Tensor.ndim, hx, m]
    rfl⟩
  have e2 : Embedded m' x' x' := ⟨x', rfl, rfl⟩
  obtain ⟨y, y', g1, g1', z1, z2, _, _, z3⟩ := C52_rotation 2 2 false exParams rotParams m m' ⟨by decide, rfl, rfl, rfl, rfl, rfl, rfl⟩ ⟨by decide, rfl, rfl, rfl, rfl, rfl, rfl⟩
    le_rfl rfl rfl ⟨rfl, rfl, rfl, rfl⟩ (fun i _ l _ r _ f _ => by simp [Params.core, rotParams, m]) (fun i _ l _ r _ => by simp [Params.bias])
    (fun o _ l _ r _ => rfl) ⟨by decide, by decide⟩ ⟨by decide, by decide⟩ x x x' x' e1 e2 5 (by rw [hx]; rfl) rfl (fun b _ i _ f _ => rfl) none (some 5)
    (Or.inl (by decide)) (Or.inr rfl)
  exact ⟨y, y', g1, g1', z1, z2, z3 4 (by omega) 2 (show 2 < 3 by omega)⟩

/-! ### ProbMPS -/

/-- a uniform model with bias: the amplitude of a sequence is the product of its symbols plus 3 -/
noncomputable def unifModel (e : Option (Embedding ℝ)) : ProbMPS ℝ where
  uniform := true
  core := ⟨[2, 1, 1], fun idx => idx.getD 0 0 + 1⟩
  edge := ⟨[2, 1], fun _ => 1⟩
  bias := some ⟨[1, 1], fun _ => 2⟩
  embedding := e

theorem prod_one_pos (n : ℕ) (M : Fin n → Matrix (Fin 1) (Fin 1) ℝ) (h : ∀ s, 0 < M s 0 0) : 0 < (List.ofFn M).prod 0 0 := by
  induction n with
  | zero => simp
  | succ n ih =>
    rw [List.ofFn_succ, List.prod_cons, Matrix.mul_apply]
    simp only [Fin.sum_univ_one, Fin.isValue]
    exact mul_pos (h 0) (ih _ (fun s => h _))

theorem unifModel_psi (n : ℕ) (x : Fin n → Fin 2) : psiSeq (unifModel none) n 2 1 x ≠ 0 := by
  have := prod_one_pos n (fun s => coreMat (unifModel none).core 1 s (x s) + biasMat (unifModel none) 1) (fun s => by
    simp [unifModel, coreMat, biasMat]; positivity)
  unfold psiSeq amplitude
  simp only [dotProduct, Matrix.mulVec, Fin.sum_univ_one]
  simp only [unifModel, boundVec] at this ⊢
  simpa using this.ne'

/-- C23_uniform_sum_to_one, for every length -/
example (n : ℕ) (par : Bool) : ∑ x : Fin n → Fin 2, probSeq (unifModel none) false par x = 1 :=
  C23_uniform_sum_to_one (unifModel none) 2 1 rfl rfl rfl (by simp [unifModel]) (by norm_num) rfl false par (by simp) n
    (modelZ_ne_zero _ _ _ _ (fun _ => 0) (unifModel_psi n _))

/-- C29_bias_normalised (and C28 without the bias): the one-hot embedding, whose feature vectors sum to one, for every length. -/
example (n : ℕ) (par : Bool) : ∃ e : Embedding ℝ, Embedding.fixed (onehotEmbed (K := ℝ) 2) (.discrete (2 : ℕ)) = .ok e ∧
    ∑ x : Fin n → Fin 2, probSeq (unifModel (some e)) false par x = 1 := by
  obtain ⟨e, h1, h2, h3, h4⟩ := fixed_ok (onehotEmbed (K := ℝ) 2) 2 2 _ (C35_onehot_entries 2)
  refine ⟨e, h1, C29_bias_normalised (unifModel (some e)) n 2 1 2 ⟨rfl, rfl, by simp [unifModel], by norm_num⟩ e rfl h3 _
    (by rw [h2]; exact C35_onehot_entries 2) h4 (onehot_exact 2) ?_ par ?_⟩
  · intro a ha
    rw [Finset.sum_ite_eq' (Finset.range 2) a]
    simp [ha]
  · unfold embZ
    apply ne_of_gt
    refine Finset.sum_pos' (fun x _ => by positivity) ⟨fun _ => 0, Finset.mem_univ _, ?_⟩
    have := prod_one_pos n (fun s => featMat (unifModel (some e)).core 2 1 s (fun k => if k = ((0 : Fin 2) : ℕ) then 1 else 0) + biasMat (unifModel (some e)) 1) (fun s => by
      simp [unifModel, coreMat, biasMat, featMat]; positivity)
    unfold psiFeat amplitude
    simp only [dotProduct, Matrix.mulVec, Fin.sum_univ_one]
    simp only [unifModel, boundVec] at this ⊢
    simp only [Finset.prod_const_one, one_mul, mul_one]
    exact pow_pos (norm_pos_iff.2 this.ne') 2

end TorchMPS
