import Verif.Spec.TiTrain
import Verif.Props.TiGrad
import Verif.Props.TrainGrad
/-
C111: gradient and convexity of the classification loss of a TI_MPS.
-/
namespace TorchMPS
open Spec

theorem nllVelocity_congr {O : ℕ} {labels : List ℕ} {s s' v v' : ℕ → ℕ → ℝ} (hs : ∀ b < labels.length, ∀ o < O, s b o = s' b o) (hv : ∀ b < labels.length, ∀ o < O, v b o = v' b o) :
    nllVelocity O labels s v = nllVelocity O labels s' v' := by
  unfold nllVelocity
  congr 1
  refine Finset.sum_congr rfl fun b hb => Finset.sum_congr rfl fun o ho => ?_
  have hb := Finset.mem_range.1 hb
  have e : softmax O (s b) o = softmax O (s' b) o := by
    simp only [softmax]
    rw [hs b hb o (Finset.mem_range.1 ho), Finset.sum_congr rfl fun o' ho' => by rw [hs b hb o' (Finset.mem_range.1 ho')]]
  rw [e, hv b hb o (Finset.mem_range.1 ho)]

/-- C111: let the parameters of a TI_MPS and the feature vectors of its input move along differentiable curves. Then the cross entropy of its outputs with the labels is differentiable; its derivative is
the mean over the batch of the probabilities minus the indicator of the label, times the derivatives of the outputs (in which the shared core and bias contribute at every step). -/
theorem C111_gradient (m : ℝ → TiMps ℝ) (h : ∀ t, IsTi (m t)) (d : TiVelocity ℝ) (t₀ : ℝ) (hm : TiMoves m d t₀) (inp : ℝ → TiInput ℝ) (n : ℕ) (hn : 1 ≤ n) (labels : List ℕ)
    (hi : ∀ t, TiAccepts (m t) labels.length n (inp t)) (hl : ∀ c ∈ labels, c < (m t₀).outputDim) (dx : ℕ → ℕ → ℕ → ℝ)
    (hx : ∀ b < labels.length, ∀ i < n, ∀ f < (m t₀).featureDim, HasDerivAt (fun t => tiEntry (m t) (inp t) b i f) (dx b i f) t₀) (g : Option ℕ) :
    ∃ (y : ℝ → Tensor ℝ) (L : ℝ → ℝ), (∀ t, (m t).forward (inp t) g = (.ok (y t), some labels.length)) ∧ (∀ t, crossEntropy (y t) labels = .ok (L t)) ∧
      HasDerivAt L (nllVelocity (m t₀).outputDim labels (fun b o => tiValue (m t₀) n (tiEntry (m t₀) (inp t₀) b) o)
        (fun b o => tiDerivative (m t₀) d n (tiEntry (m t₀) (inp t₀) b) (dx b) o)) t₀ := by
  have hf := fun t => C66_value (m t) (h t) (inp t) labels.length n (hi t) hn g
  choose y y1 y2 y3 using hf
  obtain ⟨y', z1, z2⟩ := C101_derivative m h d t₀ hm inp labels.length n hn hi dx hx g
  have hyy : y' = y := by
    funext t
    have := (z1 t).symm.trans (y1 t)
    simp only [Prod.mk.injEq, Except.ok.injEq] at this
    exact this.1
  subst hyy
  refine ⟨y', fun t => meanNll (m t₀).outputDim labels (fun b o => (y' t).get [b, o]), y1, fun t => crossEntropy_eq (y' t) labels _ (by rw [y2 t, hm.outputDim t]) hl, ?_⟩
  rw [nllVelocity_congr (s' := fun b o => (y' t₀).get [b, o]) (fun b hb o ho => (y3 t₀ b hb o ho).symm) (fun _ _ _ _ => rfl)]
  unfold meanNll nllVelocity
  refine HasDerivAt.div_const (HasDerivAt.fun_sum fun b hb => ?_) _
  have hb := Finset.mem_range.1 hb
  exact nll_deriv (fun t o => (y' t).get [b, o]) _ t₀ (label_lt hl hb) fun o ho => z2 b hb o ho

/-! ### convexity -/

theorem tiState_setInit (m : TiMps ℝ) (v0 v1 : ℕ → ℝ) (t : ℝ) (x : ℕ → ℕ → ℝ) (n r : ℕ) :
    tiState (setInit m (fun l => (1 - t) * v0 l + t * v1 l)) x n r = (1 - t) * tiState (setInit m v0) x n r + t * tiState (setInit m v1) x n r := by
  induction n generalizing r with
  | zero => rfl
  | succ n ih =>
    simp only [tiState, ih, Finset.mul_sum (s := Finset.range (setInit m _).bondDim)]
    show ∑ l ∈ Finset.range m.bondDim, _ = ∑ l ∈ Finset.range m.bondDim, _ + ∑ l ∈ Finset.range m.bondDim, _
    rw [← Finset.sum_add_distrib]
    refine Finset.sum_congr rfl fun l _ => ?_
    simp only [setInit, tiBiasAt]
    ring

theorem tiState_setTerm (m : TiMps ℝ) (T : ℕ → ℕ → ℝ) (x : ℕ → ℕ → ℝ) (n r : ℕ) : tiState (setTerm m T) x n r = tiState m x n r := by
  induction n generalizing r with
  | zero => rfl
  | succ n ih =>
    simp only [tiState, ih]
    rfl

theorem setInit_isTi {m : TiMps ℝ} (h : IsTi m) (v : ℕ → ℝ) : IsTi (setInit m v) := ⟨h.core, rfl, h.termMat, h.bias, h.fixed⟩

theorem setTerm_isTi {m : TiMps ℝ} (h : IsTi m) (T : ℕ → ℕ → ℝ) : IsTi (setTerm m T) := ⟨h.core, h.initVec, rfl, h.bias, h.fixed⟩

theorem setInit_accepts {m : TiMps ℝ} {B n : ℕ} {inp : TiInput ℝ} (h : TiAccepts m B n inp) (v : ℕ → ℝ) : TiAccepts (setInit m v) B n inp := by
  cases inp <;> exact h

theorem setTerm_accepts {m : TiMps ℝ} {B n : ℕ} {inp : TiInput ℝ} (h : TiAccepts m B n inp) (T : ℕ → ℕ → ℝ) : TiAccepts (setTerm m T) B n inp := by
  cases inp <;> exact h

theorem setInit_entry (m : TiMps ℝ) (inp : TiInput ℝ) (v : ℕ → ℝ) (b : ℕ) : tiEntry (setInit m v) inp b = tiEntry m inp b := by
  funext i f
  cases inp <;> rfl

theorem setTerm_entry (m : TiMps ℝ) (inp : TiInput ℝ) (T : ℕ → ℕ → ℝ) (b : ℕ) : tiEntry (setTerm m T) inp b = tiEntry m inp b := by
  funext i f
  cases inp <;> rfl

/-- a family of models whose outputs are mixtures of those of its ends has a convex loss -/
theorem ti_family_convex (O : ℕ) (m : ℝ → TiMps ℝ) (h : ∀ t, IsTi (m t)) (hO : ∀ t, (m t).outputDim = O) (inp : TiInput ℝ) (n : ℕ) (hn : 1 ≤ n) (labels : List ℕ)
    (hi : ∀ t, TiAccepts (m t) labels.length n inp) (hl : ∀ c ∈ labels, c < O) (g : Option ℕ)
    (hmix : ∀ t b o, tiValue (m t) n (tiEntry (m t) inp b) o = (1 - t) * tiValue (m 0) n (tiEntry (m 0) inp b) o + t * tiValue (m 1) n (tiEntry (m 1) inp b) o) :
    ∃ (y : ℝ → Tensor ℝ) (L : ℝ → ℝ), (∀ t, (m t).forward inp g = (.ok (y t), some labels.length)) ∧ (∀ t, crossEntropy (y t) labels = .ok (L t)) ∧
      (∀ t, 0 ≤ t → t ≤ 1 → L t ≤ (1 - t) * L 0 + t * L 1) ∧ ∀ d, HasDerivAt L d 0 → L 0 + d ≤ L 1 := by
  have hf := fun t => C66_value (m t) (h t) inp labels.length n (hi t) hn g
  choose y y1 y2 y3 using hf
  have hconv : ∀ t, 0 ≤ t → t ≤ 1 → meanNll O labels (fun b o => (y t).get [b, o]) ≤
      (1 - t) * meanNll O labels (fun b o => (y 0).get [b, o]) + t * meanNll O labels (fun b o => (y 1).get [b, o]) := by
    intro t h0 h1
    refine meanNll_convex _ _ hl _ _ _ t h0 h1 fun b hb o ho => ?_
    rw [y3 t b hb o (by rw [hO]; exact ho), y3 0 b hb o (by rw [hO]; exact ho), y3 1 b hb o (by rw [hO]; exact ho)]
    exact hmix t b o
  refine ⟨y, fun t => meanNll O labels (fun b o => (y t).get [b, o]), y1, fun t => crossEntropy_eq (y t) labels _ (by rw [y2 t, hO t]) hl, hconv, fun d hd => tangent_below _ d hconv hd⟩

/-- C111: the loss is a convex function of the initial vector: at a mixture of two vectors it is at most the mixture of the losses, and nowhere below its tangents, so an initial vector where its
gradient vanishes cannot be improved alone. -/
theorem C111_initial_convex (m : TiMps ℝ) (h : IsTi m) (inp : TiInput ℝ) (n : ℕ) (hn : 1 ≤ n) (labels : List ℕ) (hi : TiAccepts m labels.length n inp) (hl : ∀ c ∈ labels, c < m.outputDim)
    (g : Option ℕ) (v0 v1 : ℕ → ℝ) :
    ∃ (y : ℝ → Tensor ℝ) (L : ℝ → ℝ), (∀ t, (setInit m (fun l => (1 - t) * v0 l + t * v1 l)).forward inp g = (.ok (y t), some labels.length)) ∧ (∀ t, crossEntropy (y t) labels = .ok (L t)) ∧
      (∀ t, 0 ≤ t → t ≤ 1 → L t ≤ (1 - t) * L 0 + t * L 1) ∧ ∀ d, HasDerivAt L d 0 → L 0 + d ≤ L 1 := by
  refine ti_family_convex m.outputDim (fun t => setInit m (fun l => (1 - t) * v0 l + t * v1 l)) (fun t => setInit_isTi h _) (fun _ => rfl) inp n hn labels (fun t => setInit_accepts hi _) hl g ?_
  intro t b o
  have e0 : setInit m (fun l => (1 - (0 : ℝ)) * v0 l + 0 * v1 l) = setInit m v0 := by congr 1; funext l; ring
  have e1 : setInit m (fun l => (1 - (1 : ℝ)) * v0 l + 1 * v1 l) = setInit m v1 := by congr 1; funext l; ring
  beta_reduce
  rw [e0, e1]
  simp only [setInit_entry]
  simp only [tiValue, tiState_setInit, Finset.mul_sum]
  show ∑ l ∈ Finset.range m.bondDim, _ = ∑ l ∈ Finset.range m.bondDim, _ + ∑ l ∈ Finset.range m.bondDim, _
  rw [← Finset.sum_add_distrib]
  refine Finset.sum_congr rfl fun l _ => ?_
  simp only [setInit]
  ring

/-- C111: the loss is a convex function of the terminal matrix. -/
theorem C111_terminal_convex (m : TiMps ℝ) (h : IsTi m) (inp : TiInput ℝ) (n : ℕ) (hn : 1 ≤ n) (labels : List ℕ) (hi : TiAccepts m labels.length n inp) (hl : ∀ c ∈ labels, c < m.outputDim)
    (g : Option ℕ) (T0 T1 : ℕ → ℕ → ℝ) :
    ∃ (y : ℝ → Tensor ℝ) (L : ℝ → ℝ), (∀ t, (setTerm m (fun l o => (1 - t) * T0 l o + t * T1 l o)).forward inp g = (.ok (y t), some labels.length)) ∧ (∀ t, crossEntropy (y t) labels = .ok (L t)) ∧
      (∀ t, 0 ≤ t → t ≤ 1 → L t ≤ (1 - t) * L 0 + t * L 1) ∧ ∀ d, HasDerivAt L d 0 → L 0 + d ≤ L 1 := by
  refine ti_family_convex m.outputDim (fun t => setTerm m (fun l o => (1 - t) * T0 l o + t * T1 l o)) (fun t => setTerm_isTi h _) (fun _ => rfl) inp n hn labels (fun t => setTerm_accepts hi _) hl g ?_
  intro t b o
  simp only [setTerm_entry]
  simp only [tiValue, tiState_setTerm, Finset.mul_sum]
  show ∑ l ∈ Finset.range m.bondDim, _ = ∑ l ∈ Finset.range m.bondDim, _ + ∑ l ∈ Finset.range m.bondDim, _
  rw [← Finset.sum_add_distrib]
  refine Finset.sum_congr rfl fun l _ => ?_
  simp only [setTerm, List.getD_cons_zero, List.getD_cons_succ]
  ring

/-- the hypotheses are met: any model with default features, a batch of two sequences of three scalars, labels 0 and 1 -/
example (m : TiMps ℝ) (h : IsTi m) (hφ : m.featureMap = none) (hF : m.featureDim = 2) (hO : m.outputDim = 2) (x : Tensor ℝ) (hx : x.shape = [2, 3]) (v0 v1 : ℕ → ℝ) :
    ∃ (y : ℝ → Tensor ℝ) (L : ℝ → ℝ), (∀ t, (setInit m (fun l => (1 - t) * v0 l + t * v1 l)).forward (.batch x) none = (.ok (y t), some 2)) ∧ (∀ t, crossEntropy (y t) [0, 1] = .ok (L t)) ∧
      L (1 / 2) ≤ (L 0 + L 1) / 2 := by
  obtain ⟨y, L, h1, h2, h3, -⟩ := C111_initial_convex m h (.batch x) 3 (by norm_num) [0, 1] (Or.inr ⟨hx, by unfold TiEmbeds; rw [hφ]; exact hF⟩) (by rw [hO]; decide) none v0 v1
  refine ⟨y, L, h1, h2, ?_⟩
  have := h3 (1 / 2) (by norm_num) (by norm_num)
  linarith

/-- two classes: the scores are `a ^ 3` (for three features 1) and 0 -/
def powTi2 (a : ℝ) : TiMps ℝ := ⟨2, 1, 1, false, false, false, none, ⟨[1, 1, 1], fun _ => a⟩, ⟨[1], fun _ => 1⟩, ⟨[1, 2], fun idx => if idx.getD 1 0 = 0 then 1 else 0⟩, none⟩

theorem powTi2_moves (t₀ : ℝ) : TiMoves powTi2 (coreVelocity 0 0 0 (1 : ℝ)) t₀ where
  bondDim _ := rfl
  featureDim _ := rfl
  outputDim _ := rfl
  core l hl r hr f hf := by
    have hl : l < 1 := hl
    have hr : r < 1 := hr
    have hf : f < 1 := hf
    obtain rfl : l = 0 := by omega
    obtain rfl : r = 0 := by omega
    obtain rfl : f = 0 := by omega
    exact hasDerivAt_id t₀
  init _ _ := hasDerivAt_const _ _
  term _ _ _ _ := hasDerivAt_const _ _
  bias _ _ _ _ := hasDerivAt_const _ _

/-- The gradient in a concrete case: moving the core through `a = 2`, label 0. -/
example : ∃ (y : ℝ → Tensor ℝ) (L : ℝ → ℝ), (∀ t, (powTi2 t).forward (.batch ⟨[1, 3, 1], fun _ => 1⟩) none = (.ok (y t), some 1)) ∧ (∀ t, crossEntropy (y t) [0] = .ok (L t)) ∧
    HasDerivAt L ((Real.exp 8 / (Real.exp 8 + 1) - 1) * 12) 2 := by
  obtain ⟨y, L, y1, y2, y3⟩ := C111_gradient powTi2 (fun _ => ⟨rfl, rfl, rfl, fun h => Bool.noConfusion h, fun h => Bool.noConfusion h⟩) _ 2 (powTi2_moves 2)
    (fun _ => .batch ⟨[1, 3, 1], fun _ => 1⟩) 3 (by norm_num) [0] (fun _ => Or.inl rfl)
    (by intro c hc; simp at hc; subst hc; exact Nat.two_pos) (fun _ _ _ => 0) (fun _ _ _ _ _ _ => hasDerivAt_const _ _) none
  refine ⟨y, L, y1, y2, ?_⟩
  refine HasDerivAt.congr_deriv y3 ?_
  simp [nllVelocity, softmax, powTi2, tiValue, tiDerivative, coreVelocity, Finset.sum_range_succ, tiState, tiAfter, tiBetween, tiStep, tiEntry, tiBiasAt]
  have e : ((({0} : Finset ℕ).filter (fun x => x = 0)).card : ℝ) = 1 := by simp [Finset.filter_singleton]
  rw [e]
  norm_num

end TorchMPS
