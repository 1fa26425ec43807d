import Verif.Spec.TrainGrad
import Verif.Props.AutodiffMps
import Verif.Props.MpsParams
import Verif.Props.MpsGradient
import Verif.Props.Train
import Mathlib.Analysis.Convex.SpecificFunctions.Basic
import Mathlib.Analysis.SpecialFunctions.Log.Deriv
import Mathlib.Analysis.SpecialFunctions.ExpDeriv
import Mathlib.Algebra.BigOperators.Field
/-
C103: the gradient of the training loss, and its convexity in a single core.
-/
namespace TorchMPS
open Spec

theorem zipIdx_range_sum (f : ℕ → ℕ → ℝ) (l : List ℕ) : (l.zipIdx.map (fun p => f p.2 p.1)).sum = ∑ b ∈ Finset.range l.length, f b (l.getD b 0) := by
  have key : ∀ (l : List ℕ) (k : ℕ), ((l.zipIdx k).map (fun p => f p.2 p.1)).sum = ∑ b ∈ Finset.range l.length, f (k + b) (l.getD b 0) := by
    intro l
    induction l with
    | nil => intro k; simp
    | cons y l ih =>
      intro k
      rw [List.zipIdx_cons, List.map_cons, List.sum_cons, ih, List.length_cons, Finset.sum_range_succ']
      rw [add_comm]
      congr 1
      refine Finset.sum_congr rfl (fun b _ => ?_)
      rw [List.getD_cons_succ]
      congr 1
      omega
  have := key l 0
  simpa using this

theorem softmax_pos {O : ℕ} (s : ℕ → ℝ) {y : ℕ} (hy : y < O) : 0 < ∑ o' ∈ Finset.range O, Real.exp (s o') :=
  Finset.sum_pos (fun _ _ => Real.exp_pos _) ⟨y, Finset.mem_range.2 hy⟩

theorem nll_eq {O : ℕ} (s : ℕ → ℝ) {y : ℕ} (hy : y < O) : - Real.log (softmax O s y) = Real.log (∑ o' ∈ Finset.range O, Real.exp (s o')) - s y := by
  rw [softmax, Real.log_div (Real.exp_pos _).ne' (softmax_pos s hy).ne', Real.log_exp]
  ring

/-- the loss computed by the script is the mean negative log-likelihood -/
theorem crossEntropy_eq (y : Tensor ℝ) (labels : List ℕ) (O : ℕ) (hy : y.shape = [labels.length, O]) (hl : ∀ c ∈ labels, c < O) :
    crossEntropy y labels = .ok (meanNll O labels (fun b o => y.get [b, o])) := by
  unfold crossEntropy
  rw [hy]
  have h2 : ¬ ∃ c ∈ labels, ([labels.length, O] : List ℕ).getD 1 0 ≤ c := by
    rintro ⟨c, hc, h⟩
    have := hl c hc
    have h : O ≤ c := h
    omega
  rw [if_neg (by simp), if_neg h2]
  congr 1
  unfold meanNll
  congr 1
  rw [zipIdx_range_sum (fun b c => sampleLoss (scoreRow y b) c)]
  refine Finset.sum_congr rfl (fun b hb => ?_)
  have hb := Finset.mem_range.1 hb
  have hc : labels.getD b 0 < O := by
    rw [List.getD_eq_getElem?_getD, List.getElem?_eq_getElem hb]
    exact hl _ (List.getElem_mem _)
  rw [nll_eq _ hc, sampleLoss, scoreRow, hy]
  have e : ([labels.length, O] : List ℕ).getD 1 0 = O := rfl
  rw [e, List.map_map]
  congr 1
  · rw [List.getD_eq_getElem?_getD, List.getElem?_map, List.getElem?_range hc]
    rfl

theorem nll_deriv {O : ℕ} (s : ℝ → ℕ → ℝ) (v : ℕ → ℝ) (t₀ : ℝ) {y : ℕ} (hy : y < O) (h : ∀ o < O, HasDerivAt (fun t => s t o) (v o) t₀) :
    HasDerivAt (fun t => - Real.log (softmax O (s t) y)) (∑ o ∈ Finset.range O, (softmax O (s t₀) o - if o = y then 1 else 0) * v o) t₀ := by
  have e : (fun t => - Real.log (softmax O (s t) y)) = fun t => Real.log (∑ o' ∈ Finset.range O, Real.exp (s t o')) - s t y := by
    funext t; exact nll_eq _ hy
  rw [e]
  have h1 : HasDerivAt (fun t => ∑ o' ∈ Finset.range O, Real.exp (s t o')) (∑ o' ∈ Finset.range O, Real.exp (s t₀ o') * v o') t₀ :=
    HasDerivAt.fun_sum (fun o ho => (h o (Finset.mem_range.1 ho)).exp)
  have h2 := (h1.log (softmax_pos (s t₀) hy).ne').sub (h y hy)
  refine HasDerivAt.congr_deriv h2 ?_
  rw [Finset.sum_div]
  simp only [sub_mul, Finset.sum_sub_distrib]
  congr 1
  · refine Finset.sum_congr rfl (fun o _ => ?_)
    rw [softmax]; ring
  · simp [Finset.mem_range.2 hy, Finset.sum_ite_eq']

theorem label_lt {labels : List ℕ} {O b : ℕ} (hl : ∀ c ∈ labels, c < O) (hb : b < labels.length) : labels.getD b 0 < O := by
  rw [List.getD_eq_getElem?_getD, List.getElem?_eq_getElem hb]
  exact hl _ (List.getElem_mem _)

/-- C103, the gradient. Let the parameters and the input of an MPS move along differentiable curves, with the jet at `t₀` in the model `dm` and the input `dx`. The
loss computed by the training script for labels among the classes is, for every `t`, the mean negative log-likelihood of the labels; it is differentiable at `t₀`; and
its derivative is the mean over the batch of (softmax of the scores - indicator of the label) times the derivatives of the scores that the differentiated
forward pass gives. -/
theorem C103_gradient (k : ℕ) (ub : Bool) (t₀ : ℝ) (p : ℝ → Params ℝ) (m : ℝ → MPS ℝ) (h : ∀ t, IsMps k ub (p t) (m t)) (dp : Params (DualNumber ℝ))
    (dm : MPS (DualNumber ℝ)) (dh : IsMps k ub dp dm) (hy : ∀ t, SameHyper (m t) dm) (hp : ParamsFollow p dp t₀)
    (hD : dm.periodic = true ∨ 1 ≤ dm.bondDim) (hs : NoShortRegion dm.inputDim k) (x e : ℝ → Tensor ℝ) (dx de : Tensor (DualNumber ℝ))
    (hx : ∀ t, Embedded (m t) (x t) (e t)) (hdx : Embedded dm dx de) (he : TensorFollows e de t₀) (labels : List ℕ) (hB : de.shape.getD 0 0 = labels.length)
    (hl : ∀ c ∈ labels, c < dm.outputDim) (g : Option ℕ) (hg : BatchKnown k labels.length g) :
    ∃ (y : ℝ → Tensor ℝ) (L : ℝ → ℝ) (dy : Tensor (DualNumber ℝ)), (∀ t, ((m t).forward (x t) g).1 = .ok (y t)) ∧ (dm.forward dx g).1 = .ok dy ∧
      (∀ t, crossEntropy (y t) labels = .ok (L t)) ∧ (∀ t, L t = meanNll dm.outputDim labels (fun b o => (y t).get [b, o])) ∧
      HasDerivAt L (nllVelocity dm.outputDim labels (fun b o => (dy.get [b, o]).fst) (fun b o => (dy.get [b, o]).snd)) t₀ := by
  obtain ⟨y, dy, g1, g2, y1, y2, y3, y4⟩ := C84_mps_forward k ub t₀ p m h dp dm dh hy hp hD hs x e dx de hx hdx he labels.length hB g hg
  refine ⟨y, fun t => meanNll dm.outputDim labels (fun b o => (y t).get [b, o]), dy, fun t => by rw [y1 t], by rw [y2], ?_, fun _ => rfl, ?_⟩
  · intro t
    exact crossEntropy_eq (y t) labels dm.outputDim (by rw [y4.1 t, y3]) hl
  · unfold meanNll nllVelocity
    refine HasDerivAt.div_const (HasDerivAt.fun_sum (fun b hb => ?_)) _
    have hb := Finset.mem_range.1 hb
    have hf : ∀ o < dm.outputDim, Follows (fun t => (y t).get [b, o]) (dy.get [b, o]) t₀ :=
      fun o ho => y4.2 [b, o] (by rw [y3]; simp [InRange, hb, ho])
    have := nll_deriv (fun t o => (y t).get [b, o]) (fun o => (dy.get [b, o]).snd) t₀ (label_lt hl hb) (fun o ho => (hf o ho).2)
    refine HasDerivAt.congr_deriv this ?_
    have e1 : ∀ o < dm.outputDim, (y t₀).get [b, o] = (dy.get [b, o]).fst := fun o ho => (hf o ho).1
    refine Finset.sum_congr rfl (fun o ho => ?_)
    have ho := Finset.mem_range.1 ho
    have e2 : softmax dm.outputDim (fun o => (y t₀).get [b, o]) o = softmax dm.outputDim (fun o => (dy.get [b, o]).fst) o := by
      simp only [softmax]
      rw [e1 o ho, Finset.sum_congr rfl (fun o' ho' => congrArg Real.exp (e1 o' (Finset.mem_range.1 ho')))]
    rw [e2]

/-! ### convexity -/

/-- log-sum-exp is convex -/
theorem logSumExp_convex {O : ℕ} (hO : 0 < O) (a b : ℕ → ℝ) (l : ℝ) (h0 : 0 ≤ l) (h1 : l ≤ 1) :
    Real.log (∑ o ∈ Finset.range O, Real.exp ((1 - l) * a o + l * b o)) ≤
      (1 - l) * Real.log (∑ o ∈ Finset.range O, Real.exp (a o)) + l * Real.log (∑ o ∈ Finset.range O, Real.exp (b o)) := by
  have hA := softmax_pos a hO
  have hB := softmax_pos b hO
  have hC : 0 < ∑ o ∈ Finset.range O, Real.exp ((1 - l) * a o + l * b o) := softmax_pos (fun o => (1 - l) * a o + l * b o) hO
  set A := ∑ o ∈ Finset.range O, Real.exp (a o)
  set B := ∑ o ∈ Finset.range O, Real.exp (b o)
  rw [← Real.log_exp ((1 - l) * Real.log A + l * Real.log B)]
  refine Real.log_le_log hC ?_
  rw [← one_mul (Real.exp _), ← div_le_iff₀ (Real.exp_pos _), Finset.sum_div]
  have hsum : ∑ o ∈ Finset.range O, ((1 - l) * (Real.exp (a o) / A) + l * (Real.exp (b o) / B)) = 1 := by
    rw [Finset.sum_add_distrib, ← Finset.mul_sum, ← Finset.mul_sum, ← Finset.sum_div, ← Finset.sum_div, div_self hA.ne', div_self hB.ne']
    ring
  refine le_trans ?_ hsum.le
  refine Finset.sum_le_sum (fun o _ => ?_)
  have hc := convexOn_exp.2 (Set.mem_univ (a o - Real.log A)) (Set.mem_univ (b o - Real.log B)) (by linarith : 0 ≤ 1 - l) h0 (by ring)
  simp only [smul_eq_mul] at hc
  rw [Real.exp_sub, Real.exp_sub, Real.exp_log hA, Real.exp_log hB] at hc
  refine le_trans (le_of_eq ?_) hc
  rw [← Real.exp_sub]
  congr 1
  ring

theorem meanNll_convex (O : ℕ) (labels : List ℕ) (hl : ∀ c ∈ labels, c < O) (s s0 s1 : ℕ → ℕ → ℝ) (l : ℝ) (h0 : 0 ≤ l) (h1 : l ≤ 1)
    (hs : ∀ b < labels.length, ∀ o < O, s b o = (1 - l) * s0 b o + l * s1 b o) :
    meanNll O labels s ≤ (1 - l) * meanNll O labels s0 + l * meanNll O labels s1 := by
  unfold meanNll
  rw [← mul_div_assoc, ← mul_div_assoc, ← add_div]
  refine div_le_div_of_nonneg_right ?_ (Nat.cast_nonneg _)
  rw [Finset.mul_sum, Finset.mul_sum, ← Finset.sum_add_distrib]
  refine Finset.sum_le_sum (fun b hb => ?_)
  have hb := Finset.mem_range.1 hb
  have hc := label_lt hl hb
  rw [nll_eq _ hc, nll_eq _ hc, nll_eq _ hc, hs b hb _ hc]
  have := logSumExp_convex (by omega : 0 < O) (s0 b) (s1 b) l h0 h1
  rw [Finset.sum_congr rfl (fun o ho => by rw [← hs b hb o (Finset.mem_range.1 ho)])] at this
  linarith

/-- a function below its chord lies above its tangent -/
theorem tangent_below (L : ℝ → ℝ) (d : ℝ) (hL : ∀ l, 0 ≤ l → l ≤ 1 → L l ≤ (1 - l) * L 0 + l * L 1) (hd : HasDerivAt L d 0) : L 0 + d ≤ L 1 := by
  by_contra hlt
  have hlt := not_le.1 hlt
  have h1 := hd.tendsto_slope_zero_right
  have h2 : ∀ᶠ t in nhdsWithin (0 : ℝ) (Set.Ioi 0), t⁻¹ • (L (0 + t) - L 0) ≤ L 1 - L 0 := by
    filter_upwards [Ioc_mem_nhdsGT (show (0 : ℝ) < 1 by norm_num)] with t ht
    have := hL t ht.1.le ht.2
    rw [smul_eq_mul, zero_add, inv_mul_le_iff₀ ht.1]
    linarith
  have := le_of_tendsto h1 h2
  linarith

/-- C103, one pixel core. The training loss is a convex function of the core of any single pixel: at a mixture of two values of the core it is at most the mixture of
the losses; so the loss at any other value of the core is at least what the derivative in this direction promises, and a core whose derivatives vanish cannot be
improved alone. -/
theorem C103_pixel_core_convex (k : ℕ) (ub : Bool) (p : Params ℝ) (m : MPS ℝ) (h : IsMps k ub p m) (hD : m.periodic = true ∨ 1 ≤ m.bondDim)
    (hs : NoShortRegion m.inputDim k) (x e : Tensor ℝ) (he : Embedded m x e) (q : ℕ) (hq : q < m.inputDim) (labels : List ℕ)
    (hB : e.shape.getD 0 0 = labels.length) (hl : ∀ c ∈ labels, c < m.outputDim) (g : Option ℕ) (hg : BatchKnown k labels.length g)
    (T0 T1 : ℕ → ℕ → ℕ → ℝ) :
    ∃ (y : ℝ → Tensor ℝ) (L : ℝ → ℝ),
      (∀ t, ((withParams m k ub (setCore k q (fun l r f => (1 - t) * T0 l r f + t * T1 l r f) p)).forward x g).1 = .ok (y t)) ∧
      (∀ t, crossEntropy (y t) labels = .ok (L t)) ∧ (∀ t, 0 ≤ t → t ≤ 1 → L t ≤ (1 - t) * L 0 + t * L 1) ∧ ∀ d, HasDerivAt L d 0 → L 0 + d ≤ L 1 := by
  obtain ⟨c0, c, -, hc⟩ := C79_pixel_core k ub p m h hD hs x e he q hq g (hB ▸ hg)
  have hy := fun t : ℝ => hc (fun l r f => (1 - t) * T0 l r f + t * T1 l r f)
  choose y y1 y2 y3 using hy
  have hconv : ∀ t, 0 ≤ t → t ≤ 1 → meanNll m.outputDim labels (fun b o => (y t).get [b, o]) ≤
      (1 - t) * meanNll m.outputDim labels (fun b o => (y 0).get [b, o]) + t * meanNll m.outputDim labels (fun b o => (y 1).get [b, o]) := by
    intro t h0 h1
    refine meanNll_convex _ _ hl _ _ _ t h0 h1 (fun b hb o ho => ?_)
    rw [y3 t b (hB ▸ hb) o ho, y3 0 b (hB ▸ hb) o ho, y3 1 b (hB ▸ hb) o ho, mul_add, mul_add]
    have : ∀ (z : ℝ) (F : ℕ → ℕ → ℕ → ℝ), z * ∑ l ∈ Finset.range m.bondDim, ∑ r ∈ Finset.range m.bondDim, ∑ f ∈ Finset.range m.featureDim, F l r f =
        ∑ l ∈ Finset.range m.bondDim, ∑ r ∈ Finset.range m.bondDim, ∑ f ∈ Finset.range m.featureDim, z * F l r f := by
      intro z F; simp only [Finset.mul_sum]
    rw [this, this]
    have e2 : ∀ a b' c' d' : ℝ, a + b' + (c' + d') = a + c' + (b' + d') := by intros; ring
    rw [e2]
    congr 1
    · ring
    · simp only [← Finset.sum_add_distrib]
      refine Finset.sum_congr rfl (fun l _ => Finset.sum_congr rfl (fun r _ => Finset.sum_congr rfl (fun f _ => ?_)))
      ring
  refine ⟨y, fun t => meanNll m.outputDim labels (fun b o => (y t).get [b, o]), y1, ?_, hconv, fun d hd => tangent_below _ d hconv hd⟩
  intro t
  exact crossEntropy_eq (y t) labels m.outputDim (by rw [y2 t, hB]) hl

/-- C103, the output core. The training loss is a convex function of the output core. -/
theorem C103_output_core_convex (k : ℕ) (ub : Bool) (p : Params ℝ) (m : MPS ℝ) (h : IsMps k ub p m) (hD : m.periodic = true ∨ 1 ≤ m.bondDim)
    (hs : NoShortRegion m.inputDim k) (x e : Tensor ℝ) (he : Embedded m x e) (labels : List ℕ)
    (hB : e.shape.getD 0 0 = labels.length) (hl : ∀ c ∈ labels, c < m.outputDim) (g : Option ℕ) (hg : BatchKnown k labels.length g)
    (T0 T1 : ℕ → ℕ → ℕ → ℝ) :
    ∃ (y : ℝ → Tensor ℝ) (L : ℝ → ℝ),
      (∀ t, ((withParams m k ub (setOut (fun o l r => (1 - t) * T0 o l r + t * T1 o l r) p)).forward x g).1 = .ok (y t)) ∧
      (∀ t, crossEntropy (y t) labels = .ok (L t)) ∧ (∀ t, 0 ≤ t → t ≤ 1 → L t ≤ (1 - t) * L 0 + t * L 1) ∧ ∀ d, HasDerivAt L d 0 → L 0 + d ≤ L 1 := by
  obtain ⟨c, hc⟩ := C79_output_core k ub p m h hD hs x e he g (hB ▸ hg)
  have hy := fun t : ℝ => hc (fun o l r => (1 - t) * T0 o l r + t * T1 o l r)
  choose y y1 y2 y3 using hy
  have hconv : ∀ t, 0 ≤ t → t ≤ 1 → meanNll m.outputDim labels (fun b o => (y t).get [b, o]) ≤
      (1 - t) * meanNll m.outputDim labels (fun b o => (y 0).get [b, o]) + t * meanNll m.outputDim labels (fun b o => (y 1).get [b, o]) := by
    intro t h0 h1
    refine meanNll_convex _ _ hl _ _ _ t h0 h1 (fun b hb o ho => ?_)
    rw [y3 t b (hB ▸ hb) o ho, y3 0 b (hB ▸ hb) o ho, y3 1 b (hB ▸ hb) o ho]
    simp only [Finset.mul_sum, ← Finset.sum_add_distrib]
    refine Finset.sum_congr rfl (fun l _ => Finset.sum_congr rfl (fun r _ => ?_))
    ring
  refine ⟨y, fun t => meanNll m.outputDim labels (fun b o => (y t).get [b, o]), y1, ?_, hconv, fun d hd => tangent_below _ d hconv hd⟩
  intro t
  exact crossEntropy_eq (y t) labels m.outputDim (by rw [y2 t, hB]) hl

/-- The hypotheses of the convexity theorems are met: five pixels, three classes, bond dimension 2, the output at site 2, four labelled samples, both boundary
conditions. -/
example (A : ℕ → ℕ → ℕ → ℕ → ℝ) (C : ℕ → ℕ → ℕ → ℝ) (per : Bool) (x : Tensor ℝ) (hx : x.shape = [4, 5, 2]) (T0 T1 : ℕ → ℕ → ℕ → ℝ) :
    ∃ (y : ℝ → Tensor ℝ) (L : ℝ → ℝ),
      (∀ t, ((withParams (gaugeModel 2 A C per) 2 false (setCore 2 3 (fun l r f => (1 - t) * T0 l r f + t * T1 l r f) (plainParams 2 2 3 5 2 A C))).forward x none).1
        = .ok (y t)) ∧
      (∀ t, crossEntropy (y t) [2, 0, 1, 2] = .ok (L t)) ∧ L (1 / 2) ≤ (L 0 + L 1) / 2 := by
  obtain ⟨y, L, h1, h2, h3, -⟩ := C103_pixel_core_convex 2 false (plainParams 2 2 3 5 2 A C) (gaugeModel 2 A C per) (gauge_isMps _ _ _ _)
    (Or.inr (show 1 ≤ 2 by omega)) (by show NoShortRegion 5 2; unfold NoShortRegion; omega) x x
    ⟨x, rfl, by
      unfold MPS.embedInput
      simp [Tensor.ndim, hx, gaugeModel, withParams, assert]
      rfl⟩ 3 (show 3 < 5 by omega) [2, 0, 1, 2] (by rw [hx]; rfl) (by show ∀ c ∈ [2, 0, 1, 2], c < 3; decide) none (Or.inl (by omega)) T0 T1
  refine ⟨y, L, h1, h2, ?_⟩
  have := h3 (1 / 2) (by norm_num) (by norm_num)
  linarith

/-- The hypotheses of `C103_gradient` are met: arbitrary differentiable curves of the cores of the same model and of four samples. -/
example (t₀ : ℝ) (A : ℝ → ℕ → ℕ → ℕ → ℕ → ℝ) (C : ℝ → ℕ → ℕ → ℕ → ℝ) (dA : ℕ → ℕ → ℕ → ℕ → DualNumber ℝ) (dC : ℕ → ℕ → ℕ → DualNumber ℝ)
    (hA : ∀ i l r f, Follows (fun t => A t i l r f) (dA i l r f) t₀) (hC : ∀ o l r, Follows (fun t => C t o l r) (dC o l r) t₀) (per : Bool)
    (x : ℝ → Tensor ℝ) (dx : Tensor (DualNumber ℝ)) (hx : dx.shape = [4, 5, 2]) (hf : TensorFollows x dx t₀) :
    ∃ (L : ℝ → ℝ) (dL : ℝ), (∀ t, ∃ y, ((gaugeModel 2 (A t) (C t) per).forward (x t) none).1 = .ok y ∧ crossEntropy y [2, 0, 1, 2] = .ok (L t)) ∧
      HasDerivAt L dL t₀ := by
  obtain ⟨y, L, dy, h1, h2, h3, h4, h5⟩ := C103_gradient 2 false t₀ (fun t => plainParams 2 2 3 5 2 (A t) (C t)) (fun t => gaugeModel 2 (A t) (C t) per)
    (fun t => gauge_isMps _ _ _ _) (plainParams 2 2 3 5 2 dA dC) (gaugeModel 2 dA dC per) (gauge_isMps _ _ _ _) (fun t => ⟨rfl, rfl, rfl, rfl, rfl⟩)
    ⟨⟨fun t => rfl, fun idx _ => hA _ _ _ _⟩, ⟨fun t => rfl, fun idx _ => follows_zero t₀⟩, ⟨fun t => rfl, fun idx _ => hC _ _ _⟩,
      ⟨fun t => rfl, fun idx _ => hA _ _ _ _⟩, ⟨fun t => rfl, fun idx _ => follows_zero t₀⟩⟩
    (Or.inr (show 1 ≤ 2 by omega)) (by show NoShortRegion 5 2; unfold NoShortRegion; omega) x x dx dx
    (fun t => ⟨x t, rfl, by
      unfold MPS.embedInput
      simp [Tensor.ndim, hf.1 t, hx, gaugeModel, withParams, assert]
      rfl⟩)
    ⟨dx, rfl, by
      unfold MPS.embedInput
      simp [Tensor.ndim, hx, gaugeModel, withParams, assert]
      rfl⟩ hf [2, 0, 1, 2] (by rw [hx]; rfl) (by show ∀ c ∈ [2, 0, 1, 2], c < 3; decide) none (Or.inl (by omega))
  exact ⟨L, _, fun t => ⟨y t, h1 t, h3 t⟩, h5⟩

end TorchMPS
