import Verif.Spec.Balance
import Verif.Props.TrainGrad
import Verif.Props.TiTrain
import Verif.Props.ProbMps2
/-
C114: gradients along the cores themselves; norms of the cores during training.
-/
namespace TorchMPS
open Spec

/-- Filling in its own core changes no output. -/
theorem value_ownCore (D F n k : ℕ) (ub per : Bool) (p : Params ℝ) (q : ℕ) (e : Tensor ℝ) (b o : ℕ) :
    mpsValue D F n k ub per (setCore k q (p.core k q) p) e b o = mpsValue D F n k ub per p e b o := by
  have hc : (setCore k q (p.core k q) p).core k = p.core k := by
    funext i l r f
    rw [setCore_core]
    split_ifs with h
    · rw [h]
    · rfl
  have hp : pixelMat D F k ub (setCore k q (p.core k q) p) e b = pixelMat D F k ub p e b := funext fun i => by
    unfold pixelMat
    rw [hc]
    congr 1
    funext l r
    exact setCore_bias _ _ _ _ _ _ _ _
  have hm : mpsMats D F n k ub (setCore k q (p.core k q) p) e b o = mpsMats D F n k ub p e b o := by
    unfold mpsMats pixelMats outMat
    rw [setCore_out]
    simp only [hp]
  unfold mpsValue
  rw [hm]

theorem withParams_isMps (k : ℕ) (ub : Bool) (p : Params ℝ) (m : MPS ℝ) (h : IsMps k ub p m) : IsMps k ub p (withParams m k ub p) :=
  ⟨h.label, rfl, h.left, h.leftBias, h.out, h.right, h.rightBias⟩

/-- Without bias matrices, multiplying the core of one pixel by `c` multiplies the outputs by `c`. -/
theorem scaled_core (k : ℕ) (p : Params ℝ) (m : MPS ℝ) (h : IsMps k false p m) (hD : m.periodic = true ∨ 1 ≤ m.bondDim) (hs : NoShortRegion m.inputDim k) (x e : Tensor ℝ)
    (he : Embedded m x e) (q : ℕ) (hq : q < m.inputDim) (g : Option ℕ) (hg : BatchKnown k (e.shape.getD 0 0) g) (t : ℝ) :
    ∃ y, ((withParams m k false (setCore k q (fun l r f => p.core k q l r f + t * p.core k q l r f) p)).forward x g).1 = .ok y ∧ y.shape = [e.shape.getD 0 0, m.outputDim] ∧
      ∀ b < e.shape.getD 0 0, ∀ o < m.outputDim, y.get [b, o] = (1 + t) * mpsValue m.bondDim m.featureDim m.inputDim k false m.periodic p e b o := by
  obtain ⟨c0, c, h0, hc⟩ := C79_pixel_core k false p m h hD hs x e he q hq g hg
  obtain ⟨y, y1, y2, y3⟩ := hc (fun l r f => p.core k q l r f + t * p.core k q l r f)
  obtain ⟨z, z1, z2, z3⟩ := hc (p.core k q)
  obtain ⟨w, g', w1, w2, w3⟩ := mps_forward k false _ _ (setCore_isMps k q (p.core k q) p false m h) hD hs x e (embedded_withParams m k false _ x e he) _ rfl g hg
  rw [w1] at z1
  cases z1
  refine ⟨y, y1, y2, fun b hb o ho => ?_⟩
  have : z.get [b, o] = mpsValue m.bondDim m.featureDim m.inputDim k false m.periodic (setCore k q (p.core k q) p) e b o := w3 b hb o ho
  rw [value_ownCore] at this
  rw [← this, z3 b hb o ho, y3 b hb o ho, h0 rfl b o, zero_add, zero_add, Finset.mul_sum]
  refine Finset.sum_congr rfl fun l _ => ?_
  rw [Finset.mul_sum]
  refine Finset.sum_congr rfl fun r _ => ?_
  rw [Finset.mul_sum]
  refine Finset.sum_congr rfl fun f _ => ?_
  ring

/-- Multiplying the output core by `c` multiplies the outputs by `c` (with or without bias matrices). -/
theorem scaled_out (k : ℕ) (ub : Bool) (p : Params ℝ) (m : MPS ℝ) (h : IsMps k ub p m) (hD : m.periodic = true ∨ 1 ≤ m.bondDim) (hs : NoShortRegion m.inputDim k) (x e : Tensor ℝ)
    (he : Embedded m x e) (g : Option ℕ) (hg : BatchKnown k (e.shape.getD 0 0) g) (t : ℝ) :
    ∃ y, ((withParams m k ub (setOut (fun o l r => outCore p o l r + t * outCore p o l r) p)).forward x g).1 = .ok y ∧ y.shape = [e.shape.getD 0 0, m.outputDim] ∧
      ∀ b < e.shape.getD 0 0, ∀ o < m.outputDim, y.get [b, o] = (1 + t) * mpsValue m.bondDim m.featureDim m.inputDim k ub m.periodic p e b o := by
  obtain ⟨c, hc⟩ := C79_output_core k ub p m h hD hs x e he g hg
  obtain ⟨y, y1, y2, y3⟩ := hc (fun o l r => outCore p o l r + t * outCore p o l r)
  obtain ⟨z, z1, z2, z3⟩ := hc (outCore p)
  obtain ⟨w, g', w1, w2, w3⟩ := mps_forward k ub _ _ (setOut_isMps k (outCore p) p ub m h) hD hs x e (embedded_withParams m k ub _ x e he) _ rfl g hg
  rw [w1] at z1
  cases z1
  refine ⟨y, y1, y2, fun b hb o ho => ?_⟩
  have : z.get [b, o] = mpsValue m.bondDim m.featureDim m.inputDim k ub m.periodic p e b o := w3 b hb o ho
  rw [← this, z3 b hb o ho, y3 b hb o ho, Finset.mul_sum]
  refine Finset.sum_congr rfl fun l _ => ?_
  rw [Finset.mul_sum]
  refine Finset.sum_congr rfl fun r _ => ?_
  ring

theorem eqv_of_values {B O : ℕ} {y y' : Tensor ℝ} (h : y.shape = [B, O]) (h' : y'.shape = [B, O]) (he : ∀ b < B, ∀ o < O, y.get [b, o] = y'.get [b, o]) : y.Eqv y' := by
  refine ⟨h.trans h'.symm, fun idx hidx => ?_⟩
  rw [h] at hidx
  rcases idx with _ | ⟨b, _ | ⟨o, _ | ⟨c, t⟩⟩⟩
  · simp [InRange] at hidx
  · simp [InRange] at hidx
  · simp only [InRange, List.forall₂_cons, List.forall₂_nil_right_iff, and_true] at hidx
    exact he b hidx.1 o hidx.2
  · simp [InRange] at hidx

/-- C114, balance. For an MPS without bias matrices and any function of its outputs as loss, the gradients with respect to the cores of any two pixels, multiplied entrywise with these cores and
summed, give the same number, which is also that of the output core. -/
theorem C114_balance (k : ℕ) (p : Params ℝ) (m : MPS ℝ) (h : IsMps k false p m) (hD : m.periodic = true ∨ 1 ≤ m.bondDim) (hs : NoShortRegion m.inputDim k) (x e : Tensor ℝ)
    (he : Embedded m x e) (g : Option ℕ) (hg : BatchKnown k (e.shape.getD 0 0) g) (L : Params ℝ → ℝ) (hL : OfOutputs m k false x g L) (q : ℕ) (hq : q < m.inputDim) (G Go : ℕ → ℕ → ℕ → ℝ)
    (hG : IsCoreGrad m.bondDim m.featureDim k q L p G) (hGo : IsOutGrad m.outputDim m.bondDim L p Go) :
    inner3 m.bondDim m.bondDim m.featureDim G (p.core k q) = inner3 m.outputDim m.bondDim m.bondDim Go (outCore p) := by
  refine (hG (p.core k q)).unique ?_
  refine (hGo (outCore p)).congr_of_eventuallyEq (Filter.Eventually.of_forall fun t => ?_)
  obtain ⟨y, y1, y2, y3⟩ := scaled_core k p m h hD hs x e he q hq g hg t
  obtain ⟨z, z1, z2, z3⟩ := scaled_out k false p m h hD hs x e he g hg t
  refine hL _ _ y z (setCore_isMps k q _ p false m h) (setOut_isMps k _ p false m h) y1 z1 (eqv_of_values y2 z2 fun b hb o ho => ?_)
  rw [y3 b hb o ho, z3 b hb o ho]

theorem sq_step (a b c : ℕ) (G T : ℕ → ℕ → ℕ → ℝ) (η : ℝ) :
    sq3 a b c (fun i j l => T i j l - η * G i j l) = sq3 a b c T - 2 * η * inner3 a b c G T + η ^ 2 * sq3 a b c G := by
  unfold sq3 inner3
  simp only [Finset.mul_sum, ← Finset.sum_add_distrib, ← Finset.sum_sub_distrib]
  refine Finset.sum_congr rfl fun i _ => Finset.sum_congr rfl fun j _ => Finset.sum_congr rfl fun l _ => ?_
  ring

/-- C114, gradient descent. A step of gradient descent with rate `η` changes the difference of the squared norms of the core of a pixel and the output core by `η²` times the difference of the squared norms of
the gradients only: there is no contribution of first order in `η`. -/
theorem C114_descent (k : ℕ) (p : Params ℝ) (m : MPS ℝ) (h : IsMps k false p m) (hD : m.periodic = true ∨ 1 ≤ m.bondDim) (hs : NoShortRegion m.inputDim k) (x e : Tensor ℝ)
    (he : Embedded m x e) (g : Option ℕ) (hg : BatchKnown k (e.shape.getD 0 0) g) (L : Params ℝ → ℝ) (hL : OfOutputs m k false x g L) (q : ℕ) (hq : q < m.inputDim) (G Go : ℕ → ℕ → ℕ → ℝ)
    (hG : IsCoreGrad m.bondDim m.featureDim k q L p G) (hGo : IsOutGrad m.outputDim m.bondDim L p Go) (η : ℝ) :
    sq3 m.bondDim m.bondDim m.featureDim (fun l r f => p.core k q l r f - η * G l r f) - sq3 m.outputDim m.bondDim m.bondDim (fun o l r => outCore p o l r - η * Go o l r) =
      sq3 m.bondDim m.bondDim m.featureDim (p.core k q) - sq3 m.outputDim m.bondDim m.bondDim (outCore p) +
        η ^ 2 * (sq3 m.bondDim m.bondDim m.featureDim G - sq3 m.outputDim m.bondDim m.bondDim Go) := by
  have := C114_balance k p m h hD hs x e he g hg L hL q hq G Go hG hGo
  rw [sq_step, sq_step, this]
  ring

/-- C114, weight decay. Where the gradient of the loss plus `lam` times the parameters (weight decay, or a squared-norm penalty) vanishes, with `lam ≠ 0`, the core of every pixel has the norm of the output core. -/
theorem C114_weight_decay (k : ℕ) (p : Params ℝ) (m : MPS ℝ) (h : IsMps k false p m) (hD : m.periodic = true ∨ 1 ≤ m.bondDim) (hs : NoShortRegion m.inputDim k) (x e : Tensor ℝ)
    (he : Embedded m x e) (g : Option ℕ) (hg : BatchKnown k (e.shape.getD 0 0) g) (L : Params ℝ → ℝ) (hL : OfOutputs m k false x g L) (q : ℕ) (hq : q < m.inputDim) (G Go : ℕ → ℕ → ℕ → ℝ)
    (hG : IsCoreGrad m.bondDim m.featureDim k q L p G) (hGo : IsOutGrad m.outputDim m.bondDim L p Go) (lam : ℝ) (hlam : lam ≠ 0)
    (h0 : ∀ l < m.bondDim, ∀ r < m.bondDim, ∀ f < m.featureDim, G l r f + lam * p.core k q l r f = 0)
    (h1 : ∀ o < m.outputDim, ∀ l < m.bondDim, ∀ r < m.bondDim, Go o l r + lam * outCore p o l r = 0) :
    sq3 m.bondDim m.bondDim m.featureDim (p.core k q) = sq3 m.outputDim m.bondDim m.bondDim (outCore p) := by
  have := C114_balance k p m h hD hs x e he g hg L hL q hq G Go hG hGo
  have key : ∀ (a b c : ℕ) (G T : ℕ → ℕ → ℕ → ℝ), (∀ i < a, ∀ j < b, ∀ l < c, G i j l + lam * T i j l = 0) → inner3 a b c G T = - lam * sq3 a b c T := by
    intro a b c G T hz
    unfold inner3 sq3
    simp only [Finset.mul_sum]
    refine Finset.sum_congr rfl fun i hi => Finset.sum_congr rfl fun j hj => Finset.sum_congr rfl fun l hl => ?_
    have := hz i (Finset.mem_range.1 hi) j (Finset.mem_range.1 hj) l (Finset.mem_range.1 hl)
    rw [eq_neg_of_add_eq_zero_left this]
    ring
  rw [key _ _ _ _ _ h0, key _ _ _ _ _ h1] at this
  exact mul_left_cancel₀ (neg_ne_zero.2 hlam) this

/-! ### the loss of the training script is such a loss -/

/-- the derivative of the loss as a linear map of the velocities of the scores -/
noncomputable def nllLin (O : ℕ) (labels : List ℕ) (s : ℕ → ℕ → ℝ) : (ℕ → ℕ → ℝ) →ₗ[ℝ] ℝ where
  toFun v := nllVelocity O labels s v
  map_add' v w := by
    unfold nllVelocity
    rw [← add_div, ← Finset.sum_add_distrib]
    congr 1
    refine Finset.sum_congr rfl fun b _ => ?_
    rw [← Finset.sum_add_distrib]
    refine Finset.sum_congr rfl fun o _ => ?_
    simp only [Pi.add_apply]
    ring
  map_smul' c v := by
    unfold nllVelocity
    simp only [Pi.smul_apply, smul_eq_mul, RingHom.id_apply]
    rw [← mul_div_assoc, Finset.mul_sum]
    congr 1
    refine Finset.sum_congr rfl fun b _ => ?_
    rw [Finset.mul_sum]
    refine Finset.sum_congr rfl fun o _ => ?_
    ring

theorem meanNll_line {O : ℕ} {labels : List ℕ} (hl : ∀ c ∈ labels, c < O) (A C : ℕ → ℕ → ℝ) : HasDerivAt (fun t : ℝ => meanNll O labels (fun b o => A b o + t * C b o)) (nllVelocity O labels A C) 0 := by
  unfold meanNll nllVelocity
  refine HasDerivAt.div_const (HasDerivAt.fun_sum fun b hb => ?_) _
  have hb := Finset.mem_range.1 hb
  refine HasDerivAt.congr_deriv (nll_deriv (fun t o => A b o + t * C b o) (C b) 0 (label_lt hl hb) fun o _ => ?_) ?_
  · have := ((hasDerivAt_id (0 : ℝ)).mul_const (C b o)).const_add (A b o)
    simpa using this
  · simp

theorem nll_sum3 (O : ℕ) (labels : List ℕ) (s : ℕ → ℕ → ℝ) (a b c : ℕ) (w : ℕ → ℕ → ℕ → ℕ → ℕ → ℝ) (T : ℕ → ℕ → ℕ → ℝ) :
    nllVelocity O labels s (fun i o => ∑ l ∈ Finset.range a, ∑ r ∈ Finset.range b, ∑ f ∈ Finset.range c, w i o l r f * T l r f) =
      inner3 a b c (fun l r f => nllVelocity O labels s (fun i o => w i o l r f)) T := by
  have e : (fun i o => ∑ l ∈ Finset.range a, ∑ r ∈ Finset.range b, ∑ f ∈ Finset.range c, w i o l r f * T l r f) =
      ∑ l ∈ Finset.range a, ∑ r ∈ Finset.range b, ∑ f ∈ Finset.range c, T l r f • (fun i o => w i o l r f) := by
    funext i o
    simp only [Finset.sum_apply, Pi.smul_apply, smul_eq_mul]
    refine Finset.sum_congr rfl fun l _ => Finset.sum_congr rfl fun r _ => Finset.sum_congr rfl fun f _ => ?_
    ring
  rw [e]
  show nllLin O labels s _ = _
  simp only [map_sum, map_smul, smul_eq_mul]
  unfold inner3
  refine Finset.sum_congr rfl fun l _ => Finset.sum_congr rfl fun r _ => Finset.sum_congr rfl fun f _ => ?_
  rw [mul_comm]
  rfl

theorem meanNll_congr {O : ℕ} {labels : List ℕ} (hl : ∀ c ∈ labels, c < O) {s s' : ℕ → ℕ → ℝ} (h : ∀ b < labels.length, ∀ o < O, s b o = s' b o) : meanNll O labels s = meanNll O labels s' := by
  unfold meanNll
  congr 1
  refine Finset.sum_congr rfl fun b hb => ?_
  have hb := Finset.mem_range.1 hb
  simp only [softmax]
  rw [h b hb _ (label_lt hl hb), Finset.sum_congr rfl fun o ho => by rw [h b hb o (Finset.mem_range.1 ho)]]

/-- C114: the loss of the training script is a function of the outputs in the sense of the theorems above, and has gradients with respect to every core, for all parameters. -/
theorem C114_cross_entropy (k : ℕ) (p : Params ℝ) (m : MPS ℝ) (h : IsMps k false p m) (hD : m.periodic = true ∨ 1 ≤ m.bondDim) (hs : NoShortRegion m.inputDim k) (x e : Tensor ℝ)
    (he : Embedded m x e) (g : Option ℕ) (labels : List ℕ) (hB : e.shape.getD 0 0 = labels.length) (hl : ∀ c ∈ labels, c < m.outputDim) (hg : BatchKnown k labels.length g) :
    ∃ L : Params ℝ → ℝ, (∀ p' y, IsMps k false p' (withParams m k false p') → ((withParams m k false p').forward x g).1 = .ok y → crossEntropy y labels = .ok (L p')) ∧ OfOutputs m k false x g L ∧
      (∀ q < m.inputDim, ∃ G, IsCoreGrad m.bondDim m.featureDim k q L p G) ∧ ∃ Go, IsOutGrad m.outputDim m.bondDim L p Go := by
  have hg' : BatchKnown k (e.shape.getD 0 0) g := hB ▸ hg
  let L : Params ℝ → ℝ := fun p' => meanNll m.outputDim labels (fun b o => mpsValue m.bondDim m.featureDim m.inputDim k false m.periodic p' e b o)
  have hL : ∀ p' y, IsMps k false p' (withParams m k false p') → ((withParams m k false p').forward x g).1 = .ok y →
      y.shape = [labels.length, m.outputDim] ∧ L p' = meanNll m.outputDim labels (fun b o => y.get [b, o]) := by
    intro p' y h' hy
    obtain ⟨w, g', w1, w2, w3⟩ := mps_forward k false p' _ h' hD hs x e (embedded_withParams m k false _ x e he) _ hB g hg
    rw [w1] at hy
    cases hy
    exact ⟨w2, meanNll_congr hl fun b hb o ho => (w3 b hb o ho).symm⟩
  refine ⟨L, fun p' y h' hy => ?_, ?_, ?_, ?_⟩
  · rw [(hL p' y h' hy).2]
    exact crossEntropy_eq y labels m.outputDim (hL p' y h' hy).1 hl
  · intro p1 p2 y1 y2 h1 h2 e1 e2 hy
    rw [(hL p1 y1 h1 e1).2, (hL p2 y2 h2 e2).2]
    refine meanNll_congr hl fun b hb o ho => hy.2 [b, o] ?_
    rw [(hL p1 y1 h1 e1).1]
    simp [InRange, hb, ho]
  · intro q hq
    obtain ⟨c0, c, h0, hc⟩ := C79_pixel_core k false p m h hD hs x e he q hq g hg'
    refine ⟨fun l r f => nllVelocity m.outputDim labels (fun b o => ∑ l ∈ Finset.range m.bondDim, ∑ r ∈ Finset.range m.bondDim, ∑ f ∈ Finset.range m.featureDim, c b o l r f * p.core k q l r f)
      (fun b o => c b o l r f), fun T => ?_⟩
    rw [← nll_sum3]
    refine (meanNll_line hl _ _).congr_of_eventuallyEq (Filter.Eventually.of_forall fun t => ?_)
    obtain ⟨y, y1, y2, y3⟩ := hc (fun l r f => p.core k q l r f + t * T l r f)
    show L _ = _
    rw [(hL _ y (setCore_isMps k q _ p false m h) y1).2]
    refine meanNll_congr hl fun b hb o ho => ?_
    rw [y3 b (hB ▸ hb) o ho, h0 rfl, zero_add]
    simp only [mul_add, Finset.sum_add_distrib, Finset.mul_sum]
    congr 1
    refine Finset.sum_congr rfl fun l _ => Finset.sum_congr rfl fun r _ => Finset.sum_congr rfl fun f _ => ?_
    ring
  · obtain ⟨c, hc⟩ := C79_output_core k false p m h hD hs x e he g hg'
    refine ⟨fun o' l r => nllVelocity m.outputDim labels (fun b o => ∑ l ∈ Finset.range m.bondDim, ∑ r ∈ Finset.range m.bondDim, c b l r * outCore p o l r)
      (fun b o => if o' = o then c b l r else 0), fun T => ?_⟩
    rw [← nll_sum3 _ _ _ _ _ _ (fun b o o' l r => if o' = o then c b l r else 0)]
    refine HasDerivAt.congr_of_eventuallyEq (HasDerivAt.congr_deriv (meanNll_line hl (fun b o => ∑ l ∈ Finset.range m.bondDim, ∑ r ∈ Finset.range m.bondDim, c b l r * outCore p o l r)
      (fun b o => ∑ l ∈ Finset.range m.bondDim, ∑ r ∈ Finset.range m.bondDim, c b l r * T o l r)) ?_)
      (Filter.Eventually.of_forall fun t => ?_)
    · refine nllVelocity_congr (fun _ _ _ _ => rfl) fun b _ o ho => ?_
      refine Eq.symm (Eq.trans (Finset.sum_eq_single o ?_ ?_) ?_)
      · intro o' _ hne
        simp [hne]
      · intro hne
        exact absurd (Finset.mem_range.2 ho) hne
      · simp
    · obtain ⟨y, y1, y2, y3⟩ := hc (fun o l r => outCore p o l r + t * T o l r)
      show L _ = _
      rw [(hL _ y (setOut_isMps k _ p false m h) y1).2]
      refine meanNll_congr hl fun b hb o ho => ?_
      rw [y3 b (hB ▸ hb) o ho]
      simp only [mul_add, Finset.sum_add_distrib, Finset.mul_sum]
      congr 1
      refine Finset.sum_congr rfl fun l _ => Finset.sum_congr rfl fun r _ => ?_
      ring

/-! ### TI_MPS -/

theorem tiState_scaleInit (m : TiMps ℝ) (c : ℝ) (x : ℕ → ℕ → ℝ) (n r : ℕ) : tiState (setInit m (fun l => c * m.initVec.get [l])) x n r = c * tiState m x n r := by
  induction n generalizing r with
  | zero => rfl
  | succ n ih =>
    simp only [tiState, ih]
    rw [Finset.mul_sum]
    refine Finset.sum_congr rfl fun l _ => ?_
    simp only [setInit, tiBiasAt]
    ring

theorem tiState_scaleCore (m : TiMps ℝ) (hb : ∀ l r, tiBiasAt m l r = 0) (c : ℝ) (x : ℕ → ℕ → ℝ) (n r : ℕ) :
    tiState (setTiCore m (fun l r f => c * m.core.get [l, r, f])) x n r = c ^ n * tiState m x n r := by
  induction n generalizing r with
  | zero => simp only [pow_zero, one_mul]; rfl
  | succ n ih =>
    simp only [tiState, ih]
    rw [Finset.mul_sum]
    refine Finset.sum_congr rfl fun l _ => ?_
    have e : tiBiasAt (setTiCore m (fun l r f => c * m.core.get [l, r, f])) l r = 0 := hb l r
    rw [e, hb, add_zero, add_zero]
    simp only [setTiCore, List.getD_cons_zero, List.getD_cons_succ, Finset.mul_sum]
    refine Finset.sum_congr rfl fun f _ => ?_
    ring

theorem setTiCore_isTi {m : TiMps ℝ} (h : IsTi m) (C : ℕ → ℕ → ℕ → ℝ) : IsTi (setTiCore m C) := ⟨rfl, h.initVec, h.termMat, h.bias, h.fixed⟩

theorem setTiCore_accepts {m : TiMps ℝ} {B n : ℕ} {inp : TiInput ℝ} (h : TiAccepts m B n inp) (C : ℕ → ℕ → ℕ → ℝ) : TiAccepts (setTiCore m C) B n inp := by
  cases inp <;> exact h

theorem setTiCore_entry (m : TiMps ℝ) (inp : TiInput ℝ) (C : ℕ → ℕ → ℕ → ℝ) (b : ℕ) : tiEntry (setTiCore m C) inp b = tiEntry m inp b := by
  funext i f
  cases inp <;> rfl

/-- two models whose outputs are the same have the same loss -/
theorem ti_same_loss (O : ℕ) (m m' : TiMps ℝ) (h : IsTi m) (h' : IsTi m') (hO : m.outputDim = O) (hO' : m'.outputDim = O) (inp : TiInput ℝ) (B n : ℕ) (hn : 1 ≤ n) (hi : TiAccepts m B n inp) (hi' : TiAccepts m' B n inp)
    (g : Option ℕ) (L : TiMps ℝ → ℝ) (hL : TiOfOutputs inp g L) (hv : ∀ b o, tiValue m n (tiEntry m inp b) o = tiValue m' n (tiEntry m' inp b) o) : L m = L m' := by
  obtain ⟨y, y1, y2, y3⟩ := C66_value m h inp B n hi hn g
  obtain ⟨z, z1, z2, z3⟩ := C66_value m' h' inp B n hi' hn g
  rw [hO] at y2
  rw [hO'] at z2
  refine hL m m' y z (by rw [y1]) (by rw [z1]) (eqv_of_values y2 z2 fun b hb o ho => ?_)
  rw [y3 b hb o (hO ▸ ho), z3 b hb o (hO' ▸ ho), hv]

/-- C114, TI_MPS: for any function of the outputs as loss, the gradient with respect to the initial vector times this vector is the gradient with respect to the terminal matrix times that matrix (with or without
bias). -/
theorem C114_ti_ends (m : TiMps ℝ) (h : IsTi m) (inp : TiInput ℝ) (B n : ℕ) (hn : 1 ≤ n) (hi : TiAccepts m B n inp) (g : Option ℕ) (L : TiMps ℝ → ℝ) (hL : TiOfOutputs inp g L)
    (Gi : ℕ → ℝ) (Gt : ℕ → ℕ → ℝ) (hGi : IsInitGrad L m Gi) (hGt : IsTermGrad L m Gt) :
    ∑ l ∈ Finset.range m.bondDim, Gi l * m.initVec.get [l] = ∑ l ∈ Finset.range m.bondDim, ∑ o ∈ Finset.range m.outputDim, Gt l o * m.termMat.get [l, o] := by
  refine (hGi fun l => m.initVec.get [l]).unique ((hGt fun l o => m.termMat.get [l, o]).congr_of_eventuallyEq (Filter.Eventually.of_forall fun t => ?_))
  refine ti_same_loss m.outputDim _ _ (setInit_isTi h _) (setTerm_isTi h _) rfl rfl inp B n hn (setInit_accepts hi _) (setTerm_accepts hi _) g L hL fun b o => ?_
  have e : (fun l => m.initVec.get [l] + t * m.initVec.get [l]) = fun l => (1 + t) * m.initVec.get [l] := by funext l; ring
  rw [setInit_entry, setTerm_entry, e, tiValue, tiValue]
  refine Finset.sum_congr rfl fun l _ => ?_
  rw [tiState_scaleInit, tiState_setTerm]
  simp only [setInit, setTerm, List.getD_cons_zero, List.getD_cons_succ]
  ring

/-- C114, TI_MPS: for inputs of `n` steps and no bias, the gradient with respect to the shared core times the core is `n` times that with respect to the initial vector times this vector. -/
theorem C114_ti_core (m : TiMps ℝ) (h : IsTi m) (hb : m.useBias = false) (inp : TiInput ℝ) (B n : ℕ) (hn : 1 ≤ n) (hi : TiAccepts m B n inp) (g : Option ℕ) (L : TiMps ℝ → ℝ) (hL : TiOfOutputs inp g L)
    (Gi : ℕ → ℝ) (Gc : ℕ → ℕ → ℕ → ℝ) (hGi : IsInitGrad L m Gi) (hGc : IsTiCoreGrad L m Gc) :
    inner3 m.bondDim m.bondDim m.featureDim Gc (fun l r f => m.core.get [l, r, f]) = n * ∑ l ∈ Finset.range m.bondDim, Gi l * m.initVec.get [l] := by
  have hz : ∀ l r, tiBiasAt m l r = 0 := fun l r => by
    unfold tiBiasAt
    simp [hb]
  have hpow : HasDerivAt (fun t : ℝ => (1 + t) ^ n - 1) (n : ℝ) 0 := by
    have := ((hasDerivAt_id (0 : ℝ)).const_add 1).pow n
    have := this.sub_const 1
    refine HasDerivAt.congr_deriv (f := fun t : ℝ => (1 + t) ^ n - 1) this ?_
    simp
  have h1 := hGi fun l => m.initVec.get [l]
  have h0 : (fun t : ℝ => (1 + t) ^ n - 1) 0 = 0 := by simp
  have h2 := HasDerivAt.comp (0 : ℝ) (h0.symm ▸ h1) hpow
  rw [mul_comm] at h2
  refine (hGc fun l r f => m.core.get [l, r, f]).unique (h2.congr_of_eventuallyEq (Filter.Eventually.of_forall fun t => ?_))
  refine ti_same_loss m.outputDim _ _ (setTiCore_isTi h _) (setInit_isTi h _) rfl rfl inp B n hn (setTiCore_accepts hi _) (setInit_accepts hi _) g L hL fun b o => ?_
  have e : (fun l => m.initVec.get [l] + ((1 + t) ^ n - 1) * m.initVec.get [l]) = fun l => (1 + t) ^ n * m.initVec.get [l] := by funext l; ring
  have e' : (fun l r f => m.core.get [l, r, f] + t * m.core.get [l, r, f]) = fun l r f => (1 + t) * m.core.get [l, r, f] := by funext l r f; ring
  rw [setInit_entry, setTiCore_entry, e, e', tiValue, tiValue]
  refine Finset.sum_congr rfl fun l _ => ?_
  rw [tiState_scaleInit, tiState_scaleCore m hz]
  rfl

/-! ### probabilistic models -/

theorem gauge_moved (m : ProbMPS ℝ) (n d D : ℕ) (hb : m.bias = none) (t : ℝ) :
    GaugeOf m (withCoreTensor m (movedTensor m.core m.core t)) n d D (fun _ => 1 + t) 1 1 (fun _ => 1) := by
  refine ⟨?_, ?_, ?_, ?_⟩
  · intro s _ k _
    ext i j
    simp only [coreMat, withCoreTensor, movedTensor, inv_one, Units.val_one, one_mul, mul_one, Matrix.smul_apply, smul_eq_mul, Matrix.of_apply]
    by_cases hl : m.core.shape.length = 3
    · simp only [hl, if_true]
      ring
    · simp only [hl, if_false]
      ring
  · intro s _
    simp [biasMat, withCoreTensor, hb]
  · simp [withCoreTensor]
  · simp [withCoreTensor]

theorem mapM_same {A C : Type} {f f' : A → Option C} (l : List A) (h : ∀ b ∈ l, f b = f' b) : l.mapM f = l.mapM f' := by
  induction l with
  | nil => rfl
  | cons a l ih => simp only [List.mapM_cons, h a (by simp), ih fun b hb => h b (by simp [hb])]

theorem loss_of_forward (m m' : ProbMPS ℝ) (x : SeqInput ℝ) (slim par : Bool) (B : ℕ)
    (h : ((m.forward x slim par).1 = .error .assertion ∧ (m'.forward x slim par).1 = .error .assertion) ∨
      ∃ out out', (m.forward x slim par).1 = .ok out ∧ (m'.forward x slim par).1 = .ok out' ∧ out.shape = [B] ∧ out'.shape = [B] ∧ ∀ b < B, out'.get [b] = out.get [b]) :
    m'.loss x slim par = m.loss x slim par := by
  rcases h with ⟨h1, h2⟩ | ⟨o, o', h1, h2, h3, h4, h5⟩
  · simp only [ProbMPS.loss, h1, h2]
  · simp only [ProbMPS.loss, h1, h2, h3, h4]
    have e : (List.range B).mapM (fun b => o'.get [b]) = (List.range B).mapM (fun b => o.get [b]) := mapM_same _ fun b hb => h5 b (List.mem_range.1 hb)
    show (if B = 0 then _ else _) = (if B = 0 then _ else _)
    split_ifs
    · rfl
    · rw [show ([B] : List ℕ).getD 0 0 = B from rfl, e]

/-- Multiplying the core tensor by a nonzero factor does not change the loss. -/
theorem loss_moved (m : ProbMPS ℝ) (n d D : ℕ) (hm : ValidModel m n d D) (he : m.embedding = none) (hb : m.bias = none) (x : SeqInput ℝ) (B : ℕ) (hx : ValidInput x B n d) (slim par : Bool)
    (hs : SlimOK m slim B n) (t : ℝ) (ht : 1 + t ≠ 0) : (withCoreTensor m (movedTensor m.core m.core t)).loss x slim par = m.loss x slim par :=
  loss_of_forward m _ x slim par B (C27_scale_and_gauge_invariance (gauge_moved m n d D hb t) hm ⟨hm.core, hm.edge, hm.bias, hm.pos⟩ he he Iff.rfl (fun _ _ => ht) one_ne_zero one_ne_zero x B hx slim par hs)

/-- C114, probabilistic models: the gradient of the loss with respect to the core tensor is orthogonal to the core tensor (no bias). -/
theorem C114_prob_orthogonal (m : ProbMPS ℝ) (n d D : ℕ) (hm : ValidModel m n d D) (he : m.embedding = none) (hb : m.bias = none) (x : SeqInput ℝ) (B : ℕ) (hx : ValidInput x B n d) (slim par : Bool)
    (hs : SlimOK m slim B n) (L : Tensor ℝ → ℝ) (hL : ∀ c, c.shape = m.core.shape → ∀ v : ℝ, (withCoreTensor m c).loss x slim par = .ok (some (v : EReal)) → L c = v)
    (v : ℝ) (hv : m.loss x slim par = .ok (some (v : EReal))) (I : Finset (List ℕ)) (G : List ℕ → ℝ)
    (hG : ∀ T : Tensor ℝ, HasDerivAt (fun t : ℝ => L (movedTensor m.core T t)) (∑ idx ∈ I, G idx * T.get idx) 0) : ∑ idx ∈ I, G idx * m.core.get idx = 0 := by
  refine (hG m.core).unique ((hasDerivAt_const (0 : ℝ) v).congr_of_eventuallyEq ?_)
  have hev : ∀ᶠ t : ℝ in nhds 0, 1 + t ≠ 0 := (show ContinuousAt (fun t : ℝ => 1 + t) 0 by fun_prop).eventually_ne (by simp)
  filter_upwards [hev] with t ht
  exact hL (movedTensor m.core m.core t) rfl v (by rw [loss_moved m n d D hm he hb x B hx slim par hs t ht, hv])

/-- C114, probabilistic models: a step of gradient descent never makes the core tensor smaller; its squared norm grows by exactly `η²` times that of the gradient. -/
theorem C114_prob_descent (m : ProbMPS ℝ) (n d D : ℕ) (hm : ValidModel m n d D) (he : m.embedding = none) (hb : m.bias = none) (x : SeqInput ℝ) (B : ℕ) (hx : ValidInput x B n d) (slim par : Bool)
    (hs : SlimOK m slim B n) (L : Tensor ℝ → ℝ) (hL : ∀ c, c.shape = m.core.shape → ∀ v : ℝ, (withCoreTensor m c).loss x slim par = .ok (some (v : EReal)) → L c = v)
    (v : ℝ) (hv : m.loss x slim par = .ok (some (v : EReal))) (I : Finset (List ℕ)) (G : List ℕ → ℝ)
    (hG : ∀ T : Tensor ℝ, HasDerivAt (fun t : ℝ => L (movedTensor m.core T t)) (∑ idx ∈ I, G idx * T.get idx) 0) (η : ℝ) :
    ∑ idx ∈ I, (m.core.get idx - η * G idx) ^ 2 = ∑ idx ∈ I, m.core.get idx ^ 2 + η ^ 2 * ∑ idx ∈ I, G idx ^ 2 := by
  have h0 := C114_prob_orthogonal m n d D hm he hb x B hx slim par hs L hL v hv I G hG
  have e : ∑ idx ∈ I, (m.core.get idx - η * G idx) ^ 2 = ∑ idx ∈ I, m.core.get idx ^ 2 + η ^ 2 * ∑ idx ∈ I, G idx ^ 2 - 2 * η * ∑ idx ∈ I, G idx * m.core.get idx := by
    simp only [Finset.mul_sum, ← Finset.sum_add_distrib, ← Finset.sum_sub_distrib]
    refine Finset.sum_congr rfl fun idx _ => ?_
    ring
  rw [e, h0]
  ring

/-- C114, probabilistic models with weight decay: the gradient of the loss plus `lam` times the core tensor never vanishes (`lam ≠ 0`): training with weight decay has no stationary point. -/
theorem C114_prob_weight_decay (m : ProbMPS ℝ) (n d D : ℕ) (hn : n ≠ 0) (hm : ValidModel m n d D) (he : m.embedding = none) (hb : m.bias = none) (x : SeqInput ℝ) (B : ℕ) (hx : ValidInput x B n d)
    (slim par : Bool) (hs : SlimOK m slim B n) (L : Tensor ℝ → ℝ) (hL : ∀ c, c.shape = m.core.shape → ∀ v : ℝ, (withCoreTensor m c).loss x slim par = .ok (some (v : EReal)) → L c = v)
    (v : ℝ) (hv : m.loss x slim par = .ok (some (v : EReal))) (I : Finset (List ℕ)) (hI : ∀ idx, InRange idx m.core.shape → idx ∈ I) (G : List ℕ → ℝ)
    (hG : ∀ T : Tensor ℝ, HasDerivAt (fun t : ℝ => L (movedTensor m.core T t)) (∑ idx ∈ I, G idx * T.get idx) 0) (lam : ℝ) (hlam : lam ≠ 0) :
    ∃ idx ∈ I, G idx + lam * m.core.get idx ≠ 0 := by
  by_contra hcon
  push Not at hcon
  have h0 := C114_prob_orthogonal m n d D hm he hb x B hx slim par hs L hL v hv I G hG
  have h1 : lam * ∑ idx ∈ I, m.core.get idx ^ 2 = 0 := by
    rw [← neg_eq_zero, ← h0, Finset.mul_sum, ← Finset.sum_neg_distrib]
    refine Finset.sum_congr rfl fun idx hidx => ?_
    rw [eq_neg_of_add_eq_zero_left (hcon idx hidx)]
    ring
  have h2 : ∀ idx ∈ I, m.core.get idx = 0 := fun idx hidx =>
    pow_eq_zero_iff (two_ne_zero) |>.1 ((Finset.sum_eq_zero_iff_of_nonneg (fun i _ => sq_nonneg _)).1 ((mul_eq_zero.1 h1).resolve_left hlam) idx hidx)
  have hz : GaugeOf m m n d D (fun _ => 0) 1 1 (fun _ => 1) := by
    refine ⟨?_, ?_, ?_, ?_⟩
    · intro s hs' k hk
      ext i j
      have hi := i.2
      have hj := j.2
      rw [zero_smul]
      simp only [coreMat, Matrix.of_apply, Matrix.zero_apply]
      have hc := hm.core
      split_ifs with hl
      · refine h2 _ (hI _ ?_)
        cases hu : m.uniform with
        | true =>
          rw [hu, if_pos rfl] at hc
          rw [hc]
          simp [InRange, hk]
        | false =>
          rw [hu] at hc
          simp [hc] at hl
      · refine h2 _ (hI _ ?_)
        cases hu : m.uniform with
        | true =>
          rw [hu, if_pos rfl] at hc
          simp [hc] at hl
        | false =>
          rw [hu] at hc
          rw [hc]
          simp [InRange, hk, hs']
    · intro s _
      simp [biasMat, hb]
    · simp
    · simp
  have hZ : modelZ m n d D = 0 := by
    rw [hz.modelZ]
    simp [hn]
  have := (C21_forward_exact m n d D hm he x B hx slim par hs).2.2 (fun h => h.1 hZ)
  rw [ProbMPS.loss, this] at hv
  cases hv

/-! ### concrete cases -/

/-- For every MPS of 5 pixels (output at site 2, both boundary conditions, bond dimension 2, 3 classes), batch of 4 images and labels, the loss of the training script has gradients as in C114_balance, and they balance. -/
example (A : ℕ → ℕ → ℕ → ℕ → ℝ) (C : ℕ → ℕ → ℕ → ℝ) (per : Bool) (x : Tensor ℝ) (hx : x.shape = [4, 5, 2]) :
    ∃ (L : Params ℝ → ℝ) (G G' Go : ℕ → ℕ → ℕ → ℝ), IsCoreGrad 2 2 2 0 L (plainParams 2 2 3 5 2 A C) G ∧ IsCoreGrad 2 2 2 4 L (plainParams 2 2 3 5 2 A C) G' ∧
      IsOutGrad 3 2 L (plainParams 2 2 3 5 2 A C) Go ∧ (∀ y, ((gaugeModel 2 A C per).forward x none).1 = .ok y → crossEntropy y [0, 2, 1, 1] = .ok (L (plainParams 2 2 3 5 2 A C))) ∧
      inner3 2 2 2 G (A 0) = inner3 3 2 2 Go C ∧ inner3 2 2 2 G' (A 4) = inner3 3 2 2 Go C := by
  have hm : IsMps 2 false (plainParams 2 2 3 5 2 A C) (gaugeModel 2 A C per) := gauge_isMps _ _ _ _
  have hD : (gaugeModel 2 A C per).periodic = true ∨ 1 ≤ (gaugeModel 2 A C per).bondDim := Or.inr (by show 1 ≤ 2; omega)
  have hs : NoShortRegion (gaugeModel 2 A C per).inputDim 2 := by
    show NoShortRegion 5 2
    unfold NoShortRegion
    omega
  have he : Embedded (gaugeModel 2 A C per) x x := by
    refine ⟨x, rfl, ?_⟩
    unfold MPS.embedInput
    simp [Tensor.ndim, hx, gaugeModel, withParams, assert]
    rfl
  have hg : BatchKnown 2 4 none := Or.inl (by omega)
  have hB : x.shape.getD 0 0 = 4 := by rw [hx]; rfl
  obtain ⟨L, h1, h2, h3, Go, h4⟩ := C114_cross_entropy 2 _ _ hm hD hs x x he none [0, 2, 1, 1] hB (by
    show ∀ c ∈ [0, 2, 1, 1], c < 3
    simp) hg
  obtain ⟨G, hG⟩ := h3 0 (by show 0 < 5; omega)
  obtain ⟨G', hG'⟩ := h3 4 (by show 4 < 5; omega)
  have hc : ∀ i, (plainParams 2 2 3 5 2 A C).core 2 i = A i := fun i => by
    funext l r f
    exact plain_core 2 2 3 5 2 A C i l r f
  refine ⟨L, G, G', Go, hG, hG', h4, fun y hy => h1 _ y hm hy, ?_, ?_⟩
  · have := C114_balance 2 _ _ hm hD hs x x he none (hB ▸ hg) L h2 0 (by show 0 < 5; omega) G Go hG h4
    rwa [hc] at this
  · have := C114_balance 2 _ _ hm hD hs x x he none (hB ▸ hg) L h2 4 (by show 4 < 5; omega) G' Go hG' h4
    rwa [hc] at this

/-- two pixels, one output (before them), bond and feature dimension 1, all parameters 1 -/
noncomputable def unitParams : Params ℝ := plainParams 1 1 1 2 0 (fun _ _ _ _ => 1) (fun _ _ _ => 1)

/-- A case which meets the hypotheses of C114_weight_decay with nonzero cores: for this model, the image with features 1 and the loss `- output`, all gradients are -1, so that with `lam = 1` the sum of gradient
and weight decay vanishes for each pixel and the output core. -/
example : IsMps 0 false unitParams (withParams ⟨2, 1, 1, 1, false, false, none, none, []⟩ 0 false unitParams) ∧
    ∃ (L : Params ℝ → ℝ), OfOutputs (withParams ⟨2, 1, 1, 1, false, false, none, none, []⟩ 0 false unitParams) 0 false ⟨[1, 2, 1], fun _ => 1⟩ (some 1) L ∧
      (∀ q < 2, IsCoreGrad 1 1 0 q L unitParams (fun _ _ _ => -1)) ∧ IsOutGrad 1 1 L unitParams (fun _ _ _ => -1) ∧
      (∀ q < 2, (-1 : ℝ) + 1 * unitParams.core 0 q 0 0 0 = 0) ∧ (-1 : ℝ) + 1 * outCore unitParams 0 0 0 = 0 := by
  have hm : IsMps 0 false unitParams (withParams ⟨2, 1, 1, 1, false, false, none, none, []⟩ 0 false unitParams) := ⟨by show 0 ≤ 2; omega, rfl, rfl, rfl, rfl, rfl, rfl⟩
  have he : ∀ p, Embedded (withParams ⟨2, 1, 1, 1, false, false, none, none, []⟩ 0 false p) (⟨[1, 2, 1], fun _ => 1⟩ : Tensor ℝ) ⟨[1, 2, 1], fun _ => 1⟩ := fun p => by
    refine ⟨⟨[1, 2, 1], fun _ => 1⟩, rfl, ?_⟩
    unfold MPS.embedInput
    simp [Tensor.ndim, withParams, assert]
    rfl
  have key : ∀ t a : ℝ, HasDerivAt (fun t : ℝ => -(1 + t * a)) (-1 * a) 0 := fun _ a => by
    have := (((hasDerivAt_id (0 : ℝ)).mul_const a).const_add 1).neg
    exact HasDerivAt.congr_deriv (f := fun t : ℝ => -(1 + t * a)) this (by ring)
  refine ⟨hm, fun p => - mpsValue 1 1 2 0 false false p ⟨[1, 2, 1], fun _ => 1⟩ 0 0, ?_, ?_, ?_, ?_, ?_⟩
  · intro p p' y y' h h' hy hy' hyy
    have hs : NoShortRegion 2 0 := by unfold NoShortRegion; omega
    obtain ⟨z, g, z1, z2, z3⟩ := mps_forward 0 false p _ h (Or.inr (le_refl 1)) hs _ _ (he p) 1 rfl (some 1) (Or.inr rfl)
    obtain ⟨z', g', z1', z2', z3'⟩ := mps_forward 0 false p' _ h' (Or.inr (le_refl 1)) hs _ _ (he p') 1 rfl (some 1) (Or.inr rfl)
    have hy := (congrArg Prod.fst z1).symm.trans hy
    have hy' := (congrArg Prod.fst z1').symm.trans hy'
    cases hy
    cases hy'
    have a := z3 0 (by omega) 0 (show 0 < 1 by omega)
    have a' := z3' 0 (by omega) 0 (show 0 < 1 by omega)
    have b := hyy.2 [0, 0] (by rw [z2]; show InRange [0, 0] [1, 1]; simp [InRange])
    exact congrArg Neg.neg (a.symm.trans (b.trans a'))
  · intro q hq T
    refine HasDerivAt.congr_of_eventuallyEq (HasDerivAt.congr_deriv (key 0 (T 0 0 0)) ?_) (Filter.Eventually.of_forall fun t => ?_)
    · simp [inner3]
    · interval_cases q <;>
      simp [mpsValue, mpsMats, pixelMats, pixelMat, affMat, outMat, setCore, setSlice, Params.bias, Params.core, unitParams, plain_core, plainParams, orderedProd, Mat.of, Mat.mul, List.range', matProd]
  · intro T
    refine HasDerivAt.congr_of_eventuallyEq (HasDerivAt.congr_deriv (key 0 (T 0 0 0)) ?_) (Filter.Eventually.of_forall fun t => ?_)
    · simp [inner3]
    · simp [mpsValue, mpsMats, pixelMats, pixelMat, affMat, outMat, setOut, outCore, Params.bias, Params.core, unitParams, plainParams, orderedProd, Mat.of, Mat.mul, List.range', matProd]
  · intro q _
    simp [unitParams, plain_core]
  · simp [unitParams, outCore, plainParams]

/-- the first output for the first sequence (0 if there is none) -/
noncomputable def firstOutput (y : Tensor ℝ) : ℝ := if InRange [0, 0] y.shape then y.get [0, 0] else 0

/-- the first output of a model as loss, for one sequence of three features 1 -/
noncomputable def firstLoss (m : TiMps ℝ) : ℝ :=
  match (m.forward (.batch ⟨[1, 3, 1], fun _ => 1⟩) none).1 with
  | .ok y => firstOutput y
  | .error _ => 0

/-- bond, feature and output dimension 1, no bias: the output for three features 1 is `a ^ 3` -/
noncomputable def cubeTi (a : ℝ) : TiMps ℝ := ⟨1, 1, 1, false, false, false, none, ⟨[1, 1, 1], fun _ => a⟩, ⟨[1], fun _ => 1⟩, ⟨[1, 1], fun _ => 1⟩, none⟩

/-- The hypotheses of the theorems about TI_MPS are met: with the output as loss the gradients at `cubeTi a` are `3 a²` (core), `a³` (initial vector) and `a³` (terminal matrix). -/
example (a : ℝ) : IsTi (cubeTi a) ∧ TiAccepts (cubeTi a) 1 3 (.batch ⟨[1, 3, 1], fun _ => 1⟩) ∧ TiOfOutputs (.batch ⟨[1, 3, 1], fun _ => 1⟩) none firstLoss ∧
    IsInitGrad firstLoss (cubeTi a) (fun _ => a ^ 3) ∧ IsTermGrad firstLoss (cubeTi a) (fun _ _ => a ^ 3) ∧ IsTiCoreGrad firstLoss (cubeTi a) (fun _ _ _ => 3 * a ^ 2) := by
  have hm : IsTi (cubeTi a) := ⟨rfl, rfl, rfl, fun h => Bool.noConfusion h, fun h => Bool.noConfusion h⟩
  have hi : TiAccepts (cubeTi a) 1 3 (.batch (⟨[1, 3, 1], fun _ => 1⟩ : Tensor ℝ)) := Or.inl rfl
  have hval : ∀ m : TiMps ℝ, IsTi m → m.outputDim = 1 → TiAccepts m 1 3 (.batch ⟨[1, 3, 1], fun _ => 1⟩) → firstLoss m = tiValue m 3 (tiEntry m (.batch ⟨[1, 3, 1], fun _ => 1⟩) 0) 0 := by
    intro m h hO hacc
    obtain ⟨y, y1, y2, y3⟩ := C66_value m h _ 1 3 hacc (by norm_num) none
    simp only [firstLoss, y1, firstOutput]
    rw [y2, hO, if_pos (by simp [InRange]), y3 0 (by norm_num) 0 (by omega)]
  have key : ∀ c : ℝ, HasDerivAt (fun t : ℝ => 1 + t * c) c 0 := fun c => by simpa using ((hasDerivAt_id (0 : ℝ)).mul_const c).const_add 1
  refine ⟨hm, hi, ?_, fun T => ?_, fun T => ?_, fun T => ?_⟩
  · intro m m' y y' h h' hy
    simp only [firstLoss, h, h', firstOutput]
    rw [hy.1]
    split_ifs with hr
    · exact hy.2 _ (hy.1 ▸ hr)
    · rfl
  · refine HasDerivAt.congr_of_eventuallyEq (HasDerivAt.congr_deriv ((key (T 0)).const_mul (a ^ 3)) ?_) (Filter.Eventually.of_forall fun t => ?_)
    · simp [cubeTi]
    · beta_reduce
      rw [hval _ (setInit_isTi hm _) rfl (setInit_accepts hi _)]
      simp [setInit, cubeTi, tiValue, tiState, tiEntry, tiBiasAt]
      ring
  · refine HasDerivAt.congr_of_eventuallyEq (HasDerivAt.congr_deriv ((key (T 0 0)).const_mul (a ^ 3)) ?_) (Filter.Eventually.of_forall fun t => ?_)
    · simp [cubeTi]
    · beta_reduce
      rw [hval _ (setTerm_isTi hm _) rfl (setTerm_accepts hi _)]
      simp only [setTerm, cubeTi, tiValue, tiState, tiEntry, tiBiasAt, Finset.sum_range_one, List.getD_cons_zero, List.getD_cons_succ, List.length_cons, List.length_nil]
      simp
      ring_nf
      simp
  · have h1 : HasDerivAt (fun t : ℝ => a + t * T 0 0 0) (T 0 0 0) 0 := by simpa using ((hasDerivAt_id (0 : ℝ)).mul_const (T 0 0 0)).const_add a
    refine HasDerivAt.congr_of_eventuallyEq (HasDerivAt.congr_deriv (h1.pow 3) ?_) (Filter.Eventually.of_forall fun t => ?_)
    · simp [cubeTi, inner3]
    · beta_reduce
      rw [hval _ (setTiCore_isTi hm _) rfl (setTiCore_accepts hi _)]
      simp [setTiCore, cubeTi, tiValue, tiState, tiEntry, tiBiasAt]
      ring

/-- one site with two symbols, bond dimension 1, all parameters 1 -/
noncomputable def coinModel : ProbMPS ℝ where
  uniform := false
  core := ⟨[1, 2, 1, 1], fun _ => 1⟩
  edge := ⟨[2, 1], fun _ => 1⟩
  bias := none
  embedding := none

theorem coin_psi (c : Tensor ℝ) (hc : c.shape = [1, 2, 1, 1]) (x : Fin 1 → Fin 2) : psiSeq (withCoreTensor coinModel c) 1 2 1 x = c.get [0, (x 0).val, 0, 0] := by
  simp [psiSeq, amplitude, withCoreTensor, coinModel, coreMat, boundVec, biasMat, hc, dotProduct, Matrix.mulVec]

/-- The hypotheses of the theorems about probabilistic models hold for this model and the sequence 0: the loss `-log (c₀² / (c₀² + c₁²))` has the gradient (-1, 1) at the core tensor (1, 1). -/
example : ValidModel coinModel 1 2 1 ∧ ValidInput (single (fun _ => 0 : Fin 1 → Fin 2) : SeqInput ℝ) 1 1 2 ∧ SlimOK coinModel false 1 1 ∧
    ∃ (L : Tensor ℝ → ℝ) (I : Finset (List ℕ)) (G : List ℕ → ℝ),
      (∀ c, c.shape = coinModel.core.shape → ∀ v : ℝ, (withCoreTensor coinModel c).loss (single (fun _ => 0 : Fin 1 → Fin 2)) false false = .ok (some (v : EReal)) → L c = v) ∧
      coinModel.loss (single (fun _ => 0 : Fin 1 → Fin 2)) false false = .ok (some ((L coinModel.core : ℝ) : EReal)) ∧ (∀ idx, InRange idx coinModel.core.shape → idx ∈ I) ∧
      (∀ T : Tensor ℝ, HasDerivAt (fun t : ℝ => L (movedTensor coinModel.core T t)) (∑ idx ∈ I, G idx * T.get idx) 0) ∧ G [0, 0, 0, 0] = -1 ∧ G [0, 1, 0, 0] = 1 := by
  have hv : ∀ c : Tensor ℝ, c.shape = [1, 2, 1, 1] → ValidModel (withCoreTensor coinModel c) 1 2 1 := fun c hc => ⟨by simpa [withCoreTensor, coinModel] using hc, rfl, by simp [withCoreTensor, coinModel], by norm_num⟩
  have hZ : ∀ c : Tensor ℝ, c.shape = [1, 2, 1, 1] → modelZ (withCoreTensor coinModel c) 1 2 1 = c.get [0, 0, 0, 0] ^ 2 + c.get [0, 1, 0, 0] ^ 2 := by
    intro c hc
    unfold modelZ
    simp only [coin_psi c hc, Real.norm_eq_abs, sq_abs]
    rw [← (Equiv.funUnique (Fin 1) (Fin 2)).symm.sum_comp]
    simp [Fin.sum_univ_two]
  have hloss : ∀ c : Tensor ℝ, c.shape = [1, 2, 1, 1] → c.get [0, 0, 0, 0] ≠ 0 → (withCoreTensor coinModel c).loss (single (fun _ => 0 : Fin 1 → Fin 2)) false false =
      .ok (some ((-Real.log (c.get [0, 0, 0, 0] ^ 2 / (c.get [0, 0, 0, 0] ^ 2 + c.get [0, 1, 0, 0] ^ 2)) : ℝ) : EReal)) := by
    intro c hc h0
    have hz : modelZ (withCoreTensor coinModel c) 1 2 1 ≠ 0 := by
      rw [hZ c hc]
      positivity
    obtain ⟨out, o1, o2, o3⟩ := C21_born_rule (withCoreTensor coinModel c) 1 2 1 (hv c hc) rfl (single (fun _ => 0 : Fin 1 → Fin 2)) 1 (single_valid _) false false (by simp [SlimOK]) hz
      (fun b _ => by rw [psi_single, coin_psi c hc]; exact h0)
    have o3 := o3 0 (by norm_num)
    rw [psi_single, coin_psi c hc, hZ c hc] at o3
    simp only [Fin.val_zero, Real.norm_eq_abs, sq_abs] at o3
    simp only [ProbMPS.loss, o1, o2]
    show (if (1 : ℕ) = 0 then _ else _) = _
    rw [if_neg (by norm_num), show ([1] : List ℕ).getD 0 0 = 1 from rfl, show List.range 1 = [0] from rfl]
    simp [o3]
  have hbad : ∀ c : Tensor ℝ, c.shape = [1, 2, 1, 1] → c.get [0, 0, 0, 0] = 0 → ∀ v : ℝ, (withCoreTensor coinModel c).loss (single (fun _ => 0 : Fin 1 → Fin 2)) false false ≠ .ok (some (v : EReal)) := by
    intro c hc h0 v hl
    obtain ⟨-, f1, f2⟩ := C21_forward_exact (withCoreTensor coinModel c) 1 2 1 (hv c hc) rfl (single (fun _ => 0 : Fin 1 → Fin 2)) 1 (single_valid _) false false (by simp [SlimOK])
    by_cases hacc : modelZ (withCoreTensor coinModel c) 1 2 1 ≠ 0 ∧ ∀ b < 1, Accepts (withCoreTensor coinModel c) (single (fun _ => 0 : Fin 1 → Fin 2)) 1 2 1 false false b
    · obtain ⟨out, o1, o2, o3⟩ := f1 hacc
      have o3 := o3 0 (by norm_num)
      rw [psi_single, coin_psi c hc, show ((0 : Fin 2)).val = 0 from rfl, h0, bornLog, if_pos rfl] at o3
      simp only [ProbMPS.loss, o1, o2] at hl
      rw [show ([1] : List ℕ).getD 0 0 = 1 from rfl, if_neg (by norm_num), show List.range 1 = [0] from rfl] at hl
      simp [o3] at hl
    · simp only [ProbMPS.loss, f2 hacc] at hl
      cases hl
  refine ⟨hv coinModel.core rfl, single_valid _, by simp [SlimOK], fun c => -Real.log (c.get [0, 0, 0, 0] ^ 2 / (c.get [0, 0, 0, 0] ^ 2 + c.get [0, 1, 0, 0] ^ 2)),
    {[0, 0, 0, 0], [0, 1, 0, 0]}, fun idx => if idx = [0, 0, 0, 0] then -1 else 1, ?_, hloss coinModel.core rfl (by simp [coinModel]), ?_, ?_, by simp, by simp⟩
  · intro c hc v hl
    have hc : c.shape = [1, 2, 1, 1] := hc
    by_cases h0 : c.get [0, 0, 0, 0] = 0
    · exact absurd hl (hbad c hc h0 v)
    · rw [hloss c hc h0] at hl
      simp only [Except.ok.injEq, Option.some.injEq] at hl
      exact EReal.coe_injective hl
  · intro idx hidx
    have hidx : InRange idx [1, 2, 1, 1] := hidx
    rcases idx with _ | ⟨a, _ | ⟨b, _ | ⟨c, _ | ⟨e, _ | ⟨f, t⟩⟩⟩⟩⟩ <;> simp [InRange] at hidx ⊢
    omega
  · intro T
    have e : (∑ idx ∈ ({[0, 0, 0, 0], [0, 1, 0, 0]} : Finset (List ℕ)), (if idx = [0, 0, 0, 0] then (-1 : ℝ) else 1) * T.get idx) = - T.get [0, 0, 0, 0] + T.get [0, 1, 0, 0] := by
      rw [Finset.sum_insert (by simp), Finset.sum_singleton]
      simp
    rw [e]
    have h1 : ∀ a : ℝ, HasDerivAt (fun t : ℝ => 1 + t * a) a 0 := fun a => by simpa using ((hasDerivAt_id (0 : ℝ)).mul_const a).const_add 1
    have h2 := ((h1 (T.get [0, 0, 0, 0])).pow 2)
    have h3 := ((h1 (T.get [0, 1, 0, 0])).pow 2)
    have h4 := (h2.div (h2.add h3) (by simp)).log (by simp)
    refine HasDerivAt.congr_deriv h4.neg ?_
    simp
    ring

end TorchMPS
