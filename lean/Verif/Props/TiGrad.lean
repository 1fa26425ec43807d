import Verif.Spec.TiGrad
import Verif.Lemmas.AutodiffCurve
import Verif.Props.TiMps
/-
C101: gradients of TI_MPS.
-/
namespace TorchMPS
open Spec
variable {K : Type}

/-! ### the derivative -/

/-- the derivative of the state, by the recursion -/
def dState [CommSemiring K] (m : TiMps K) (d : TiVelocity K) (x dx : ℕ → ℕ → K) : ℕ → ℕ → K
  | 0, r => d.init r
  | n + 1, r => ∑ l ∈ Finset.range m.bondDim, (dState m d x dx n l * tiStep m (x n) l r +
      tiState m x n l * (∑ f ∈ Finset.range m.featureDim, (d.core l r f * x n f + m.core.get [l, r, f] * dx n f) + d.bias l r))

theorem tiState_step [CommSemiring K] (m : TiMps K) (x : ℕ → ℕ → K) (n r : ℕ) :
    tiState m x (n + 1) r = ∑ l ∈ Finset.range m.bondDim, tiState m x n l * tiStep m (x n) l r := rfl

theorem dState_eq [CommRing K] (m : TiMps K) (d : TiVelocity K) (x dx : ℕ → ℕ → K) (n r : ℕ) (hr : r < m.bondDim) :
    dState m d x dx n r = ∑ l ∈ Finset.range m.bondDim, d.init l * tiBetween m x 0 n l r +
      ∑ i ∈ Finset.range n, ∑ l ∈ Finset.range m.bondDim, ∑ s ∈ Finset.range m.bondDim,
        tiState m x i l * (∑ f ∈ Finset.range m.featureDim, (d.core l s f * x i f + m.core.get [l, s, f] * dx i f) + d.bias l s) * tiBetween m x (i + 1) (n - (i + 1)) s r := by
  induction n generalizing r with
  | zero =>
    simp only [dState, tiBetween, mul_ite, mul_one, mul_zero, Finset.range_zero, Finset.sum_empty, add_zero]
    rw [Finset.sum_ite_eq' (Finset.range m.bondDim) r d.init, if_pos (Finset.mem_range.2 hr)]
  | succ n ih =>
    rw [dState, Finset.sum_add_distrib, Finset.sum_range_succ _ n, ← add_assoc]
    congr 1
    · rw [Finset.sum_congr rfl (fun l hl => by rw [ih l (Finset.mem_range.1 hl), add_mul]), Finset.sum_add_distrib]
      congr 1
      · simp only [tiBetween, zero_add, Finset.mul_sum, Finset.sum_mul]
        rw [Finset.sum_comm]
        simp only [mul_assoc]
      · simp only [Finset.sum_mul (s := Finset.range n)]
        rw [Finset.sum_comm]
        refine Finset.sum_congr rfl (fun i hi => ?_)
        have hi' := Finset.mem_range.1 hi
        have e1 : n + 1 - (i + 1) = (n - (i + 1)) + 1 := by omega
        have e2 : i + 1 + (n - (i + 1)) = n := by omega
        rw [e1]
        simp only [tiBetween, e2, Finset.mul_sum (s := Finset.range m.bondDim), Finset.sum_mul (s := Finset.range m.bondDim)]
        rw [Finset.sum_comm]
        refine Finset.sum_congr rfl (fun l _ => ?_)
        rw [Finset.sum_comm]
        simp only [mul_assoc]
    · refine Finset.sum_congr rfl (fun l _ => ?_)
      have e1 : n + 1 - (n + 1) = 0 := by omega
      rw [e1]
      simp only [tiBetween, mul_ite, mul_one, mul_zero]
      rw [Finset.sum_ite_eq' (Finset.range m.bondDim) r, if_pos (Finset.mem_range.2 hr)]

theorem tiDerivative_eq [CommRing K] (m : TiMps K) (d : TiVelocity K) (n : ℕ) (x dx : ℕ → ℕ → K) (o : ℕ) :
    tiDerivative m d n x dx o = ∑ l ∈ Finset.range m.bondDim, (dState m d x dx n l * m.termMat.get [l, o] + tiState m x n l * d.term l o) := by
  rw [Finset.sum_add_distrib, tiDerivative]
  congr 1
  symm
  rw [Finset.sum_congr rfl (fun l hl => by rw [dState_eq m d x dx n l (Finset.mem_range.1 hl), add_mul]), Finset.sum_add_distrib]
  congr 1
  · simp only [tiAfter, Nat.sub_zero, Finset.mul_sum, Finset.sum_mul]
    rw [Finset.sum_comm]
    simp only [mul_assoc]
  · simp only [Finset.sum_mul (s := Finset.range n)]
    rw [Finset.sum_comm]
    refine Finset.sum_congr rfl (fun i _ => ?_)
    simp only [tiAfter, Finset.mul_sum (s := Finset.range m.bondDim), Finset.sum_mul (s := Finset.range m.bondDim)]
    rw [Finset.sum_comm]
    refine Finset.sum_congr rfl (fun l _ => ?_)
    rw [Finset.sum_comm]
    simp only [mul_assoc]

/-! ### along curves -/

theorem hasDerivAt_sum [RCLike K] {ι : Type} (s : Finset ι) {f : ι → ℝ → K} {f' : ι → K} {t₀ : ℝ} (h : ∀ i ∈ s, HasDerivAt (f i) (f' i) t₀) :
    HasDerivAt (fun t => ∑ i ∈ s, f i t) (∑ i ∈ s, f' i) t₀ := by
  have := HasDerivAt.sum h
  have e : (∑ i ∈ s, f i) = fun t => ∑ i ∈ s, f i t := by funext t; rw [Finset.sum_apply]
  rwa [e] at this

theorem tiState_deriv [RCLike K] {m : ℝ → TiMps K} {d : TiVelocity K} {t₀ : ℝ} (hm : TiMoves m d t₀) (n : ℕ) (x : ℝ → ℕ → ℕ → K) (dx : ℕ → ℕ → K)
    (hx : ∀ i < n, ∀ f < (m t₀).featureDim, HasDerivAt (fun t => x t i f) (dx i f) t₀) (r : ℕ) (hr : r < (m t₀).bondDim) :
    HasDerivAt (fun t => tiState (m t) (x t) n r) (dState (m t₀) d (x t₀) dx n r) t₀ := by
  induction n generalizing r with
  | zero => exact hm.init r hr
  | succ n ih =>
    have e : (fun t => tiState (m t) (x t) (n + 1) r) = fun t => ∑ l ∈ Finset.range (m t₀).bondDim, tiState (m t) (x t) n l *
        (∑ f ∈ Finset.range (m t₀).featureDim, (m t).core.get [l, r, f] * x t n f + tiBiasAt (m t) l r) := by
      funext t
      rw [tiState, hm.bondDim t, hm.featureDim t]
    rw [e]
    refine hasDerivAt_sum _ (fun l hl => ?_)
    have hl' := Finset.mem_range.1 hl
    refine (ih (fun i hi => hx i (by omega)) l hl').mul ((hasDerivAt_sum _ (fun f hf => ?_)).add (hm.bias l hl' r hr))
    have hf' := Finset.mem_range.1 hf
    exact (hm.core l hl' r hr f hf').mul (hx n (by omega) f hf')

theorem tiValue_deriv [RCLike K] {m : ℝ → TiMps K} {d : TiVelocity K} {t₀ : ℝ} (hm : TiMoves m d t₀) (n : ℕ) (x : ℝ → ℕ → ℕ → K) (dx : ℕ → ℕ → K)
    (hx : ∀ i < n, ∀ f < (m t₀).featureDim, HasDerivAt (fun t => x t i f) (dx i f) t₀) (o : ℕ) (ho : o < (m t₀).outputDim) :
    HasDerivAt (fun t => tiValue (m t) n (x t) o) (tiDerivative (m t₀) d n (x t₀) dx o) t₀ := by
  have e : (fun t => tiValue (m t) n (x t) o) = fun t => ∑ l ∈ Finset.range (m t₀).bondDim, tiState (m t) (x t) n l * (m t).termMat.get [l, o] := by
    funext t
    rw [tiValue, hm.bondDim t]
  rw [e, tiDerivative_eq]
  refine hasDerivAt_sum _ (fun l hl => ?_)
  have hl' := Finset.mem_range.1 hl
  exact (tiState_deriv hm n x dx hx l hl').mul (hm.term l hl' o ho)

/-- C101: let the parameters of a TI_MPS and the feature vectors of its input move along differentiable curves. Then the outputs of `forward` are differentiable, with the derivative `tiDerivative`: for
sequences of every length, with or without bias, both evaluation strategies, all accepted forms of the input and every history of the process. -/
theorem C101_derivative [RCLike K] (m : ℝ → TiMps K) (h : ∀ t, IsTi (m t)) (d : TiVelocity K) (t₀ : ℝ) (hm : TiMoves m d t₀) (inp : ℝ → TiInput K) (B n : ℕ) (hn : 1 ≤ n)
    (hi : ∀ t, TiAccepts (m t) B n (inp t)) (dx : ℕ → ℕ → ℕ → K)
    (hx : ∀ b < B, ∀ i < n, ∀ f < (m t₀).featureDim, HasDerivAt (fun t => tiEntry (m t) (inp t) b i f) (dx b i f) t₀) (g : Option ℕ) :
    ∃ y : ℝ → Tensor K, (∀ t, (m t).forward (inp t) g = (.ok (y t), some B)) ∧ ∀ b < B, ∀ o < (m t₀).outputDim,
      HasDerivAt (fun t => (y t).get [b, o]) (tiDerivative (m t₀) d n (tiEntry (m t₀) (inp t₀) b) (dx b) o) t₀ := by
  have hf := fun t => C66_value (m t) (h t) (inp t) B n (hi t) hn g
  choose y y1 _ y3 using hf
  refine ⟨y, y1, fun b hb o ho => ?_⟩
  have e : (fun t => (y t).get [b, o]) = fun t => tiValue (m t) n (tiEntry (m t) (inp t) b) o := by
    funext t
    exact y3 t b hb o (by rw [hm.outputDim t]; exact ho)
  rw [e]
  exact tiValue_deriv hm n (fun t => tiEntry (m t) (inp t) b) (dx b) (hx b hb) o ho

/-! ### forward mode -/

theorem tiState_follows [RCLike K] {m : ℝ → TiMps K} {dm : TiMps (DualNumber K)} {t₀ : ℝ} (hm : TiFollows m dm t₀) (n : ℕ) (x : ℝ → ℕ → ℕ → K) (dx : ℕ → ℕ → DualNumber K)
    (hx : ∀ i < n, ∀ f < dm.featureDim, Follows (fun t => x t i f) (dx i f) t₀) (r : ℕ) (hr : r < dm.bondDim) :
    Follows (fun t => tiState (m t) (x t) n r) (tiState dm dx n r) t₀ := by
  induction n generalizing r with
  | zero => exact hm.init r hr
  | succ n ih =>
    have e : (fun t => tiState (m t) (x t) (n + 1) r) = fun t => ∑ l ∈ Finset.range dm.bondDim, tiState (m t) (x t) n l *
        (∑ f ∈ Finset.range dm.featureDim, (m t).core.get [l, r, f] * x t n f + tiBiasAt (m t) l r) := by
      funext t
      rw [tiState, hm.bondDim t, hm.featureDim t]
    rw [e]
    refine Follows.sum _ (fun l hl => ?_)
    have hl' := Finset.mem_range.1 hl
    refine (ih (fun i hi => hx i (by omega)) l hl').mul ((Follows.sum _ (fun f hf => ?_)).add (hm.bias l hl' r hr))
    have hf' := Finset.mem_range.1 hf
    exact (hm.core l hl' r hr f hf').mul (hx n (by omega) f hf')

/-- C101, forward mode: the differentiated forward pass (the same code over dual numbers) of a TI_MPS gives, entry by entry, the value and the derivative of the outputs along the curve. -/
theorem C101_forward_mode [RCLike K] (m : ℝ → TiMps K) (h : ∀ t, IsTi (m t)) (dm : TiMps (DualNumber K)) (dh : IsTi dm) (t₀ : ℝ) (hm : TiFollows m dm t₀) (inp : ℝ → TiInput K)
    (dinp : TiInput (DualNumber K)) (B n : ℕ) (hn : 1 ≤ n) (hi : ∀ t, TiAccepts (m t) B n (inp t)) (hd : TiAccepts dm B n dinp)
    (hx : ∀ b < B, ∀ i < n, ∀ f < dm.featureDim, Follows (fun t => tiEntry (m t) (inp t) b i f) (tiEntry dm dinp b i f) t₀) (g : Option ℕ) :
    ∃ (y : ℝ → Tensor K) (dy : Tensor (DualNumber K)), (∀ t, (m t).forward (inp t) g = (.ok (y t), some B)) ∧ dm.forward dinp g = (.ok dy, some B) ∧
      dy.shape = [B, dm.outputDim] ∧ TensorFollows y dy t₀ := by
  have hf := fun t => C66_value (m t) (h t) (inp t) B n (hi t) hn g
  choose y y1 y2 y3 using hf
  obtain ⟨dy, d1, d2, d3⟩ := C66_value dm dh dinp B n hd hn g
  refine ⟨y, dy, y1, d1, d2, fun t => by rw [y2 t, d2, hm.outputDim t], ?_⟩
  intro idx hidx
  rw [d2] at hidx
  obtain _ | ⟨b, _ | ⟨o, _ | ⟨_, _⟩⟩⟩ := idx <;> simp at hidx
  rw [d3 b hidx.1 o hidx.2]
  have e : (fun t => (y t).get [b, o]) = fun t => ∑ l ∈ Finset.range dm.bondDim, tiState (m t) (tiEntry (m t) (inp t) b) n l * (m t).termMat.get [l, o] := by
    funext t
    rw [y3 t b hidx.1 o (by rw [hm.outputDim t]; exact hidx.2), tiValue, hm.bondDim t]
  rw [e]
  refine Follows.sum _ (fun l hl => ?_)
  have hl' := Finset.mem_range.1 hl
  exact (tiState_follows hm n (fun t => tiEntry (m t) (inp t) b) (tiEntry dm dinp b) (hx b hidx.1) l hl').mul (hm.term l hl' o hidx.2)

/-! ### single entries -/

/-- the velocity of one entry of the shared core -/
def coreVelocity [Zero K] (l r f : ℕ) (c : K) : TiVelocity K := ⟨fun l' r' f' => if l' = l ∧ r' = r ∧ f' = f then c else 0, fun _ => 0, fun _ _ => 0, fun _ _ => 0⟩

/-- C101: the partial derivative with respect to entry `(l, r, f)` of the shared core is a sum over all steps of the sequence: the state before the step at `l`, feature `f` of the step, and what follows
at `r`. -/
theorem C101_core_entry [CommRing K] (m : TiMps K) (n : ℕ) (x : ℕ → ℕ → K) (o l r f : ℕ) (hl : l < m.bondDim) (hr : r < m.bondDim) (hf : f < m.featureDim) (c : K) :
    tiDerivative m (coreVelocity l r f c) n x (fun _ _ => 0) o = ∑ i ∈ Finset.range n, tiState m x i l * (c * x i f) * tiAfter m x n o (i + 1) r := by
  unfold tiDerivative coreVelocity
  simp only [zero_mul, mul_zero, Finset.sum_const_zero, add_zero, zero_add]
  refine Finset.sum_congr rfl (fun i _ => ?_)
  rw [Finset.sum_eq_single l (fun l' _ hne => ?_) (fun hh => absurd (Finset.mem_range.2 hl) hh)]
  · rw [Finset.sum_eq_single r (fun r' _ hne => ?_) (fun hh => absurd (Finset.mem_range.2 hr) hh)]
    · rw [Finset.sum_eq_single f (fun f' _ hne => ?_) (fun hh => absurd (Finset.mem_range.2 hf) hh)]
      · simp
      · simp [hne]
    · simp [hne]
  · simp [hne]

/-- a TI_MPS with bond dimension, feature dimension and output dimension 1, core `a`, ends 1 and no bias -/
def powTi (a : K) [One K] : TiMps K := ⟨1, 1, 1, false, false, false, none, ⟨[1, 1, 1], fun _ => a⟩, ⟨[1], fun _ => 1⟩, ⟨[1, 1], fun _ => 1⟩, none⟩

theorem powTi_isTi [CommRing K] (a : K) : IsTi (powTi a) := ⟨rfl, rfl, rfl, fun h => Bool.noConfusion h, fun h => Bool.noConfusion h⟩

theorem powTi_moves (t₀ : ℝ) : TiMoves (fun t : ℝ => powTi t) (coreVelocity 0 0 0 (1 : ℝ)) t₀ where
  bondDim _ := rfl
  featureDim _ := rfl
  outputDim _ := rfl
  core l hl r hr f hf := by
    have hl : l < 1 := hl
    have hr : r < 1 := hr
    have hf : f < 1 := hf
    obtain rfl : l = 0 := by omega
    obtain rfl : r = 0 := by omega
    obtain rfl : f = 0 := by omega
    exact hasDerivAt_id t₀
  init _ _ := hasDerivAt_const _ _
  term _ _ _ _ := hasDerivAt_const _ _
  bias _ _ _ _ := hasDerivAt_const _ _

/-- C101, a concrete case: a model which gives `a ^ 3` for a sequence of three features 1, moving through `a = 2`: the derivative 12 collects 4 from each step -/
example : ∃ y : ℝ → Tensor ℝ, (∀ t, (powTi t).forward (.batch ⟨[1, 3, 1], fun _ => 1⟩) none = (.ok (y t), some 1)) ∧ HasDerivAt (fun t => (y t).get [0, 0]) 12 2 := by
  obtain ⟨y, y1, y2⟩ := C101_derivative (fun t : ℝ => powTi t) powTi_isTi _ 2 (powTi_moves 2) (fun _ => .batch ⟨[1, 3, 1], fun _ => 1⟩) 1 3 (by norm_num) (fun _ => Or.inl rfl) (fun _ _ _ => 0)
    (fun _ _ _ _ _ _ => hasDerivAt_const _ _) none
  refine ⟨y, y1, ?_⟩
  have h := y2 0 (by norm_num) 0 (Nat.one_pos)
  rw [C101_core_entry (powTi (2 : ℝ)) 3 _ 0 0 0 0 Nat.one_pos Nat.one_pos Nat.one_pos] at h
  have e : ∑ i ∈ Finset.range 3, tiState (powTi (2 : ℝ)) (tiEntry (powTi (2 : ℝ)) (.batch ⟨[1, 3, 1], fun _ => 1⟩) 0) i 0 *
      (1 * tiEntry (powTi (2 : ℝ)) (.batch ⟨[1, 3, 1], fun _ => 1⟩) 0 i 0) * tiAfter (powTi (2 : ℝ)) (tiEntry (powTi (2 : ℝ)) (.batch ⟨[1, 3, 1], fun _ => 1⟩) 0) 3 0 (i + 1) 0 = 12 := by
    simp [Finset.sum_range_succ, tiState, tiAfter, tiBetween, tiStep, tiEntry, powTi, tiBiasAt]
    norm_num
  rwa [e] at h

end TorchMPS
