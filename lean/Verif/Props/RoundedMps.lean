import Verif.Lemmas.NetBoundTi
import Verif.Props.RoundedFl
/-
C96: rounding errors of `MPS.forward` and `TI_MPS.forward`.
-/
namespace TorchMPS
open Spec
variable {K : Type}

/-- C96. With exact arithmetic the forward pass of an MPS with rounded arithmetic is `MPS.forward`. -/
theorem C96_exact_mps [CommRing K] (m : MPS K) (x : Tensor K) : (exactNet K).mpsForward m x = m.forward x := NetArith.exact_mpsForward m x

/-- C96. With exact arithmetic the forward pass of a TI_MPS with rounded arithmetic is `TI_MPS.forward`. -/
theorem C96_exact_ti [CommRing K] (m : TiMps K) (inp : TiInput K) : (exactNet K).tiForward m inp = m.forward inp := NetArith.exact_tiForward m inp

/-- C96. On every input the model can evaluate, the forward pass of an MPS in rounded arithmetic returns a tensor of the right shape each entry of which
differs from the exact value by at most `(1+γ)^(2n+2) (1+u)^(2n) - 1` times the value of the network with all parameters and features replaced by
their absolute values, `n` being the number of pixels. For all sizes, parameters, inputs, both boundary conditions and both evaluation modes. -/
theorem C96_mps [RCLike K] (A : NetArith K) (S : ℕ) (γ u : ℝ) (ac : AccurateNet A S γ u) (k : ℕ) (ub : Bool) (p : Params K) (m : MPS K) (h : IsMps k ub p m)
    (hD : m.periodic = true ∨ 1 ≤ m.bondDim) (hs : NoShortRegion m.inputDim k) (hS : 1 ≤ S ∧ m.bondDim ≤ S ∧ m.featureDim ≤ S ∧ m.outputDim ≤ S) (x e : Tensor K)
    (he : Embedded m x e) (B : ℕ) (hB : e.shape.getD 0 0 = B) (g : Option ℕ) (hg : BatchKnown k B g) :
    ∃ y g', A.mpsForward m x g = (.ok y, g') ∧ y.shape = [B, m.outputDim] ∧ ∀ b < B, ∀ o < m.outputDim,
      ‖y.get [b, o] - mpsValue m.bondDim m.featureDim m.inputDim k ub m.periodic p e b o‖ ≤
        ((1 + γ) ^ (2 * m.inputDim + 2) * (1 + u) ^ (2 * m.inputDim) - 1) *
          mpsValue m.bondDim m.featureDim m.inputDim k ub m.periodic (absParams p) (absT e) b o :=
  mps_rounded ac hS.1 k ub p m h hD hs hS.2.1 hS.2.2.1 hS.2.2.2 x e he B hB g hg

/-- C96. Two runs of the same MPS on the same input, on different hardware and in different evaluation modes, differ by at most twice the bound. -/
theorem C96_agree [RCLike K] (A A' : NetArith K) (S : ℕ) (γ u : ℝ) (ac : AccurateNet A S γ u) (ac' : AccurateNet A' S γ u) (k : ℕ) (ub : Bool) (p : Params K) (m : MPS K)
    (h : IsMps k ub p m) (par : Bool) (hD : m.periodic = true ∨ 1 ≤ m.bondDim) (hs : NoShortRegion m.inputDim k)
    (hS : 1 ≤ S ∧ m.bondDim ≤ S ∧ m.featureDim ≤ S ∧ m.outputDim ≤ S) (x e : Tensor K)
    (he : Embedded m x e) (B : ℕ) (hB : e.shape.getD 0 0 = B) (g g' : Option ℕ) (hg : BatchKnown k B g) (hg' : BatchKnown k B g') :
    ∃ y y', (A.mpsForward m x g).1 = .ok y ∧ (A'.mpsForward { m with parallel := par } x g').1 = .ok y' ∧ y.shape = y'.shape ∧ ∀ b < B, ∀ o < m.outputDim,
      ‖y.get [b, o] - y'.get [b, o]‖ ≤ 2 * (((1 + γ) ^ (2 * m.inputDim + 2) * (1 + u) ^ (2 * m.inputDim) - 1) *
          mpsValue m.bondDim m.featureDim m.inputDim k ub m.periodic (absParams p) (absT e) b o) := by
  obtain ⟨y, _, y1, y2, y3⟩ := C96_mps A S γ u ac k ub p m h hD hs hS x e he B hB g hg
  obtain ⟨z, _, z1, z2, z3⟩ := C96_mps A' S γ u ac' k ub p { m with parallel := par } ⟨h.label, h.modules, h.left, h.leftBias, h.out, h.right, h.rightBias⟩ hD hs hS x e he B hB g' hg'
  refine ⟨y, z, by rw [y1], by rw [z1], by rw [y2, z2], ?_⟩
  intro b hb o ho
  have a1 := y3 b hb o ho
  have a2 := z3 b hb o ho
  rw [norm_sub_rev] at a2
  refine le_trans (norm_sub_le_norm_sub_add_norm_sub _ (mpsValue m.bondDim m.featureDim m.inputDim k ub m.periodic p e b o) _) ?_
  simp only at a2
  linarith

theorem absT_nonneg (t : Tensor ℝ) (h : ∀ idx, 0 ≤ t.get idx) : absT t = t := by
  cases t
  simp only [absT, Tensor.mk.injEq, true_and]
  funext idx
  exact Real.norm_of_nonneg (h idx)

/-- C96. When all parameters and features are nonnegative, every output has a small relative error. -/
theorem C96_nonneg (A : NetArith ℝ) (S : ℕ) (γ u : ℝ) (ac : AccurateNet A S γ u) (k : ℕ) (ub : Bool) (p : Params ℝ) (m : MPS ℝ) (h : IsMps k ub p m)
    (hD : m.periodic = true ∨ 1 ≤ m.bondDim) (hs : NoShortRegion m.inputDim k) (hS : 1 ≤ S ∧ m.bondDim ≤ S ∧ m.featureDim ≤ S ∧ m.outputDim ≤ S) (x e : Tensor ℝ)
    (he : Embedded m x e) (hp : NonnegNet p) (hn : ∀ idx, 0 ≤ e.get idx) (B : ℕ) (hB : e.shape.getD 0 0 = B) (g : Option ℕ) (hg : BatchKnown k B g) :
    ∃ y, (A.mpsForward m x g).1 = .ok y ∧ ∀ b < B, ∀ o < m.outputDim,
      |y.get [b, o] - mpsValue m.bondDim m.featureDim m.inputDim k ub m.periodic p e b o| ≤
        ((1 + γ) ^ (2 * m.inputDim + 2) * (1 + u) ^ (2 * m.inputDim) - 1) * mpsValue m.bondDim m.featureDim m.inputDim k ub m.periodic p e b o := by
  obtain ⟨y, _, y1, y2, y3⟩ := C96_mps A S γ u ac k ub p m h hD hs hS x e he B hB g hg
  refine ⟨y, by rw [y1], ?_⟩
  intro b hb o ho
  have := y3 b hb o ho
  rw [absT_nonneg e hn, show absParams p = p by
    cases p
    simp only [absParams, Params.mk.injEq]
    exact ⟨absT_nonneg _ hp.1, absT_nonneg _ hp.2.1, absT_nonneg _ hp.2.2.1, absT_nonneg _ hp.2.2.2.1, absT_nonneg _ hp.2.2.2.2⟩] at this
  exact this

/-- C96. The same for a TI_MPS on every accepted input whose longest sequence has `n ≥ 1` steps. -/
theorem C96_ti [RCLike K] (A : NetArith K) (S : ℕ) (γ u : ℝ) (ac : AccurateNet A S γ u) (m : TiMps K) (h : IsTi m)
    (hS : 1 ≤ S ∧ m.bondDim ≤ S ∧ m.featureDim ≤ S ∧ m.outputDim ≤ S) (inp : TiInput K) (B n : ℕ) (hi : TiAccepts m B n inp) (hn : 1 ≤ n) (g : Option ℕ) :
    ∃ y, A.tiForward m inp g = (.ok y, some B) ∧ y.shape = [B, m.outputDim] ∧ ∀ b < B, ∀ o < m.outputDim,
      ‖y.get [b, o] - tiValue m n (tiEntry m inp b) o‖ ≤
        ((1 + γ) ^ (2 * n + 1) * (1 + u) ^ (2 * n) - 1) * tiValue (absTi m) n (fun i f => ‖tiEntry m inp b i f‖) o := by
  obtain ⟨x, x1, x2, x3⟩ := C69_accepted m B n inp hi
  obtain ⟨y, y1, y2, y3⟩ := ti_rounded ac hS.1 m h hS.2.1 hS.2.2.1 hS.2.2.2 inp x x1 B n x2 hn g
  refine ⟨y, y1, y2, ?_⟩
  intro b hb o ho
  have := y3 b hb o ho
  rw [tiValue_congr m (seqOf x b) (tiEntry m inp b) n (fun i hi f hf => x3 b hb i hi f hf) o,
    tiValue_congr (absTi m) (seqOf (absT x) b) (fun i f => ‖tiEntry m inp b i f‖) n (fun i hi f hf => by
      rw [← x3 b hb i hi f hf]; rfl) o] at this
  exact this

/-- C96. Arithmetic that rounds after every operation with relative error at most `u` is accurate, with `γ = (1+u)^(S+1) - 1`, whatever the order of
the summations. -/
theorem C96_rounding (rnd : ℝ → ℝ) (u : ℝ) (h : IsRounding rnd u) (hu : 0 ≤ u) (ord : List ℕ → List ℝ → List ℝ) (hord : ∀ idx l, (ord idx l).Perm l) (S : ℕ) :
    AccurateNet (rndNet rnd ord) S ((1 + u) ^ (S + 1) - 1) u := by
  have hpow : ∀ q q' : ℕ, q ≤ q' → (1 + u) ^ q ≤ (1 + u) ^ q' := fun q q' hq => pow_le_pow_right₀ (by linarith) hq
  have key : ∀ idx l, l.length ≤ S → |flSum rnd ((ord idx l).map rnd) - l.sum| ≤ ((1 + u) ^ (S + 1) - 1) * (l.map abs).sum := by
    intro idx l hl
    have hp := hord idx l
    have := flSum_err h hu (ord idx l)
    rw [hp.sum_eq, (hp.map abs).sum_eq, hp.length_eq] at this
    refine le_trans this (mul_le_mul_of_nonneg_right ?_ (le_trans (abs_nonneg _) (abs_list_sum_le l)))
    linarith [hpow (l.length + 1) (S + 1) (by omega)]
  refine ⟨by linarith [one_le_pow₀ (n := S + 1) (show 1 ≤ 1 + u by linarith)], hu, ?_, ?_, ?_, ?_⟩
  · intro idx l hl
    have := key idx (l.map (fun p => p.1 * p.2)) (by simpa using hl)
    rw [List.map_map] at this
    have e : (abs ∘ fun p : ℝ × ℝ => p.1 * p.2) = fun p : ℝ × ℝ => ‖p.1‖ * ‖p.2‖ := by
      funext p
      simp [abs_mul]
    rw [e] at this
    exact this
  · intro idx l hl
    exact key idx l hl
  · intro idx a b
    exact h _
  · intro idx x
    exact h _

/-- parameters for two pixels on each side of the output, with signs -/
def rndParams : Params ℝ :=
  ⟨⟨[2, 2, 2, 2], fun i => i.getD 3 0⟩, ⟨[1, 2, 2], fun _ => -1⟩, ⟨[3, 2, 2], fun i => i.getD 0 0⟩, ⟨[2, 2, 2, 2], fun _ => 1⟩, ⟨[1, 2, 2], fun _ => 1⟩⟩

/-- the model with these parameters -/
def rndMps (periodic par : Bool) : MPS ℝ :=
  ⟨4, 3, 2, 2, periodic, par, none, none, [.inputRegion rndParams.left (some rndParams.leftBias), .outputSite rndParams.out,
    .inputRegion rndParams.right (some rndParams.rightBias)]⟩

/-- a batch of five raw samples -/
noncomputable def rndInput : Tensor ℝ := ⟨[5, 4], fun i => (i.getD 1 0 : ℝ) / 7⟩

/-- Two pixels on each side of the output, bond dimension 2, default embedding of raw values, sums taken backwards, 24 significant bits: the outputs. -/
example (periodic par : Bool) : ∃ y γ u, u = (2 : ℝ)⁻¹ ^ 23 ∧ γ = (1 + u) ^ 4 - 1 ∧
    ((rndNet (truncBits 23) (fun _ l => l.reverse)).mpsForward (rndMps periodic par) rndInput none).1 = .ok y ∧ y.shape = [5, 3] ∧
    ∀ b < 5, ∀ o < 3, |y.get [b, o] - mpsValue 2 2 4 2 true periodic rndParams (embedLinear rndInput) b o| ≤
      ((1 + γ) ^ 10 * (1 + u) ^ 8 - 1) * mpsValue 2 2 4 2 true periodic (absParams rndParams) (absT (embedLinear rndInput)) b o := by
  have ac := C96_rounding (truncBits 23) _ (truncBits_isRounding 23) (by positivity) (fun _ l => l.reverse) (fun _ l => l.reverse_perm) 3
  obtain ⟨y, g', y1, y2, y3⟩ := C96_mps _ 3 _ _ ac 2 true rndParams (rndMps periodic par) ⟨by simp [rndMps], rfl, rfl, rfl, rfl, rfl, rfl⟩
    (Or.inr (by simp [rndMps])) ⟨by decide, by simp [rndMps]⟩ ⟨by decide, by simp [rndMps], by simp [rndMps], by simp [rndMps]⟩
    rndInput (embedLinear rndInput) ⟨rndInput, rfl, by
      unfold MPS.embedInput
      rw [assert_true _ (by simp [rndInput, Tensor.ndim]), bind_ok_except, assert_true _ (by simp [rndInput, rndMps]), bind_ok_except, if_neg (by simp [rndInput, Tensor.ndim])]
      simp [rndMps]⟩ 5 rfl none (Or.inl (by decide))
  exact ⟨y, _, _, rfl, rfl, by rw [y1], y2, y3⟩

/-- the same with nonnegative parameters: relative errors below 2^-16 -/
example (periodic par : Bool) : ∃ y, ((rndNet (truncBits 23) (fun _ l => l)).mpsForward ⟨4, 3, 2, 2, periodic, par, none, none,
      [.inputRegion ⟨[2, 2, 2, 2], fun _ => 1⟩ none, .outputSite ⟨[3, 2, 2], fun i => i.getD 0 0⟩, .inputRegion ⟨[2, 2, 2, 2], fun _ => 2⟩ none]⟩
      ⟨[5, 4, 2], fun i => (i.getD 1 0 : ℝ) / 7⟩ (some 3)).1 = .ok y ∧ ∃ v : ℕ → ℕ → ℝ, (∀ b o, v b o = mpsValue (K := ℝ) 2 2 4 2 false periodic
        ⟨⟨[2, 2, 2, 2], fun _ => 1⟩, ⟨[1, 2, 2], fun _ => 0⟩, ⟨[3, 2, 2], fun i => i.getD 0 0⟩, ⟨[2, 2, 2, 2], fun _ => 2⟩, ⟨[1, 2, 2], fun _ => 0⟩⟩
        ⟨[5, 4, 2], fun i => (i.getD 1 0 : ℝ) / 7⟩ b o) ∧ ∀ b < 5, ∀ o < 3, |y.get [b, o] - v b o| ≤ ((1 + 2⁻¹ ^ 23) ^ 48 - 1) * v b o := by
  have ac := C96_rounding (truncBits 23) _ (truncBits_isRounding 23) (by positivity) (fun _ l => l) (fun _ l => .refl l) 3
  obtain ⟨y, y1, y3⟩ := C96_nonneg _ 3 _ _ ac 2 false
    ⟨⟨[2, 2, 2, 2], fun _ => 1⟩, ⟨[1, 2, 2], fun _ => 0⟩, ⟨[3, 2, 2], fun i => i.getD 0 0⟩, ⟨[2, 2, 2, 2], fun _ => 2⟩, ⟨[1, 2, 2], fun _ => 0⟩⟩
    ⟨4, 3, 2, 2, periodic, par, none, none,
      [.inputRegion ⟨[2, 2, 2, 2], fun _ => 1⟩ none, .outputSite ⟨[3, 2, 2], fun i => i.getD 0 0⟩, .inputRegion ⟨[2, 2, 2, 2], fun _ => 2⟩ none]⟩
    ⟨by simp, rfl, rfl, rfl, rfl, rfl, rfl⟩ (Or.inr (by simp)) ⟨by decide, by simp⟩ ⟨by decide, by simp, by simp, by simp⟩
    ⟨[5, 4, 2], fun i => (i.getD 1 0 : ℝ) / 7⟩ ⟨[5, 4, 2], fun i => (i.getD 1 0 : ℝ) / 7⟩ ⟨_, rfl, embed_embedded _ 5 _ rfl⟩
    ⟨fun _ => by simp, fun _ => by simp, fun _ => by simp, fun _ => by simp, fun _ => by simp⟩ (fun _ => by positivity) 5 rfl (some 3) (Or.inl (by decide))
  refine ⟨y, y1, _, fun _ _ => rfl, fun b hb o ho => le_trans (y3 b hb o ho) (le_of_eq ?_)⟩
  simp only
  congr 1
  ring

/-- a TI_MPS with a fixed bias -/
def rndTi : TiMps ℝ :=
  ⟨1, 1, 2, false, true, true, none, ⟨[1, 1, 2], fun idx => if idx.getD 2 0 = 0 then -2 else 1⟩, ⟨[1], fun _ => 1⟩, ⟨[1, 1], fun _ => 3⟩, some ⟨[1, 1], fun _ => 1⟩⟩

/-- on a list of two sequences of different lengths -/
example : ∃ y γ u, u = (2 : ℝ)⁻¹ ^ 23 ∧ γ = (1 + u) ^ 3 - 1 ∧
    ((rndNet (truncBits 23) (fun _ l => l.reverse)).tiForward rndTi (.list [⟨[1, 2], fun _ => 4⟩, ⟨[3, 2], fun _ => 1 / 7⟩]) none).1 = .ok y ∧ y.shape = [2, 1] ∧
    ∀ b < 2, |y.get [b, 0] - tiValue rndTi 3 (tiEntry rndTi (.list [⟨[1, 2], fun _ => 4⟩, ⟨[3, 2], fun _ => 1 / 7⟩]) b) 0| ≤ ((1 + γ) ^ 7 * (1 + u) ^ 6 - 1) *
      tiValue (absTi rndTi) 3 (fun i f => ‖tiEntry rndTi (.list [⟨[1, 2], fun _ => 4⟩, ⟨[3, 2], fun _ => 1 / 7⟩]) b i f‖) 0 := by
  have ac := C96_rounding (truncBits 23) _ (truncBits_isRounding 23) (by positivity) (fun _ l => l.reverse) (fun _ l => l.reverse_perm) 2
  obtain ⟨y, y1, y2, y3⟩ := C96_ti _ 2 _ _ ac rndTi (by
      refine ⟨rfl, rfl, rfl, fun _ => ⟨_, rfl, rfl⟩, ?_⟩
      intro _ _ l hl r hr
      have h1 : l < 1 := hl
      have h2 : r < 1 := hr
      rw [if_pos (by omega)]
      rfl) ⟨by decide, by simp [rndTi], by simp [rndTi], by simp [rndTi]⟩ (.list [⟨[1, 2], fun _ => 4⟩, ⟨[3, 2], fun _ => 1 / 7⟩]) 2 3
    ⟨rfl, ⟨⟨[3, 2], fun _ => 1 / 7⟩, by simp, rfl⟩, by simp [itemLen], Or.inl ⟨rfl, rfl⟩, Or.inl (by simp [itemLen, rndTi])⟩ (by decide) none
  exact ⟨y, _, _, rfl, rfl, by rw [y1], y2, fun b hb => y3 b hb 0 (by simp [rndTi])⟩

end TorchMPS
