import Verif.Lemmas.AutodiffPsi
import Verif.Props.ProbMps2
/-
C85: gradients of log probabilities.
-/
namespace TorchMPS
open Spec
variable {K : Type} [RCLike K]

/-! ### The normalisation -/

theorem follows_line (d : Tensor (DualNumber K)) (t₀ : ℝ) :
    TensorFollows (fun t => ⟨d.shape, fun idx => (d.get idx).fst + ((t - t₀ : ℝ) : K) * (d.get idx).snd⟩) d t₀ := by
  refine ⟨fun t => rfl, fun idx _ => ⟨by simp, ?_⟩⟩
  have h : HasDerivAt (fun t : ℝ => ((t - t₀ : ℝ) : K)) ((1 : ℝ) : K) t₀ := (RCLike.ofRealCLM (K := K)).hasFDerivAt.comp_hasDerivAt t₀ ((hasDerivAt_id t₀).sub_const t₀)
  have := (h.mul_const (d.get idx).snd).const_add (d.get idx).fst
  simpa using this

theorem line_at (d : Tensor (DualNumber K)) (t₀ : ℝ) :
    (⟨d.shape, fun idx => (d.get idx).fst + ((t₀ - t₀ : ℝ) : K) * (d.get idx).snd⟩ : Tensor K) = primalT d := by
  unfold primalT
  simp

theorem normValue_primal (core bound : Tensor (DualNumber K)) (n d D : ℕ) (hc : CoreShape core n d D) (hb : bound.shape = [2, D]) (Λ : ℕ → ℕ → DualNumber K) :
    normValue star (primalT core) (primalT bound) n d D (fun i j => (Λ i j).fst) = (normValue dualConj core bound n d D Λ).fst := by
  have h := (normValue_follows hc hb (follows_line core 0) (follows_line bound 0) (Λ := fun t i j => (Λ i j).fst + ((t - 0 : ℝ) : K) * (Λ i j).snd) (dΛ := Λ)
    (fun i _ j _ => (follows_line (⟨[], fun _ => Λ i j⟩ : Tensor (DualNumber K)) 0).2 [] (by simp))).1
  rw [← h]
  have e : (fun i j => (Λ i j).fst + (((0 : ℝ) - 0 : ℝ) : K) * (Λ i j).snd) = fun i j => (Λ i j).fst := by
    funext i j; simp
  simp only [line_at, e]

theorem lambEntry_is (lamb : Option (Tensor K)) (d : ℕ) (Λ : ℕ → ℕ → K) (h : LambdaIs lamb d Λ) : ∀ i < d, ∀ j < d, lambEntry lamb i j = Λ i j := by
  intro i hi j hj
  cases lamb with
  | none => exact (h i hi j hj).symm
  | some t =>
    rcases h with ⟨hs, h⟩ | ⟨hs, h⟩ | ⟨hs, h⟩ <;> simp [lambEntry, hs, h i hi j hj]

theorem lambShape_is (lamb : Option (Tensor K)) (d : ℕ) (Λ : ℕ → ℕ → K) (h : LambdaIs lamb d Λ) : LambShape lamb d := by
  intro t ht
  obtain rfl := Option.mem_def.1 ht
  rcases h with ⟨hs, -⟩ | ⟨hs, -⟩ | ⟨hs, -⟩
  · exact Or.inl hs
  · exact Or.inr (Or.inl hs)
  · exact Or.inr (Or.inr hs)

theorem lambEntry_follows {lamb : ℝ → Option (Tensor K)} {dlamb : Option (Tensor (DualNumber K))} {t₀ : ℝ} {d : ℕ} (h : OptFollows lamb dlamb t₀) (hs : LambShape dlamb d) :
    ∀ i < d, ∀ j < d, Follows (fun t => lambEntry (lamb t) i j) (lambEntry dlamb i j) t₀ := by
  intro i hi j hj
  cases dlamb with
  | none =>
    have h : ∀ t, lamb t = none := h
    simp only [h, lambEntry]
    split
    · exact ⟨rfl, hasDerivAt_const _ _⟩
    · exact follows_zero t₀
  | some l =>
    obtain ⟨g, hg, hgf⟩ := h
    simp only [hg, lambEntry, hgf.1]
    rcases hs l rfl with hs | hs | hs
    · rw [hs]
      simp only
      split
      · exact hgf.2 [] (by simp [hs])
      · exact follows_zero t₀
    · rw [hs]
      simp only
      split
      · exact hgf.2 [i] (by simp [hs, hi])
      · exact follows_zero t₀
    · rw [hs]
      exact hgf.2 [i, j] (by simp [hs, hi, hj])

theorem lambEntry_primal (lamb : Option (Tensor (DualNumber K))) (i j : ℕ) : lambEntry (primalOpt lamb) i j = (lambEntry lamb i j).fst := by
  cases lamb with
  | none => simp only [lambEntry, primalOpt, Option.map_none]; split <;> rfl
  | some l =>
    simp only [lambEntry, primalOpt, Option.map_some, primalT]
    split
    · split <;> rfl
    · split <;> rfl
    · rfl

theorem lambdaIs_entry (lamb : Option (Tensor K)) (d : ℕ) (hs : LambShape lamb d) (Λ : ℕ → ℕ → K) (h : ∀ i < d, ∀ j < d, lambEntry lamb i j = Λ i j) : LambdaIs lamb d Λ := by
  cases lamb with
  | none => exact fun i hi j hj => (h i hi j hj).symm
  | some t =>
    rcases hs t rfl with hs | hs | hs
    · exact Or.inl ⟨hs, fun i hi j hj => by rw [← h i hi j hj]; simp [lambEntry, hs]⟩
    · exact Or.inr (Or.inl ⟨hs, fun i hi j hj => by rw [← h i hi j hj]; simp [lambEntry, hs]⟩)
    · exact Or.inr (Or.inr ⟨hs, fun i hi j hj => by rw [← h i hi j hj]; simp [lambEntry, hs]⟩)

/-- C85, `get_log_norm`. Let the cores, the boundary vectors and the lambda matrix move along differentiable curves, the lambda matrix being at every time the Gram
matrix of a family of feature vectors. If the weighted sum `W t₀` of squared amplitudes is not zero, differentiating `get_log_norm` - through the transfer
operators, the traces, the divisions and the logarithms - succeeds, and gives the value and the derivative at `t₀` of what `get_log_norm` returns near `t₀`, which is
the logarithm of `W`; that is, `W' / W`. -/
theorem C85_log_norm {ι : Type} [Fintype ι] (core bound : ℝ → Tensor K) (lamb : ℝ → Option (Tensor K)) (dcore dbound : Tensor (DualNumber K))
    (dlamb : Option (Tensor (DualNumber K))) (t₀ : ℝ) (n d D : ℕ) (hc : CoreShape dcore n d D) (hb : dbound.shape = [2, D]) (length : Option ℤ)
    (hlen : LengthArg dcore n length) (hcf : TensorFollows core dcore t₀) (hbf : TensorFollows bound dbound t₀) (hlf : OptFollows lamb dlamb t₀)
    (w : ι → ℝ) (hw : ∀ a, 0 ≤ w a) (v : ℝ → ι → ℕ → K) (hL : ∀ t, LambdaIs (lamb t) d (fun i j => ∑ a, (w a : K) * (v t a i * star (v t a j))))
    (h0 : weightedNormSq (core t₀) (bound t₀) n d D w (v t₀) ≠ 0) :
    ∃ L, dualLogNorm dcore dbound length dlamb = .ok (some L) ∧
      (∀ᶠ t in nhds t₀, getLogNorm (core t) (bound t) length (lamb t) = .ok (some ((Real.log (weightedNormSq (core t) (bound t) n d D w (v t)) : ℝ) : EReal))) ∧
      Follows (fun t => Real.log (weightedNormSq (core t) (bound t) n d D w (v t))) L t₀ ∧
      ∃ W', HasDerivAt (fun t => weightedNormSq (core t) (bound t) n d D w (v t)) W' t₀ ∧ L.snd = W' / weightedNormSq (core t₀) (bound t₀) n d D w (v t₀) := by
  have hshape : LambShape dlamb d := by
    intro l hl
    have h := lambShape_is _ _ _ (hL t₀)
    have e := optShape_of_follows hlf t₀
    rw [Option.mem_def.1 hl] at e
    cases hx : lamb t₀ with
    | none => rw [hx] at e; simp at e
    | some x =>
      rw [hx] at e
      simp only [Option.map_some, Option.some.injEq] at e
      rw [← e]
      exact h x hx
  have hct : ∀ t, CoreShape (core t) n d D := fun t => by unfold CoreShape; rw [hcf.1 t]; exact hc
  have hbt : ∀ t, (bound t).shape = [2, D] := fun t => by rw [hbf.1 t]; exact hb
  have hlt : ∀ t, LengthArg (core t) n length := fun t => by unfold LengthArg; rw [hcf.1 t]; exact hlen
  set Zd := normValue dualConj dcore dbound n d D (lambEntry dlamb) with hZd
  have hF := normValue_follows hc hb hcf hbf (lambEntry_follows hlf hshape)
  rw [← hZd] at hF
  have hW : ∀ t, normValue star (core t) (bound t) n d D (lambEntry (lamb t)) = ((weightedNormSq (core t) (bound t) n d D w (v t) : ℝ) : K) := fun t =>
    normValue_eq _ _ n d D (hct t) _ w (v t) (lambEntry_is _ _ _ (hL t))
  simp only [hW] at hF
  have hd : HasDerivAt (fun t => weightedNormSq (core t) (bound t) n d D w (v t)) (RCLike.re Zd.snd) t₀ := by
    have := (RCLike.reCLM (K := K)).hasFDerivAt.comp_hasDerivAt t₀ hF.2
    simpa [Function.comp_def] using this
  have hv0 : weightedNormSq (core t₀) (bound t₀) n d D w (v t₀) = RCLike.re Zd.fst := by
    have := congrArg RCLike.re hF.1
    simpa using this
  -- the run on the values succeeds
  have hp : getLogNorm (primalT dcore) (primalT dbound) length (primalOpt dlamb) = .ok (some ((Real.log (weightedNormSq (core t₀) (bound t₀) n d D w (v t₀)) : ℝ) : EReal)) := by
    have hLp : ∀ i < d, ∀ j < d, lambEntry (primalOpt dlamb) i j = ∑ a, (w a : K) * (v t₀ a i * star (v t₀ a j)) := by
      intro i hi j hj
      rw [lambEntry_primal, ← lambEntry_is _ _ _ (hL t₀) i hi j hj]
      exact ((lambEntry_follows hlf hshape i hi j hj).1).symm
    have hS : LambShape (primalOpt dlamb) d := by
      intro l hl
      cases hx : dlamb with
      | none => rw [hx] at hl; simp [primalOpt] at hl
      | some x =>
        rw [hx] at hl
        simp only [primalOpt, Option.map_some, Option.mem_def, Option.some.injEq] at hl
        rw [← hl]
        exact hshape x hx
    have he : weightedNormSq (primalT dcore) (primalT dbound) n d D w (v t₀) = weightedNormSq (core t₀) (bound t₀) n d D w (v t₀) := by
      have e1 := normValue_eq (primalT dcore) (primalT dbound) n d D hc (lambEntry (primalOpt dlamb)) w (v t₀) hLp
      have e2 : lambEntry (primalOpt dlamb) = fun i j => (lambEntry dlamb i j).fst := by funext i j; exact lambEntry_primal dlamb i j
      rw [e2, normValue_primal dcore dbound n d D hc hb, ← hZd] at e1
      have := congrArg RCLike.re e1
      rw [RCLike.ofReal_re, ← hv0] at this
      exact this.symm
    rw [← he]
    exact C18_log_norm_lambda (primalT dcore) (primalT dbound) n d D hc hb length hlen (primalOpt dlamb) w hw (v t₀) (lambdaIs_entry _ _ hS _ hLp) (by rw [he]; exact h0)
  have hsame := dualLogNorm_primal dcore dbound length dlamb
  rw [hp] at hsame
  obtain ⟨L, hLd⟩ : ∃ L, dualLogNorm dcore dbound length dlamb = .ok (some L) := by
    cases hr : dualLogNorm dcore dbound length dlamb with
    | error e => rw [hr] at hsame; cases hsame
    | ok o =>
      cases o with
      | some L => exact ⟨L, rfl⟩
      | none =>
        rw [hr] at hsame
        rcases hsame with h | h
        · cases h
        · simp only [Except.ok.injEq, Option.some.injEq] at h
          exact absurd h (EReal.coe_ne_bot _)
  obtain ⟨hpos, hLe⟩ := dualLogNorm_exact dcore dbound n d D hc length hlen dlamb hshape L hLd
  rw [← hZd] at hpos hLe
  refine ⟨L, hLd, ?_, ?_, RCLike.re Zd.snd, hd, by rw [hLe, hv0]; rfl⟩
  · filter_upwards [hd.continuousAt.eventually_ne h0] with t ht
    exact C18_log_norm_lambda _ _ n d D (hct t) (hbt t) length (hlt t) _ w hw (v t) (hL t) ht
  · rw [hLe]
    refine ⟨by simp only [hv0]; rfl, ?_⟩
    have := hd.log h0
    rw [hv0] at this
    exact this

/-! ### Log probabilities -/

theorem dualLogAbs_scale (l : DualNumber ℝ) (p : DualNumber K) (hp : p.fst ≠ 0) :
    dualLogAbs l p = jet (Real.log ‖(dualExpMul l p).fst‖) (RCLike.re (star (dualExpMul l p).fst * (dualExpMul l p).snd) / ‖(dualExpMul l p).fst‖ ^ 2) := by
  have he := Real.exp_pos l.fst
  have hn : ‖p.fst‖ ≠ 0 := norm_ne_zero_iff.2 hp
  have hnorm : ‖(dualExpMul l p).fst‖ = Real.exp l.fst * ‖p.fst‖ := by
    show ‖((Real.exp l.fst : ℝ) : K) * p.fst‖ = _
    rw [norm_mul, RCLike.norm_ofReal, abs_of_pos he]
  refine dual_ext ?_ ?_
  · show Real.log ‖p.fst‖ + l.fst = Real.log _
    rw [hnorm, Real.log_mul he.ne' hn, Real.log_exp, add_comm]
  · show RCLike.re (star p.fst * p.snd) / ‖p.fst‖ ^ 2 + l.snd = RCLike.re (star (((Real.exp l.fst : ℝ) : K) * p.fst) *
      (((Real.exp l.fst : ℝ) : K) * p.snd + ((Real.exp l.fst * l.snd : ℝ) : K) * p.fst)) / _
    rw [hnorm]
    have e : star (((Real.exp l.fst : ℝ) : K) * p.fst) * (((Real.exp l.fst : ℝ) : K) * p.snd + ((Real.exp l.fst * l.snd : ℝ) : K) * p.fst) =
        ((Real.exp l.fst ^ 2 : ℝ) : K) * (star p.fst * p.snd) + ((Real.exp l.fst ^ 2 * l.snd * ‖p.fst‖ ^ 2 : ℝ) : K) := by
      have h2 : p.fst * star p.fst = ((‖p.fst‖ ^ 2 : ℝ) : K) := mul_star_self_eq p.fst
      rw [star_mul', RCLike.star_def, RCLike.conj_ofReal]
      rw [RCLike.star_def] at h2
      push_cast at h2 ⊢
      linear_combination (((Real.exp l.fst : ℝ) : K) ^ 2 * ((l.snd : ℝ) : K)) * h2
    rw [e, map_add, RCLike.re_ofReal_mul, RCLike.ofReal_re]
    field_simp

/-- the derivative of `log(|ψ|² / Z)` -/
theorem bornLog_follows {ψ : ℝ → K} {p : DualNumber K} {l L : DualNumber ℝ} {Z : ℝ → ℝ} {t₀ : ℝ} (hψ : Follows ψ (dualExpMul l p) t₀) (h0 : ψ t₀ ≠ 0)
    (hZ : Follows (fun t => Real.log (Z t)) L t₀) (hZ0 : ∀ᶠ t in nhds t₀, Z t ≠ 0) :
    p.fst ≠ 0 ∧ Follows (fun t => Real.log (‖ψ t‖ ^ 2 / Z t)) (2 * dualLogAbs l p - L) t₀ := by
  have hψ1 : ψ t₀ = ((Real.exp l.fst : ℝ) : K) * p.fst := hψ.1
  have hp : p.fst ≠ 0 := fun h => h0 (by rw [hψ1, h, mul_zero])
  have hne : ∀ᶠ t in nhds t₀, ψ t ≠ 0 := hψ.2.continuousAt.eventually_ne h0
  have hev : (fun t => Real.log (‖ψ t‖ ^ 2 / Z t)) =ᶠ[nhds t₀] fun t => (Real.log ‖ψ t‖ + Real.log ‖ψ t‖) - Real.log (Z t) := by
    filter_upwards [hne, hZ0] with t h1 h2
    rw [Real.log_div (pow_ne_zero _ (norm_ne_zero_iff.2 h1)) h2, Real.log_pow]
    push_cast
    ring
  have hlog := hasDerivAt_logNorm hψ.2 h0
  refine ⟨hp, ?_⟩
  rw [two_mul, dualLogAbs_scale l p hp]
  refine ⟨?_, ?_⟩
  · have hZ1 : Real.log (Z t₀) = L.fst := hZ.1
    have e := hev.eq_of_nhds
    refine e.trans ?_
    rw [hZ1]
    have : ψ t₀ = (dualExpMul l p).fst := hψ.1
    rw [this]
    rfl
  · refine HasDerivAt.congr_of_eventuallyEq ?_ hev
    have : ψ t₀ = (dualExpMul l p).fst := hψ.1
    rw [this] at hlog
    exact (hlog.add hlog).sub hZ.2

theorem modelLogNorm_follows (m : ℝ → ProbMPS K) (dm : ProbMPS (DualNumber K)) (t₀ : ℝ) (n d D : ℕ) (hmf : ModelFollows m dm t₀) (hm : ValidModel dm n d D)
    (hZ : modelZ (m t₀) n d D ≠ 0) :
    ∃ L, dualModelLogNorm dm n = .ok (some L) ∧ Follows (fun t => Real.log (modelZ (m t) n d D)) L t₀ ∧
      ∃ Z', HasDerivAt (fun t => modelZ (m t) n d D) Z' t₀ ∧ L.snd = Z' / modelZ (m t₀) n d D := by
  have hc : CoreShape (addBias dm.core dm.bias) n d D := by
    have := dualCoreShape hm
    unfold CoreShape at *
    cases dm.bias <;> exact this
  have hcf : TensorFollows (fun t => addBias (m t).core (m t).bias) (addBias dm.core dm.bias) t₀ := by
    rcases dualCoreShape hm with h | h
    · exact addBias_follows (pre := [d]) hmf.core h hmf.bias hm.bias
    · exact addBias_follows (pre := [n, d]) hmf.core h hmf.bias hm.bias
  have hlen : LengthArg (addBias dm.core dm.bias) n (if dm.uniform then some (n : ℤ) else none) := by
    have e : (addBias dm.core dm.bias).shape = dm.core.shape := by cases dm.bias <;> rfl
    unfold LengthArg
    rw [e, hm.core]
    cases dm.uniform <;> simp
  have hW : ∀ t, weightedNormSq (addBias (m t).core (m t).bias) (m t).edge n d D (fun _ : Fin d => (1 : ℝ)) (fun k i => if i = (k : ℕ) then (1 : K) else 0) =
      modelZ (m t) n d D := by
    intro t
    rw [weightedNormSq_unit, normSq_addBias (m t) n d D (hmf.valid hm t)]
  have hlf : OptFollows (fun _ => none) (none : Option (Tensor (DualNumber K))) t₀ := fun t => rfl
  obtain ⟨L, h1, -, h3, W', h4, h5⟩ := C85_log_norm (fun t => addBias (m t).core (m t).bias) (fun t => (m t).edge) (fun _ => none) (addBias dm.core dm.bias) dm.edge none t₀ n d D hc
    hm.edge (if dm.uniform then some (n : ℤ) else none) hlen hcf hmf.edge hlf (fun _ : Fin d => (1 : ℝ)) (fun _ => zero_le_one) (fun _ k i => if i = (k : ℕ) then (1 : K) else 0)
    (fun t => lambda_unit d) (by simp only [hW]; exact hZ)
  simp only [hW] at h3 h4 h5
  refine ⟨L, ?_, h3, W', h4, h5⟩
  simp only [dualModelLogNorm, hmf.plain, bind, Except.bind, h1]

theorem dualBody_born (dAbs : Mat (DualNumber K) → ℝ) (m : ℝ → ProbMPS K) (dm : ProbMPS (DualNumber K)) (x : ℝ → SeqInput K) (dx : SeqInput (DualNumber K)) (t₀ : ℝ)
    (n d D B : ℕ) (hn : n ≠ 0) (hmf : ModelFollows m dm t₀) (hxf : InputFollows x dx t₀) (hm : ValidModel dm n d D) (hx : ValidInput dx B n d) (slim par : Bool)
    (hs : SlimOK dm slim B n) (hZ : modelZ (m t₀) n d D ≠ 0) (hψ : ∀ b < B, psi (m t₀) (x t₀) n d D b ≠ 0) :
    ∃ out, dualBody dAbs dm dx B n slim par = .ok out ∧ out.shape = [B] ∧
      (∀ᶠ t in nhds t₀, ∃ o, ((m t).forward (x t) slim par).1 = .ok o ∧ o.shape = [B] ∧
        ∀ b < B, o.get [b] = some ((Real.log (‖psi (m t) (x t) n d D b‖ ^ 2 / modelZ (m t) n d D) : ℝ) : EReal)) ∧
      ∀ b < B, ∃ g, out.get [b] = some g ∧ Follows (fun t => Real.log (‖psi (m t) (x t) n d D b‖ ^ 2 / modelZ (m t) n d D)) g t₀ := by
  classical
  obtain ⟨ps, h1, h2, h3, h4⟩ := dualEvalPsi_spec dAbs m dm x dx t₀ n d D B hn hmf hxf hm hx slim par hs hψ
  obtain ⟨L, hL, hLf, Z', hZ', -⟩ := modelLogNorm_follows m dm t₀ n d D hmf hm hZ
  have hZe : ∀ᶠ t in nhds t₀, modelZ (m t) n d D ≠ 0 := hZ'.continuousAt.eventually_ne hZ
  have hall : ∀ idx, InRange idx ps.product.shape → (ps.product.get idx).isSome := by
    intro idx hidx
    rw [h2] at hidx
    obtain _ | ⟨b, _ | ⟨_, _⟩⟩ := idx <;> simp at hidx
    obtain ⟨p, l, hp, -⟩ := h4 b hidx
    rw [hp]; rfl
  refine ⟨⟨ps.product.shape, fun idx => dualLogProb (ps.product.get idx) (ps.logScale.get idx) L⟩, ?_, h2, ?_, ?_⟩
  · simp only [dualBody, h1, hL, bind, Except.bind]
    unfold dualFinish
    rw [assert_true _ (by rfl), assert_true _ hall]
    cases dm.uniform
    · rfl
    · rw [assert_true _ h2]; rfl
  · have hψe : ∀ᶠ t in nhds t₀, ∀ b < B, psi (m t) (x t) n d D b ≠ 0 := by
      have : ∀ b ∈ Finset.range B, ∀ᶠ t in nhds t₀, psi (m t) (x t) n d D b ≠ 0 := by
        intro b hb
        obtain ⟨p, l, -, -, hf⟩ := h4 b (Finset.mem_range.1 hb)
        exact hf.2.continuousAt.eventually_ne (hψ b (Finset.mem_range.1 hb))
      filter_upwards [(Filter.eventually_all_finset _).2 this] with t ht b hb
      exact ht b (Finset.mem_range.2 hb)
    filter_upwards [hψe, hZe] with t ht hZt
    refine C21_born_rule (m t) n d D (hmf.valid hm t) (hmf.embedding t) (x t) B (valid_of_follows hxf hx t) slim par ?_ hZt ht
    intro hsl
    obtain ⟨k1, k2⟩ := hs hsl
    refine ⟨?_, k2⟩
    have := hmf.bias
    rw [k1] at this
    exact this t
  · intro b hb
    obtain ⟨p, l, hp, hl, hf⟩ := h4 b hb
    obtain ⟨hp0, hres⟩ := bornLog_follows hf (hψ b hb) hLf hZe
    refine ⟨2 * dualLogAbs l p - L, ?_, hres⟩
    simp only [hp, hl, dualLogProb, bind, Option.bind]
    rw [if_neg hp0]

/-- C85, `forward`. Let the parameters of a model (cores, boundary vectors, bias) and the input vectors move along differentiable curves (indices stay fixed), and let no
amplitude of the batch vanish at `t₀`. Differentiating `forward` at `t₀` - with any evaluation strategy, and whatever derivative is used for the absolute value
in the rescaling factors - succeeds, and gives for every batch element the value and the derivative at `t₀` of the log probability which `forward` returns near `t₀`. -/
theorem C85_forward (dAbs : Mat (DualNumber K) → ℝ) (m : ℝ → ProbMPS K) (dm : ProbMPS (DualNumber K)) (x : ℝ → SeqInput K) (dx : SeqInput (DualNumber K)) (t₀ : ℝ)
    (n d D B : ℕ) (hn : n ≠ 0) (hmf : ModelFollows m dm t₀) (hxf : InputFollows x dx t₀) (hm : ValidModel dm n d D) (hx : ValidInput dx B n d) (slim par : Bool)
    (hs : SlimOK dm slim B n) (hZ : modelZ (m t₀) n d D ≠ 0) (hψ : ∀ b < B, psi (m t₀) (x t₀) n d D b ≠ 0) :
    ∃ out, dualBody dAbs dm dx B n slim par = .ok out ∧ out.shape = [B] ∧ ∃ y : ℝ → ℕ → ℝ,
      (∀ᶠ t in nhds t₀, ∃ o, ((m t).forward (x t) slim par).1 = .ok o ∧ o.shape = [B] ∧ ∀ b < B, o.get [b] = some ((y t b : ℝ) : EReal)) ∧
      ∀ b < B, ∃ g, out.get [b] = some g ∧ Follows (y · b) g t₀ := by
  obtain ⟨out, h1, h2, h3, h4⟩ := dualBody_born dAbs m dm x dx t₀ n d D B hn hmf hxf hm hx slim par hs hZ hψ
  exact ⟨out, h1, h2, fun t b => Real.log (‖psi (m t) (x t) n d D b‖ ^ 2 / modelZ (m t) n d D), h3, h4⟩

/-- C85, the formula for the gradient of a log probability: twice the real part of `ψ' / ψ` minus `Z' / Z`, where `ψ'` and `Z'` are the derivatives of the
amplitude and of the normalisation. -/
theorem C85_formula (dAbs : Mat (DualNumber K) → ℝ) (m : ℝ → ProbMPS K) (dm : ProbMPS (DualNumber K)) (x : ℝ → SeqInput K) (dx : SeqInput (DualNumber K)) (t₀ : ℝ)
    (n d D B : ℕ) (hn : n ≠ 0) (hmf : ModelFollows m dm t₀) (hxf : InputFollows x dx t₀) (hm : ValidModel dm n d D) (hx : ValidInput dx B n d) (slim par : Bool)
    (hs : SlimOK dm slim B n) (hZ : modelZ (m t₀) n d D ≠ 0) (hψ : ∀ b < B, psi (m t₀) (x t₀) n d D b ≠ 0)
    (ψ' : ℕ → K) (hψ' : ∀ b < B, HasDerivAt (fun t => psi (m t) (x t) n d D b) (ψ' b) t₀) (Z' : ℝ) (hZ' : HasDerivAt (fun t => modelZ (m t) n d D) Z' t₀) :
    ∃ out, dualBody dAbs dm dx B n slim par = .ok out ∧ ∀ b < B, ∃ g, out.get [b] = some g ∧
      g.fst = Real.log (‖psi (m t₀) (x t₀) n d D b‖ ^ 2 / modelZ (m t₀) n d D) ∧
      g.snd = 2 * RCLike.re (ψ' b / psi (m t₀) (x t₀) n d D b) - Z' / modelZ (m t₀) n d D := by
  obtain ⟨out, h1, h2, h3, h4⟩ := dualBody_born dAbs m dm x dx t₀ n d D B hn hmf hxf hm hx slim par hs hZ hψ
  refine ⟨out, h1, fun b hb => ?_⟩
  obtain ⟨g, hg, hf⟩ := h4 b hb
  refine ⟨g, hg, hf.1.symm, hf.2.unique ?_⟩
  have h0 := hψ b hb
  have hlog := hasDerivAt_logNorm (hψ' b hb) h0
  have := (hlog.add hlog).sub (hZ'.log hZ)
  refine HasDerivAt.congr_of_eventuallyEq (this.congr_deriv ?_) ?_
  · have e : RCLike.re (star (psi (m t₀) (x t₀) n d D b) * ψ' b) / ‖psi (m t₀) (x t₀) n d D b‖ ^ 2 = RCLike.re (ψ' b / psi (m t₀) (x t₀) n d D b) := by
      rw [div_eq_mul_inv (ψ' b), RCLike.inv_def, ← mul_assoc, mul_comm (ψ' b) _, RCLike.re_mul_ofReal, RCLike.star_def, div_eq_mul_inv]
    rw [← e]
    ring
  · filter_upwards [(hψ' b hb).continuousAt.eventually_ne h0, hZ'.continuousAt.eventually_ne hZ] with t k1 k2
    rw [Real.log_div (pow_ne_zero _ (norm_ne_zero_iff.2 k1)) k2, Real.log_pow]
    simp only [Pi.add_apply, Pi.sub_apply]
    push_cast
    ring

theorem list_sum_range {M : Type} [AddCommMonoid M] (f : ℕ → M) (N : ℕ) : ((List.range N).map f).sum = ∑ b ∈ Finset.range N, f b := by
  induction N with
  | zero => simp
  | succ N ih => rw [List.range_succ, List.map_append, List.sum_append, ih, Finset.sum_range_succ]; simp

/-- C85, the loss: differentiating the mean negative log likelihood gives the value and the derivative of what `loss` returns. -/
theorem C85_loss (dAbs : Mat (DualNumber K) → ℝ) (m : ℝ → ProbMPS K) (dm : ProbMPS (DualNumber K)) (x : ℝ → SeqInput K) (dx : SeqInput (DualNumber K)) (t₀ : ℝ)
    (n d D B : ℕ) (hn : n ≠ 0) (hB : B ≠ 0) (hmf : ModelFollows m dm t₀) (hxf : InputFollows x dx t₀) (hm : ValidModel dm n d D) (hx : ValidInput dx B n d)
    (slim par : Bool) (hs : SlimOK dm slim B n) (hZ : modelZ (m t₀) n d D ≠ 0) (hψ : ∀ b < B, psi (m t₀) (x t₀) n d D b ≠ 0) :
    ∃ out g, dualBody dAbs dm dx B n slim par = .ok out ∧ dualLoss out = some g ∧ ∃ y : ℝ → ℝ,
      (∀ᶠ t in nhds t₀, (m t).loss (x t) slim par = .ok (some ((y t : ℝ) : EReal))) ∧ Follows y g t₀ := by
  obtain ⟨out, h1, h2, h3, h4⟩ := dualBody_born dAbs m dm x dx t₀ n d D B hn hmf hxf hm hx slim par hs hZ hψ
  choose! g hg hf using h4
  refine ⟨out, -((1 / (B : ℝ)) • ∑ b ∈ Finset.range B, g b), h1, ?_, fun t => -((∑ b ∈ Finset.range B, Real.log (‖psi (m t) (x t) n d D b‖ ^ 2 / modelZ (m t) n d D)) / B), ?_, ?_⟩
  · have e : (List.range B).mapM (fun b => out.get [b]) = some ((List.range B).map g) :=
      mapM_option_some _ _ _ (fun b hb => hg b (List.mem_range.1 hb))
    simp only [dualLoss, h2, List.getD_cons_zero, hB, if_false, e, Option.map_some]
    rw [list_sum_range]
  · filter_upwards [h3] with t ht
    obtain ⟨o, ho, hos, hoe⟩ := ht
    have e : (List.range B).mapM (fun b => o.get [b]) = some ((List.range B).map (fun b => ((Real.log (‖psi (m t) (x t) n d D b‖ ^ 2 / modelZ (m t) n d D) : ℝ) : EReal))) :=
      mapM_option_some _ _ _ (fun b hb => hoe b (List.mem_range.1 hb))
    simp only [ProbMPS.loss, ho, hos, List.getD_cons_zero, hB, if_false, e, Option.map_some]
    rw [list_sum_range]
    have hs : ∀ (f : ℕ → ℝ) (N : ℕ), ∑ b ∈ Finset.range N, ((f b : ℝ) : EReal) = ((∑ b ∈ Finset.range N, f b : ℝ) : EReal) := by
      intro f N
      induction N with
      | zero => simp
      | succ N ih => rw [Finset.sum_range_succ, ih, Finset.sum_range_succ, EReal.coe_add]
    rw [hs]
    have hBe : ((B : ℕ) : EReal) = ((B : ℝ) : EReal) := by simp
    rw [hBe, ← EReal.coe_div, ← EReal.coe_neg]
  · have hsum : Follows (fun t => ∑ b ∈ Finset.range B, Real.log (‖psi (m t) (x t) n d D b‖ ^ 2 / modelZ (m t) n d D)) (∑ b ∈ Finset.range B, g b) t₀ :=
      Follows.sum _ (fun b hb => hf b (Finset.mem_range.1 hb))
    refine ⟨?_, ?_⟩
    · have := hsum.1
      simp only at this
      simp only [this]
      show -((∑ b ∈ Finset.range B, g b).fst / B) = -((1 / (B : ℝ)) • (∑ b ∈ Finset.range B, g b).fst)
      rw [smul_eq_mul]; ring
    · refine (hsum.2.div_const (B : ℝ)).neg.congr_deriv ?_
      show _ = -((1 / (B : ℝ)) • (∑ b ∈ Finset.range B, g b).snd)
      rw [smul_eq_mul]; ring

/-! ### Stationary directions -/

/-- C85, the score identity: the gradients of the log probabilities, averaged over all sequences with the probabilities of the model itself, vanish in every
direction. (So the expected loss is stationary as soon as the data follow the distribution of the model.) Sequences of probability zero, for which there is no gradient,
do not take part. -/
theorem C85_score (dAbs : Mat (DualNumber K) → ℝ) (m : ℝ → ProbMPS K) (dm : ProbMPS (DualNumber K)) (t₀ : ℝ) (n d D : ℕ) (hn : n ≠ 0) (hmf : ModelFollows m dm t₀)
    (hm : ValidModel dm n d D) (slim par : Bool) (hs : SlimOK dm slim 1 n) (hZ : modelZ (m t₀) n d D ≠ 0) (g : (Fin n → Fin d) → DualNumber ℝ)
    (hg : ∀ x, psiSeq (m t₀) n d D x ≠ 0 → ∃ out, dualBody dAbs dm (single x) 1 n slim par = .ok out ∧ out.get [0] = some (g x)) :
    open Classical in ∑ x ∈ Finset.univ.filter (fun x => psiSeq (m t₀) n d D x ≠ 0), Real.exp (g x).fst * (g x).snd = 0 := by
  classical
  set S := Finset.univ.filter (fun x : Fin n → Fin d => psiSeq (m t₀) n d D x ≠ 0) with hS
  have hf : ∀ x ∈ S, Follows (fun t => Real.log (‖psiSeq (m t) n d D x‖ ^ 2 / modelZ (m t) n d D)) (g x) t₀ := by
    intro x hx
    have hx0 : psiSeq (m t₀) n d D x ≠ 0 := (Finset.mem_filter.1 hx).2
    obtain ⟨out, h1, -, -, h4⟩ := dualBody_born dAbs m dm (fun _ => single x) (single x) t₀ n d D 1 hn hmf (fun _ => rfl) hm (single_valid x) slim par hs hZ
      (fun b _ => by rw [psi_single]; exact hx0)
    obtain ⟨out', h1', h2'⟩ := hg x hx0
    rw [h1] at h1'
    obtain rfl : out = out' := by simpa using h1'
    obtain ⟨g', hg', hfol⟩ := h4 0 one_pos
    rw [h2'] at hg'
    obtain rfl : g x = g' := by simpa using hg'
    simpa only [psi_single] using hfol
  obtain ⟨L, -, hLf, Z', hZ', -⟩ := modelLogNorm_follows m dm t₀ n d D hmf hm hZ
  have hZe : ∀ᶠ t in nhds t₀, modelZ (m t) n d D ≠ 0 := hZ'.continuousAt.eventually_ne hZ
  have hpos : ∀ t, modelZ (m t) n d D ≠ 0 → 0 < modelZ (m t) n d D := fun t h => lt_of_le_of_ne (Finset.sum_nonneg fun _ _ => sq_nonneg _) (Ne.symm h)
  have hψc : ∀ x ∈ S, ContinuousAt (fun t => psiSeq (m t) n d D x) t₀ := by
    intro x hx
    obtain ⟨ps, -, -, -, h4⟩ := dualEvalPsi_spec dAbs m dm (fun _ => single x) (single x) t₀ n d D 1 hn hmf (fun _ => rfl) hm (single_valid x) slim par hs
      (fun b _ => by rw [psi_single]; exact (Finset.mem_filter.1 hx).2)
    obtain ⟨p, l, -, -, h⟩ := h4 0 one_pos
    simpa only [psi_single] using h.2.continuousAt
  -- the total probability of the sequences of `S`
  set a : ℝ → ℝ := fun t => ∑ x ∈ S, Real.exp (Real.log (‖psiSeq (m t) n d D x‖ ^ 2 / modelZ (m t) n d D)) with ha
  have hda : HasDerivAt a (∑ x ∈ S, Real.exp (g x).fst * (g x).snd) t₀ := by
    rw [ha]
    refine HasDerivAt.fun_sum fun x hx => ?_
    have := (hf x hx).2.exp
    have e : Real.log (‖psiSeq (m t₀) n d D x‖ ^ 2 / modelZ (m t₀) n d D) = (g x).fst := (hf x hx).1
    rw [e] at this
    exact this
  have hle : ∀ᶠ t in nhds t₀, a t ≤ 1 := by
    filter_upwards [hZe, (Filter.eventually_all_finset S).2 fun x hx => (hψc x hx).eventually_ne (Finset.mem_filter.1 hx).2] with t ht ht'
    have e : a t = (∑ x ∈ S, ‖psiSeq (m t) n d D x‖ ^ 2) / modelZ (m t) n d D := by
      rw [ha, Finset.sum_div]
      refine Finset.sum_congr rfl fun x hx => Real.exp_log (div_pos ?_ (hpos t ht))
      exact pow_pos (norm_pos_iff.2 (ht' x hx)) 2
    rw [e, div_le_one (hpos t ht)]
    exact Finset.sum_le_univ_sum_of_nonneg fun x => sq_nonneg _
  have heq : a t₀ = 1 := by
    have e : a t₀ = (∑ x ∈ S, ‖psiSeq (m t₀) n d D x‖ ^ 2) / modelZ (m t₀) n d D := by
      rw [ha, Finset.sum_div]
      refine Finset.sum_congr rfl fun x hx => Real.exp_log (div_pos ?_ (hpos t₀ hZ))
      exact pow_pos (norm_pos_iff.2 (Finset.mem_filter.1 hx).2) 2
    rw [e, div_eq_one_iff_eq hZ, hS, Finset.sum_filter]
    refine Finset.sum_congr rfl fun x _ => ?_
    split
    · rfl
    · rename_i h
      rw [not_not.1 h]; simp
  have hmax : IsLocalMax a t₀ := by
    filter_upwards [hle] with t ht
    rw [heq]; exact ht
  exact hmax.hasDerivAt_eq_zero hda

/-- C85: along a curve of models which differ by rescalings of the cores and the boundary vectors and by changes of basis on the bonds, the gradients of all log
probabilities vanish. -/
theorem C85_gauge (dAbs : Mat (DualNumber K) → ℝ) (m : ℝ → ProbMPS K) (dm : ProbMPS (DualNumber K)) (x : SeqInput K) (dx : SeqInput (DualNumber K)) (t₀ : ℝ)
    (n d D B : ℕ) (hn : n ≠ 0) (hmf : ModelFollows m dm t₀) (hxf : InputFollows (fun _ => x) dx t₀) (hm : ValidModel dm n d D) (hx : ValidInput dx B n d)
    (slim par : Bool) (hs : SlimOK dm slim B n) (hZ : modelZ (m t₀) n d D ≠ 0) (hψ : ∀ b < B, psi (m t₀) x n d D b ≠ 0)
    (hG : ∀ᶠ t in nhds t₀, ∃ c cl cr G, GaugeOf (m t₀) (m t) n d D c cl cr G ∧ (∀ s < n, c s ≠ 0) ∧ cl ≠ 0 ∧ cr ≠ 0) :
    ∃ out, dualBody dAbs dm dx B n slim par = .ok out ∧ ∀ b < B, ∃ g, out.get [b] = some g ∧ g.snd = 0 := by
  obtain ⟨out, h1, h2, h3, h4⟩ := dualBody_born dAbs m dm (fun _ => x) dx t₀ n d D B hn hmf hxf hm hx slim par hs hZ hψ
  refine ⟨out, h1, fun b hb => ?_⟩
  obtain ⟨g, hg, hf⟩ := h4 b hb
  refine ⟨g, hg, hf.2.unique ?_⟩
  refine (hasDerivAt_const t₀ (Real.log (‖psi (m t₀) x n d D b‖ ^ 2 / modelZ (m t₀) n d D))).congr_of_eventuallyEq ?_
  filter_upwards [hG] with t ⟨c, cl, cr, G, hg, hc, hl, hr⟩
  rw [hg.modelZ, hg.psi x B b hb (valid_of_follows hxf hx t)]
  have hk : cl * cr * ∏ s ∈ Finset.range n, c s ≠ 0 := mul_ne_zero (mul_ne_zero hl hr) (Finset.prod_ne_zero_iff.2 fun s hs => hc s (Finset.mem_range.1 hs))
  rw [norm_mul, mul_pow, mul_div_mul_left _ _ (pow_ne_zero 2 (norm_ne_zero_iff.2 hk))]

/-- the model moving along a straight line -/
noncomputable def lineModel (dm : ProbMPS (DualNumber K)) (t : ℝ) : ProbMPS K where
  uniform := dm.uniform
  core := ⟨dm.core.shape, fun idx => (dm.core.get idx).fst + ((t - 0 : ℝ) : K) * (dm.core.get idx).snd⟩
  edge := ⟨dm.edge.shape, fun idx => (dm.edge.get idx).fst + ((t - 0 : ℝ) : K) * (dm.edge.get idx).snd⟩
  bias := dm.bias.map fun b => ⟨b.shape, fun idx => (b.get idx).fst + ((t - 0 : ℝ) : K) * (b.get idx).snd⟩
  embedding := none

theorem lineModel_follows (dm : ProbMPS (DualNumber K)) (h : dm.embedding = none) : ModelFollows (lineModel dm) dm 0 where
  uniform _ := rfl
  core := follows_line dm.core 0
  edge := follows_line dm.edge 0
  bias := by
    cases hb : dm.bias with
    | none => exact fun t => by simp [lineModel, hb]
    | some b => exact ⟨_, fun t => by simp only [lineModel, hb, Option.map_some], follows_line b 0⟩
  embedding _ := rfl
  plain := h

/-- C85: rescaling the cores of all sites by a common (real or complex) factor, and each boundary vector by its own, has no gradient - in these directions the
log probabilities are stationary. -/
theorem C85_scale (dAbs : Mat (DualNumber K) → ℝ) (dm : ProbMPS (DualNumber K)) (dx : SeqInput (DualNumber K)) (x : SeqInput K)
    (n d D B : ℕ) (hn : n ≠ 0) (he : dm.embedding = none) (hxf : InputFollows (fun _ => x) dx 0) (hm : ValidModel dm n d D) (hx : ValidInput dx B n d)
    (slim par : Bool) (hs : SlimOK dm slim B n) (κ : K) (μ : ℕ → K) (hcore : ∀ idx, (dm.core.get idx).snd = κ * (dm.core.get idx).fst)
    (hedge : ∀ r i, (dm.edge.get [r, i]).snd = μ r * (dm.edge.get [r, i]).fst) (hbias : dm.bias = none)
    (hZ : modelZ (lineModel dm 0) n d D ≠ 0) (hψ : ∀ b < B, psi (lineModel dm 0) x n d D b ≠ 0) :
    ∃ out, dualBody dAbs dm dx B n slim par = .ok out ∧ ∀ b < B, ∃ g, out.get [b] = some g ∧ g.snd = 0 := by
  have hlin : ∀ c : K, ∀ᶠ t : ℝ in nhds 0, 1 + (t : K) * c ≠ 0 := by
    intro c
    have : ContinuousAt (fun t : ℝ => 1 + (t : K) * c) 0 := by fun_prop
    exact this.eventually_ne (by simp)
  refine C85_gauge dAbs (lineModel dm) dm x dx 0 n d D B hn (lineModel_follows dm he) hxf hm hx slim par hs hZ hψ ?_
  filter_upwards [hlin κ, hlin (μ 0), hlin (μ 1)] with t h1 h2 h3
  refine ⟨fun _ => 1 + (t : K) * κ, 1 + (t : K) * μ 0, 1 + (t : K) * μ 1, fun _ => 1, ⟨?_, ?_, ?_, ?_⟩, fun _ _ => h1, h2, h3⟩
  · intro s _ k _
    ext i j
    simp only [coreMat, lineModel, sub_zero, inv_one, Units.val_one, one_mul, mul_one, Matrix.smul_apply, smul_eq_mul]
    split <;> simp [hcore] <;> ring
  · intro s _
    simp [biasMat, lineModel, hbias]
  · ext i
    simp [boundVec, lineModel, hedge]
    ring
  · ext i
    simp [boundVec, lineModel, hedge]
    ring

/-- `posModel` with tangents: the core moves in the direction of its own values and of a constant, the left boundary vector is fixed, the right one is rescaled -/
noncomputable def posJet : ProbMPS (DualNumber ℝ) where
  uniform := false
  core := ⟨[2, 2, 2, 2], fun idx => jet (idx.getD 1 0 + 1) (idx.getD 1 0)⟩
  edge := ⟨[2, 2], fun idx => jet 1 (idx.getD 0 0)⟩
  bias := none
  embedding := none

theorem posJet_line : lineModel posJet 0 = posModel := by
  simp [lineModel, posJet, posModel]

/-- the hypotheses of the theorems above hold for the line through `posModel` and a batch of every sequence, for every strategy -/
example (x : Fin 2 → Fin 2) (slim : Bool) : ModelFollows (lineModel posJet) posJet 0 ∧ InputFollows (fun _ => (single x : SeqInput ℝ)) (single x) 0 ∧ ValidModel posJet 2 2 2 ∧
    ValidInput (single x : SeqInput (DualNumber ℝ)) 1 2 2 ∧ SlimOK posJet slim 1 2 ∧ modelZ (lineModel posJet 0) 2 2 2 ≠ 0 ∧
    ∀ b < 1, psi (lineModel posJet 0) (single x) 2 2 2 b ≠ 0 := by
  have h : ∀ x, psiSeq posModel 2 2 2 x ≠ 0 := fun x => by rw [posModel_psi]; positivity
  refine ⟨lineModel_follows _ rfl, fun _ => rfl, ⟨rfl, rfl, by simp [posJet], by norm_num⟩, single_valid x, fun _ => ⟨rfl, Or.inr rfl⟩, ?_, ?_⟩
  · rw [posJet_line]; exact modelZ_ne_zero _ _ _ _ (fun _ => 0) (h _)
  · intro b _
    rw [posJet_line, psi_single]; exact h x

end TorchMPS
