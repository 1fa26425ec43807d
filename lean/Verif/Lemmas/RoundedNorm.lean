import Verif.Lemmas.RoundedProb
/-
Rounding errors of `get_log_norm` and `slim_eval_fun`.
-/
namespace TorchMPS
open Spec
variable {a : ProbArith} {d D N : ℕ} {γ u μ τ ν S : ℝ}

theorem near_trM_nonneg {g σ : ℝ} {A X Y : Mat ℝ} (h : Near g σ A X Y) (hr : X.r = D) (hc : X.c = D) : 0 ≤ trM D Y :=
  Finset.sum_nonneg fun i hi => by
    rw [Finset.mem_range] at hi
    exact (norm_nonneg _).trans (h.bound i (by omega) i (by omega))

/-- the loop of `get_log_norm` -/
theorem norm_loop (ac : AccurateProb a d D N γ u μ τ ν S) (hN : 1 ≤ N) (E : ℝ) (cts : List (Tensor ℝ)) :
    ∀ (A X Y : Mat ℝ) (k : ℕ) (s : ℝ) (rs : List ℝ) (g : ℝ), (∀ ct ∈ cts, ct.shape = [d, D, D]) → X.r = D → X.c = D → Near g rs.prod A X Y →
    (∀ r ∈ rs, 0 < r ∧ |Real.log r| ≤ S) → LogNear μ k s rs → g * ((1 + τ) * (1 + u)) ^ cts.length * (1 + τ) ≤ 1 + E →
    (∀ j < cts.length, E * trM D (((cts.take (j + 1)).map absTensor).foldl (tf d D) Y) < trM D ((cts.take (j + 1)).foldl (tf d D) X)) →
    ∃ P s' rs', cts.foldl a.transferStep (some (A, s)) = some (P, s') ∧
      Near (g * ((1 + τ) * (1 + u)) ^ cts.length) rs'.prod P (cts.foldl (tf d D) X) ((cts.map absTensor).foldl (tf d D) Y) ∧
      (∀ r ∈ rs', 0 < r ∧ |Real.log r| ≤ S) ∧ LogNear μ (k + cts.length) s' rs' ∧ rs'.length = rs.length + cts.length := by
  have hτ := ac.tau
  have hu := ac.base.unit
  have h1τu : (1 : ℝ) ≤ (1 + τ) * (1 + u) := one_le_mul_of_one_le_of_one_le (by linarith) (by linarith)
  induction cts with
  | nil =>
    intro A X Y k s rs g _ _ _ h hr hl _ _
    exact ⟨A, s, rs, rfl, by simpa using h, hr, hl, rfl⟩
  | cons ct cts ih =>
    intro A X Y k s rs g hct hXr hXc h hr hl hE hcond
    have hg := h.one_le
    have n1 := near_transfer ac h hXr hXc ct (hct ct List.mem_cons_self)
    have nY := near_trM_nonneg n1 (D := D) rfl rfl
    have hc0 := hcond 0 (by simp)
    simp only [zero_add, List.take_succ_cons, List.take_zero, List.map_cons, List.map_nil, List.foldl_cons, List.foldl_nil] at hc0
    have hpow : (1 + τ) * (1 + u) ≤ ((1 + τ) * (1 + u)) ^ (cts.length + 1) := le_self_pow₀ h1τu (by omega)
    have hstep : g * (1 + τ) * (1 + τ) - 1 ≤ E := by
      have e1 : g * (1 + τ) * (1 + τ) ≤ g * ((1 + τ) * (1 + u)) ^ (cts.length + 1) * (1 + τ) := by
        refine mul_le_mul_of_nonneg_right (mul_le_mul_of_nonneg_left ?_ (by linarith)) (by linarith)
        exact (le_mul_of_one_le_right (by linarith) (by linarith)).trans hpow
      have : g * ((1 + τ) * (1 + u)) ^ (ct :: cts).length * (1 + τ) ≤ 1 + E := hE
      rw [List.length_cons] at this
      linarith
    have hpos : 0 < a.trace (a.transfer ct A) := near_trace ac n1 rfl rfl ((mul_le_mul_of_nonneg_right hstep nY).trans_lt hc0)
    have hdiv := n1.div ac.base _ hpos
    have hl' := hl.step ac.base [a.trace (a.transfer ct A)] (by simpa using hpos) hN
    have hprod : rs.prod * a.trace (a.transfer ct A) = (rs ++ [a.trace (a.transfer ct A)]).prod := by simp
    rw [hprod] at hdiv
    obtain ⟨P, s', rs', k1, k2, k3, k4, k5⟩ := ih _ _ _ _ _ _ _ (fun c hc => hct c (List.mem_cons_of_mem _ hc)) rfl rfl hdiv
      (by
        intro r hr'
        rcases List.mem_append.1 hr' with hr' | hr'
        · exact hr r hr'
        · rw [List.mem_singleton] at hr'
          subst hr'
          exact ⟨hpos, ac.traceScale _ hpos⟩) hl'
      (by
        rw [List.length_cons, pow_succ] at hE
        refine le_trans (le_of_eq ?_) hE
        ring)
      (by
        intro j hj
        have := hcond (j + 1) (by simpa using hj)
        simpa only [List.take_succ_cons, List.map_cons, List.foldl_cons] using this)
    refine ⟨P, s', rs', ?_, ?_, k3, ?_, ?_⟩
    · rw [List.foldl_cons, ← k1]
      congr 1
      simp only [ProbArith.transferStep, if_pos hpos]
    · rw [List.map_cons, List.foldl_cons, List.foldl_cons, List.length_cons]
      have : g * (1 + τ) * (1 + u) * ((1 + τ) * (1 + u)) ^ cts.length = g * ((1 + τ) * (1 + u)) ^ (cts.length + 1) := by ring
      rw [← this]
      exact k2
    · rw [List.length_cons, ← Nat.add_assoc, Nat.add_right_comm]
      exact k4
    · rw [k5, List.length_append, List.length_singleton, List.length_cons]
      omega

theorem logNear_le (hμ : 0 ≤ μ) {k : ℕ} {s : ℝ} {rs : List ℝ} (h : LogNear μ k s rs) (hr : ∀ r ∈ rs, |Real.log r| ≤ S) :
    |s - (rs.map Real.log).sum| ≤ ((1 + μ) ^ k - 1) * (rs.length * S) := by
  refine h.trans (mul_le_mul_of_nonneg_left ?_ ?_)
  · refine (List.sum_le_card_nsmul _ S ?_).trans (le_of_eq ?_)
    · intro x hx
      obtain ⟨r, hr', rfl⟩ := List.mem_map.1 hx
      exact hr r hr'
    · simp
  · have : (1 : ℝ) ≤ (1 + μ) ^ k := one_le_pow₀ (by linarith)
    linarith

/-- logarithms of positive numbers with relative error at most `δ` -/
theorem log_rel {v w δ : ℝ} (hw : 0 < w) (h : |v - w| ≤ δ * w) (hδ : δ < 1) : 0 < v ∧ |Real.log v - Real.log w| ≤ -Real.log (1 - δ) := by
  have h1 := abs_le.1 h
  have hδ0 : 0 ≤ δ := by
    by_contra hneg
    have := (abs_nonneg _).trans h
    nlinarith
  have hv : 0 < v := by nlinarith
  refine ⟨hv, ?_⟩
  rw [← Real.log_div hv.ne' hw.ne']
  have hq : 1 - δ ≤ v / w := by rw [le_div_iff₀ hw]; linarith [h1.1]
  have hq' : v / w ≤ 1 + δ := by rw [div_le_iff₀ hw]; linarith [h1.2]
  have hpos : 0 < v / w := div_pos hv hw
  rw [abs_le]
  constructor
  · rw [neg_neg]
    exact Real.log_le_log (by linarith) hq
  · rw [← Real.log_inv]
    refine Real.log_le_log hpos (hq'.trans ?_)
    rw [le_inv_comm₀ (by linarith) (by linarith), inv_eq_one_div, le_div_iff₀ (by linarith)]
    nlinarith

theorem abs_sum_logs_le {rs : List ℝ} (h : ∀ r ∈ rs, |Real.log r| ≤ S) : (rs.map (fun r => |Real.log r|)).sum ≤ rs.length * S := by
  refine (List.sum_le_card_nsmul _ S ?_).trans (le_of_eq ?_)
  · intro x hx
    obtain ⟨r, hr', rfl⟩ := List.mem_map.1 hx
    exact h r hr'
  · simp

/-- `get_log_norm` on a list of cores -/
theorem norm_value (ac : AccurateProb a d D N γ u μ τ ν S) (hN : 1 ≤ N) (cts : List (Tensor ℝ)) (hct : ∀ ct ∈ cts, ct.shape = [d, D, D]) (v w : ℕ → ℝ) (Z : ℝ)
    (hZ : qf D w (cts.foldl (tf d D) (dm0 D v)) = Z) (hZ0 : 0 < Z)
    (hcond : ∀ j < cts.length, normErr u μ τ S cts.length Z * trM D (((cts.take (j + 1)).map absTensor).foldl (tf d D) (dm0 D (fun i => |v i|))) <
      trM D ((cts.take (j + 1)).foldl (tf d D) (dm0 D v)))
    (hfin : 2 * (normErr u μ τ S cts.length Z * qf D (fun i => |w i|) ((cts.map absTensor).foldl (tf d D) (dm0 D (fun i => |v i|)))) ≤ Z) :
    ∃ z, a.finalNorm w (cts.foldl a.transferStep (some (a.outer D v, 0))) = some z ∧
      |Real.exp z - Z| ≤ normErr u μ τ S cts.length Z * qf D (fun i => |w i|) ((cts.map absTensor).foldl (tf d D) (dm0 D (fun i => |v i|))) := by
  have hτ := ac.tau
  have hu := ac.base.unit
  have hμ := ac.base.mu
  have hS := ac.scales.1
  set n := cts.length with hn
  have hpμ : (1 : ℝ) ≤ (1 + μ) ^ (n + 1) := one_le_pow₀ (by linarith)
  have hexp : (1 : ℝ) ≤ Real.exp (((1 + μ) ^ (n + 1) - 1) * (2 * n * S + |Real.log Z| + 1)) :=
    Real.one_le_exp (mul_nonneg (by linarith) (by positivity))
  have hG : (1 + τ) * ((1 + τ) * (1 + u)) ^ n * (1 + τ) = (1 + τ) ^ (n + 2) * (1 + u) ^ n := by rw [mul_pow]; ring
  have hG0 : 0 ≤ (1 + τ) ^ (n + 2) * (1 + u) ^ n := by positivity
  have hE : (1 + τ) * ((1 + τ) * (1 + u)) ^ n * (1 + τ) ≤ 1 + normErr u μ τ S n Z := by
    rw [hG]
    unfold normErr
    have := mul_le_mul_of_nonneg_left hexp hG0
    linarith
  obtain ⟨P, s, rs, k1, k2, k3, k4, k5⟩ := norm_loop ac hN (normErr u μ τ S n Z) cts (a.outer D v) (dm0 D v) (dm0 D (fun i => |v i|)) 0 0 [] (1 + τ) hct rfl rfl
    (by simpa using near_outer ac v) (by simp) (logNear_zero μ) hE hcond
  obtain ⟨r1, r2⟩ := tf_fold_size d D (dm0 D v) rfl rfl cts
  have nq := near_quad ac k2 r1 r2 w
  rw [hG, hZ] at nq
  have hY : 0 ≤ qf D (fun i => |w i|) ((cts.map absTensor).foldl (tf d D) (dm0 D (fun i => |v i|))) :=
    Finset.sum_nonneg fun i hi => Finset.sum_nonneg fun j hj => mul_nonneg (mul_nonneg (abs_nonneg _)
      ((norm_nonneg _).trans (k2.bound i (by rw [r1]; exact Finset.mem_range.1 hi) j (by rw [r2]; exact Finset.mem_range.1 hj)))) (abs_nonneg _)
  have hle : (1 + τ) ^ (n + 2) * (1 + u) ^ n - 1 ≤ normErr u μ τ S n Z := by rw [hG] at hE; linarith
  have hYle : |qf D w (cts.foldl (tf d D) (dm0 D v))| ≤ qf D (fun i => |w i|) ((cts.map absTensor).foldl (tf d D) (dm0 D (fun i => |v i|))) := by
    simp only [qf]
    refine (Finset.abs_sum_le_sum_abs _ _).trans (Finset.sum_le_sum fun i hi => (Finset.abs_sum_le_sum_abs _ _).trans (Finset.sum_le_sum fun j hj => ?_))
    rw [abs_mul, abs_mul]
    refine mul_le_mul_of_nonneg_right (mul_le_mul_of_nonneg_left ?_ (abs_nonneg _)) (abs_nonneg _)
    simpa using k2.bound i (by rw [r1]; exact Finset.mem_range.1 hi) j (by rw [r2]; exact Finset.mem_range.1 hj)
  generalize qf D (fun i => |w i|) ((cts.map absTensor).foldl (tf d D) (dm0 D (fun i => |v i|))) = Y at *
  rw [hZ] at hYle
  have hhalf : |rs.prod * a.quad w P - Z| ≤ 1 / 2 * Z := by
    refine nq.trans ?_
    have := mul_le_mul_of_nonneg_right hle hY
    linarith
  obtain ⟨hσq, hlog⟩ := log_rel hZ0 hhalf (by norm_num)
  have hpos : 0 < a.quad w P := pos_of_mul_pos_right hσq k2.pos.le
  have hlogq : |Real.log (a.quad w P)| ≤ n * S + |Real.log Z| + 1 := by
    rw [Real.log_mul k2.pos.ne' hpos.ne', ← exp_log_sum rs (fun r hr => (k3 r hr).1), Real.log_exp] at hlog
    have h1 : |(rs.map Real.log).sum| ≤ n * S := by
      refine (abs_sum_log_le rs).trans ((abs_sum_logs_le fun r hr => (k3 r hr).2).trans (le_of_eq ?_))
      rw [k5]
      simp [hn]
    have h2 : -Real.log (1 - 1 / 2) ≤ 1 := by
      rw [show (1 - 1 / 2 : ℝ) = 2⁻¹ by norm_num, Real.log_inv, neg_neg]
      linarith [Real.log_two_lt_d9]
    have h3 : Real.log (a.quad w P) = ((rs.map Real.log).sum + Real.log (a.quad w P) - Real.log Z) + (Real.log Z - (rs.map Real.log).sum) := by ring
    rw [h3]
    refine (abs_add_le _ _).trans ?_
    have h4 := abs_sub (Real.log Z) (rs.map Real.log).sum
    linarith
  refine ⟨a.base.logAdd s [a.quad w P], ?_, ?_⟩
  · rw [k1]
    simp only [ProbArith.finalNorm, if_pos hpos]
  · have hl' := k4.step ac.base [a.quad w P] (by simpa using hpos) hN
    set rs2 := rs ++ [a.quad w P] with hrs2
    have hp2 : rs2.prod = rs.prod * a.quad w P := by simp [hrs2]
    have hr2 : ∀ r ∈ rs2, 0 < r := by
      intro r hr
      rcases List.mem_append.1 hr with hr | hr
      · exact (k3 r hr).1
      · rw [List.mem_singleton] at hr
        subst hr
        exact hpos
    have hb : |a.base.logAdd s [a.quad w P] - (rs2.map Real.log).sum| ≤ ((1 + μ) ^ (n + 1) - 1) * (2 * n * S + |Real.log Z| + 1) := by
      unfold LogNear at hl'
      rw [zero_add] at hl'
      refine hl'.trans (mul_le_mul_of_nonneg_left ?_ (by linarith))
      rw [List.map_append, List.sum_append, List.map_singleton, List.sum_singleton]
      have := abs_sum_logs_le fun r hr => (k3 r hr).2
      rw [k5] at this
      simp only [List.length_nil, zero_add, ← hn] at this
      linarith
    have hone : (1 : ℝ) ≤ (1 + τ) ^ (n + 2) * (1 + u) ^ n :=
      one_le_mul_of_one_le_of_one_le (one_le_pow₀ (by linarith)) (one_le_pow₀ (by linarith))
    have key : Near ((1 + τ) ^ (n + 2) * (1 + u) ^ n) rs2.prod (⟨1, 1, fun _ _ => 1⟩ : Mat ℝ) ⟨1, 1, fun _ _ => Z⟩ ⟨1, 1, fun _ _ => Y⟩ := by
      refine ⟨hone, by rw [hp2]; exact hσq, rfl, rfl, rfl, rfl, ?_, ?_⟩
      · intro _ _ _ _
        simpa using hYle
      · intro _ _ _ _
        rw [hp2]
        simpa using nq
    have := (key.final hr2 hb).2.2 0 one_pos 0 one_pos
    simpa [normErr] using this

end TorchMPS
