import Verif.Props.RoundedProb
import Verif.Props.RoundedFl
/-
Log probabilities in rounded arithmetic: exact arithmetic and rounding after every operation as special cases (C91).
-/
namespace TorchMPS
open Spec
variable {d D N : ℕ}

/-! ### exact arithmetic -/

theorem exact_slimStep (D : ℕ) : (exactOps ℝ).slimStep D = slimStep D := by
  funext st m
  cases st with
  | none => rfl
  | some p =>
    obtain ⟨P, s⟩ := p
    simp only [Arith.slimStep, slimStep, exactOps, List.map_cons, List.map_nil, List.sum_cons, List.sum_nil, add_zero]

theorem exact_slimEval (x : SeqInput ℝ) (core bound : Tensor ℝ) : exactProbArith.slimEval x core bound = slimEvalFun x core bound := by
  unfold ProbArith.slimEval slimEvalFun
  have : ∀ mats bound D b, exactProbArith.slimValue mats bound D b = slimValue mats bound D b := by
    intro mats bound D b
    unfold ProbArith.slimValue slimValue
    rw [show exactProbArith.base = exactOps ℝ from rfl, exact_slimStep]
    rfl
  simp only [this]

theorem exact_evalPsi (m : ProbMPS ℝ) (hb : m.bias = none) (x : SeqInput ℝ) (slim par : Bool) : exactProbArith.evalPsi m x slim par = m.evalPsi x slim par := by
  unfold ProbArith.evalPsi ProbMPS.evalPsi
  rw [exact_slimEval, show exactProbArith.base = exactOps ℝ from rfl]
  simp only [C83_exact_model, hb, addBias]
  rfl

/-- `exp(s) A = X` -/
def ScaledEq (D : ℕ) (s : ℝ) (A X : Mat ℝ) : Prop := A.r = D ∧ A.c = D ∧ ∀ r < D, ∀ q < D, Real.exp s * A.e r q = X.e r q

theorem scaledEq_transfer {s : ℝ} {A X : Mat ℝ} (h : ScaledEq D s A X) (ct : Tensor ℝ) (hct : ct.shape = [d, D, D]) :
    ScaledEq D s (exactProbArith.transfer ct A) (tf d D X ct) := by
  obtain ⟨h1, h2, h3⟩ := h
  refine ⟨h1, h2, ?_⟩
  intro r _ q _
  simp only [exactProbArith, tf, h1, h2, hct, List.headD_cons, Finset.mul_sum]
  refine Finset.sum_congr rfl fun i _ => Finset.sum_congr rfl fun l hl => Finset.sum_congr rfl fun p hp => ?_
  rw [← h3 l (Finset.mem_range.1 hl) p (Finset.mem_range.1 hp)]
  ring

theorem scaledEq_trace {s : ℝ} {A X : Mat ℝ} (h : ScaledEq D s A X) : Real.exp s * exactProbArith.trace A = trM D X := by
  obtain ⟨h1, h2, h3⟩ := h
  simp only [exactProbArith, trM, h1, Finset.mul_sum]
  exact Finset.sum_congr rfl fun i hi => h3 i (Finset.mem_range.1 hi) i (Finset.mem_range.1 hi)

theorem scaledEq_quad {s : ℝ} {A X : Mat ℝ} (h : ScaledEq D s A X) (w : ℕ → ℝ) : Real.exp s * exactProbArith.quad w A = qf D w X := by
  obtain ⟨h1, h2, h3⟩ := h
  simp only [exactProbArith, qf, h1, h2, Finset.mul_sum]
  refine Finset.sum_congr rfl fun r hr => Finset.sum_congr rfl fun q hq => ?_
  rw [← h3 r (Finset.mem_range.1 hr) q (Finset.mem_range.1 hq)]
  ring

theorem probTransfer_none (a : ProbArith) (cts : List (Tensor ℝ)) : cts.foldl a.transferStep none = none := by
  induction cts with
  | nil => rfl
  | cons c cts ih => exact ih

theorem exact_loop (cts : List (Tensor ℝ)) : ∀ (A X : Mat ℝ) (s : ℝ), (∀ ct ∈ cts, ct.shape = [d, D, D]) → ScaledEq D s A X →
    match cts.foldl exactProbArith.transferStep (some (A, s)) with
    | none => ∃ j < cts.length, trM D ((cts.take (j + 1)).foldl (tf d D) X) ≤ 0
    | some (P, s') => ScaledEq D s' P (cts.foldl (tf d D) X) := by
  induction cts with
  | nil => intro A X s _ h; exact h
  | cons ct cts ih =>
    intro A X s hct h
    have h1 := scaledEq_transfer h ct (hct ct List.mem_cons_self)
    have h2 := scaledEq_trace h1
    rw [List.foldl_cons, List.foldl_cons]
    by_cases hpos : 0 < exactProbArith.trace (exactProbArith.transfer ct A)
    · have hstep : exactProbArith.transferStep (some (A, s)) ct = some ((exactProbArith.transfer ct A).divReal (exactProbArith.trace (exactProbArith.transfer ct A)),
          s + Real.log (exactProbArith.trace (exactProbArith.transfer ct A))) := by
        simp only [ProbArith.transferStep, if_pos hpos, show exactProbArith.base = exactOps ℝ from rfl, exactOps, List.map_cons, List.map_nil, List.sum_cons,
          List.sum_nil, add_zero]
      rw [hstep]
      have key := ih ((exactProbArith.transfer ct A).divReal (exactProbArith.trace (exactProbArith.transfer ct A))) (tf d D X ct)
        (s + Real.log (exactProbArith.trace (exactProbArith.transfer ct A))) (fun c hc => hct c (List.mem_cons_of_mem _ hc)) (by
          refine ⟨h1.1, h1.2.1, ?_⟩
          intro r hr q hq
          rw [← h1.2.2 r hr q hq, Real.exp_add, Real.exp_log hpos]
          simp only [Mat.divReal, RCLike.ofReal_real_eq_id, id_eq]
          field_simp)
      generalize cts.foldl exactProbArith.transferStep (some ((exactProbArith.transfer ct A).divReal (exactProbArith.trace (exactProbArith.transfer ct A)),
        s + Real.log (exactProbArith.trace (exactProbArith.transfer ct A)))) = res at key
      cases res with
      | none =>
        obtain ⟨j, hj, k⟩ := key
        exact ⟨j + 1, by simpa using hj, by simpa using k⟩
      | some p => exact key
    · have hstep : exactProbArith.transferStep (some (A, s)) ct = none := by
        simp only [ProbArith.transferStep, if_neg hpos]
      rw [hstep, probTransfer_none]
      refine ⟨0, by simp, ?_⟩
      simp only [zero_add, List.take_succ_cons, List.take_zero, List.foldl_cons, List.foldl_nil]
      rw [← h2]
      exact mul_nonpos_of_nonneg_of_nonpos (Real.exp_pos s).le (not_lt.1 hpos)

open Classical in
/-- the exact log norm -/
theorem exact_logNorm (m : ProbMPS ℝ) (n : ℕ) (hm : ValidModel m n d D) (hb : m.bias = none) (length : Option ℤ) (hlen : LengthArg m.core n length) :
    exactProbArith.logNorm m.core m.edge length = .ok (if 0 < modelZ m n d D then some (Real.log (modelZ m n d D)) else none) := by
  have hc := hm.coreShape
  have hD : m.core.shape.getD (m.core.ndim - 1) 0 = D := by
    rcases hc with h | h <;> simp [Tensor.ndim, h]
  unfold ProbArith.logNorm
  rw [logNormCheck_ok m.core m.edge n d D hc hm.edge length hlen none (by simp), cores_range m.core n hc length hlen, hD]
  simp only [bind, Except.bind, pure, Except.pure]
  congr 1
  have hs : ∀ ct ∈ (List.range n).map (siteCore m.core), ct.shape = [d, D, D] := by
    intro ct h
    obtain ⟨s, -, rfl⟩ := List.mem_map.1 h
    exact siteCore_shape m.core n hc s
  have key := exact_loop ((List.range n).map (siteCore m.core)) (exactProbArith.outer D fun i => m.edge.get [0, i]) (dm0 D fun i => m.edge.get [0, i]) 0 hs
    ⟨rfl, rfl, fun r _ q _ => by simp [exactProbArith, dm0]⟩
  generalize ((List.range n).map (siteCore m.core)).foldl exactProbArith.transferStep (some (exactProbArith.outer D fun i => m.edge.get [0, i], 0)) = res at key
  cases res with
  | none =>
    obtain ⟨j, hj, k⟩ := key
    rw [List.length_map, List.length_range] at hj
    rw [← List.map_take, List.take_range, Nat.min_eq_left hj, trM_prefix m n hc (j + 1)] at k
    have h0 : prefixMass m d D (j + 1) = 0 := le_antisymm k (prefixMass_nonneg m _)
    have hZ := modelZ_of_prefix m hb n (j + 1) hj h0
    rw [if_neg (by rw [hZ]; exact lt_irrefl _)]
    rfl
  | some p =>
    obtain ⟨P, s⟩ := p
    have hq := scaledEq_quad key fun i => m.edge.get [1, i]
    rw [qf_modelZ m n hc hb] at hq
    by_cases hpos : 0 < exactProbArith.quad (fun i => m.edge.get [1, i]) P
    · have hZ : 0 < modelZ m n d D := by rw [← hq]; exact mul_pos (Real.exp_pos s) hpos
      rw [if_pos hZ]
      simp only [ProbArith.finalNorm, if_pos hpos, show exactProbArith.base = exactOps ℝ from rfl, exactOps, List.map_cons, List.map_nil, List.sum_cons, List.sum_nil,
        add_zero]
      rw [← hq, Real.log_mul (Real.exp_pos s).ne' hpos.ne', Real.log_exp]
    · rw [if_neg (by rw [← hq]; exact not_lt.2 (mul_nonpos_of_nonneg_of_nonpos (Real.exp_pos s).le (not_lt.1 hpos)))]
      simp only [ProbArith.finalNorm, if_neg hpos]

theorem exact_logProb (p l : Option ℝ) (z : ℝ) : exactProbArith.logProb p l z = logProb p l ((z : ℝ) : EReal) := by
  cases p with
  | none => rfl
  | some p =>
    cases l with
    | none => rfl
    | some l =>
      unfold ProbArith.logProb logProb
      simp only [bind, Option.bind, pure, torchLog]
      by_cases hp : p = 0
      · simp only [hp, norm_zero, lt_irrefl, if_false, if_true]
        rw [EReal.bot_add, EReal.mul_bot_of_pos (by norm_num), sub_eq_add_neg, EReal.bot_add]
      · have hn : 0 < ‖p‖ := norm_pos_iff.2 hp
        rw [if_pos hn, if_neg hp]
        simp only [exactProbArith, Real.norm_eq_abs]
        push_cast
        rfl

/-- C91. With exact arithmetic, the rounded `forward` is the one of the other properties. -/
theorem C91_exact_model (m : ProbMPS ℝ) (n : ℕ) (hm : ValidModel m n d D) (hb : m.bias = none) (he : m.embedding = none) (t : Tensor ℤ) (B : ℕ)
    (ht : t.shape = [B, n]) (slim par : Bool) : exactProbArith.forward m t slim par = (m.forward (.ints t) slim par).1 := by
  classical
  have hlen : LengthArg m.core n (if m.uniform then some (n : ℤ) else none) := by
    have := hm.core
    cases hu : m.uniform <;> rw [hu] at this
    · right; simp at this; simp [this]
    · left; simp at this; simp [this]
  unfold ProbArith.forward ProbMPS.forward
  have hc1 : ¬ (m.uniform = true ∧ t.shape.length < 2) := by simp [ht]
  have hc2 : ¬ (m.uniform = true ∧ (SeqInput.ints t : SeqInput ℝ).shape.length < 2) := by simp [SeqInput.shape, ht]
  rw [if_neg hc1, if_neg hc2]
  simp only [he, ProbMPS.body, exact_evalPsi m hb, SeqInput.shape, ht, List.getD_cons_succ, List.getD_cons_zero]
  cases hps : m.evalPsi (.ints t) slim par with
  | error e => rfl
  | ok psis =>
    simp only [bind, Except.bind, pure, Except.pure]
    rw [exact_logNorm m n hm hb _ hlen]
    by_cases hZ : modelZ m n d D = 0
    · rw [if_neg (by rw [hZ]; exact lt_irrefl _)]
      have h1 : assert ((none : Option ℝ).isSome = true) = .error .assertion := assert_false _ (by simp)
      simp only [h1]
      rcases logNorm_zero m n d D hm he hZ with h | h | h
      · rw [h]
        have h2 : assert (finite? (some ⊥)) = .error .assertion := assert_false _ (by
          rintro ⟨r, hr⟩
          exact absurd (Option.some.inj hr) (EReal.bot_ne_coe r))
        simp only [ProbMPS.finish, bind, Except.bind, h2]
      · rw [h]
        have h2 : assert (finite? none) = .error .assertion := assert_false _ (by
          rintro ⟨r, hr⟩
          cases hr)
        simp only [ProbMPS.finish, bind, Except.bind, h2]
      · rw [h]
    · have hZ0 : 0 < modelZ m n d D := lt_of_le_of_ne (Finset.sum_nonneg fun _ _ => sq_nonneg _) (Ne.symm hZ)
      rw [if_pos hZ0, logNorm_ok m n d D hm he hZ]
      simp only [ProbMPS.finish, bind, Except.bind, pure, Except.pure]
      have h1 : assert ((some (Real.log (modelZ m n d D)) : Option ℝ).isSome = true) = .ok () := assert_true _ (by simp)
      have h2 : assert (finite? (some ((Real.log (modelZ m n d D) : ℝ) : EReal))) = .ok () := assert_true _ ⟨_, rfl⟩
      simp only [h1, h2, exact_logProb, Option.getD_some]

/-! ### rounding after every operation -/

/-- The error of a sum of terms with relative errors. -/
theorem flSum_err2 {rnd : ℝ → ℝ} {u : ℝ} (h : IsRounding rnd u) (hu : 0 ≤ u) {α : Type} (L : List α) (f g : α → ℝ) (ε : ℝ) (hε : 1 ≤ ε)
    (hf : ∀ x ∈ L, |f x - g x| ≤ (ε - 1) * |g x|) :
    |flSum rnd (L.map f) - (L.map g).sum| ≤ (ε * (1 + u) ^ L.length - 1) * (L.map fun x => |g x|).sum := by
  induction L using List.reverseRecOn with
  | nil => simp [flSum]
  | append_singleton L x ih =>
    have ih := ih fun y hy => hf y (by simp [hy])
    rw [List.map_append, List.map_singleton, flSum_append, List.map_append, List.sum_append, List.map_append, List.sum_append, List.map_singleton, List.sum_singleton,
      List.map_singleton, List.sum_singleton, List.length_append, List.length_singleton, pow_succ, ← mul_assoc]
    have hT : |(L.map g).sum| ≤ (L.map fun x => |g x|).sum := by
      have := abs_list_sum_le (L.map g)
      rwa [List.map_map] at this
    refine rnd_err h hu ?_ ((abs_add_le _ _).trans (add_le_add hT (le_refl _)))
    have e : flSum rnd (L.map f) + f x - ((L.map g).sum + g x) = (flSum rnd (L.map f) - (L.map g).sum) + (f x - g x) := by ring
    rw [e]
    refine (abs_add_le _ _).trans ?_
    have hx := hf x (by simp)
    have hpow : ε ≤ ε * (1 + u) ^ L.length := le_mul_of_one_le_right (by linarith) (one_le_pow₀ (by linarith))
    have := mul_le_mul_of_nonneg_right (show ε - 1 ≤ ε * (1 + u) ^ L.length - 1 by linarith) (abs_nonneg (g x))
    rw [mul_add]
    linarith

theorem rnd3_err {rnd : ℝ → ℝ} {u : ℝ} (h : IsRounding rnd u) (hu : 0 ≤ u) (x y z : ℝ) : |rnd (rnd (x * y) * z) - x * y * z| ≤ ((1 + u) ^ 2 - 1) * |x * y * z| := by
  have h1 : |rnd (x * y) * z - x * y * z| ≤ ((1 + u) - 1) * |x * y * z| := by
    rw [← sub_mul, abs_mul, abs_mul (x * y) z, ← mul_assoc]
    refine mul_le_mul_of_nonneg_right ?_ (abs_nonneg z)
    simpa using h (x * y)
  have := rnd_err h hu h1 (le_refl _)
  rwa [← sq] at this

theorem sum_flatMap (L : List ℕ) (f : ℕ → List ℝ) : (L.flatMap f).sum = (L.map fun i => (f i).sum).sum := by
  induction L with
  | nil => rfl
  | cons x L ih => rw [List.flatMap_cons, List.sum_append, ih, List.map_cons, List.sum_cons]

theorem saturate_bound {S x : ℝ} (hS : 0 ≤ S) (h : 0 < saturate S x) : |Real.log (saturate S x)| ≤ S := by
  unfold saturate at h ⊢
  split_ifs at h ⊢ with hx
  · have h1 : Real.exp (-S) ≤ max (Real.exp (-S)) (min (Real.exp S) x) := le_max_left _ _
    have h2 : max (Real.exp (-S)) (min (Real.exp S) x) ≤ Real.exp S := max_le (Real.exp_le_exp.2 (by linarith)) (min_le_left _ _)
    rw [abs_le]
    constructor
    · have := Real.log_le_log (Real.exp_pos _) h1
      rwa [Real.log_exp] at this
    · have := Real.log_le_log h h2
      rwa [Real.log_exp] at this
  · exact absurd h hx

theorem saturate_pos {S x : ℝ} (h : 0 < x) : 0 < saturate S x := by
  unfold saturate
  rw [if_pos h]
  exact lt_of_lt_of_le (Real.exp_pos _) (le_max_left _ _)

/-- C91. Arithmetic that rounds after every elementary operation, with relative error at most `u < 1`, is accurate for probabilistic models with input dimension `d` and bond dimension `D`. -/
theorem C91_rounding (rnd : ℝ → ℝ) (u S : ℝ) (h : IsRounding rnd u) (hu : 0 ≤ u) (hu1 : u < 1) (hS : 0 ≤ S) (d D N : ℕ) :
    AccurateProb (rndProbArith rnd S) d D N ((1 + u) ^ (D + 1) - 1) u ((1 + u) ^ (N + 2) - 1) ((1 + u) ^ ((d + 1) * (D + 1) * (D + 1) + 2) - 1) ((1 + u) ^ 4 - 1) S := by
  have hbase := C83_rounding rnd u S h hu hu1 hS D N
  have hone : ∀ q : ℕ, (1 : ℝ) ≤ (1 + u) ^ q := fun q => one_le_pow₀ (by linarith)
  have hmono : ∀ q q' : ℕ, q ≤ q' → (1 + u) ^ q ≤ (1 + u) ^ q' := fun q q' hq => pow_le_pow_right₀ (by linarith) hq
  have hdd : D ≤ (d + 1) * (D + 1) * (D + 1) := by nlinarith [Nat.zero_le (d * (D + 1) * (D + 1))]
  have hdd2 : D * D ≤ (d + 1) * (D + 1) * (D + 1) := by nlinarith [Nat.zero_le (d * (D + 1) * (D + 1))]
  have hdd3 : d * (D * D) ≤ (d + 1) * (D + 1) * (D + 1) := by
    have : d * (D * D) ≤ (d + 1) * ((D + 1) * (D + 1)) := Nat.mul_le_mul (by omega) (Nat.mul_le_mul (by omega) (by omega))
    rw [mul_assoc (d + 1)]
    exact this
  refine ⟨hbase.1, hbase.2, by linarith [hone ((d + 1) * (D + 1) * (D + 1) + 2)], by linarith [hone 4], fun v => ⟨rfl, rfl⟩, ?_, fun ct A _ h1 h2 => ⟨h1, h2⟩, ?_, ?_, ?_, ?_, ?_⟩
  · intro v l _ p _
    refine (h (v l * v p)).trans (mul_le_mul_of_nonneg_right ?_ (abs_nonneg _))
    have := hmono 1 ((d + 1) * (D + 1) * (D + 1) + 2) (by omega)
    rw [pow_one] at this
    linarith
  · intro ct A hct h1 h2 r _ q _
    have hL : ∀ F : ℕ × ℕ × ℕ → ℝ, ((List.range d).flatMap fun i => (List.range D).flatMap fun l => (List.range D).map fun p => F (i, l, p)) =
        ((List.range d).flatMap fun i => (List.range D).flatMap fun l => (List.range D).map fun p => (i, l, p)).map F := by
      intro F
      simp only [List.map_flatMap, List.map_map]
      rfl
    have hsum : ∀ F : ℕ × ℕ × ℕ → ℝ, (((List.range d).flatMap fun i => (List.range D).flatMap fun l => (List.range D).map fun p => (i, l, p)).map F).sum =
        ∑ i ∈ Finset.range d, ∑ l ∈ Finset.range D, ∑ p ∈ Finset.range D, F (i, l, p) := by
      intro F
      rw [← hL, sum_flatMap, sum_map_range]
      refine Finset.sum_congr rfl fun i _ => ?_
      rw [sum_flatMap, sum_map_range]
      refine Finset.sum_congr rfl fun l _ => ?_
      rw [sum_map_range]
    have key := flSum_err2 h hu ((List.range d).flatMap fun i => (List.range D).flatMap fun l => (List.range D).map fun p => (i, l, p))
      (fun x : ℕ × ℕ × ℕ => rnd (rnd (ct.get [x.1, x.2.1, r] * A.e x.2.1 x.2.2) * ct.get [x.1, x.2.2, q]))
      (fun x : ℕ × ℕ × ℕ => ct.get [x.1, x.2.1, r] * A.e x.2.1 x.2.2 * ct.get [x.1, x.2.2, q]) ((1 + u) ^ 2) (hone 2) (fun x _ => rnd3_err h hu _ _ _)
    rw [hsum, hsum, ← hL, ← pow_add] at key
    have hlen : ((List.range d).flatMap fun i => (List.range D).flatMap fun l => (List.range D).map fun p => (i, l, p)).length = d * (D * D) := by
      simp [List.length_flatMap]
    rw [hlen] at key
    have hdef : ((rndProbArith rnd S).transfer ct A).e r q = flSum rnd ((List.range d).flatMap fun i => (List.range D).flatMap fun l => (List.range D).map fun p =>
        rnd (rnd (ct.get [i, l, r] * A.e l p) * ct.get [i, p, q])) := by
      simp only [rndProbArith, hct, h1, h2, List.headD_cons]
    rw [hdef]
    refine key.trans (mul_le_mul_of_nonneg_right ?_ (Finset.sum_nonneg fun _ _ => Finset.sum_nonneg fun _ _ => Finset.sum_nonneg fun _ _ => abs_nonneg _))
    linarith [hmono (2 + d * (D * D)) ((d + 1) * (D + 1) * (D + 1) + 2) (by omega)]
  · intro A h1 _ hlt
    refine saturate_pos ?_
    have key := flSum_err2 h hu (List.range A.r) (fun i => A.e i i) (fun i => A.e i i) 1 (le_refl _) (by simp)
    rw [sum_map_range, sum_map_range, List.length_range, one_mul, h1] at key
    have hle := mul_le_mul_of_nonneg_right (show (1 + u) ^ D - 1 ≤ (1 + u) ^ ((d + 1) * (D + 1) * (D + 1) + 2) - 1 by linarith [hmono D ((d + 1) * (D + 1) * (D + 1) + 2) (by omega)])
      (Finset.sum_nonneg fun i (_ : i ∈ Finset.range D) => abs_nonneg (A.e i i))
    rw [h1]
    linarith [(abs_le.1 key).1]
  · intro w A h1 h2
    have hL : ∀ F : ℕ × ℕ → ℝ, ((List.range D).flatMap fun l => (List.range D).map fun p => F (l, p)) =
        ((List.range D).flatMap fun l => (List.range D).map fun p => (l, p)).map F := by
      intro F
      simp only [List.map_flatMap, List.map_map]
      rfl
    have hsum : ∀ F : ℕ × ℕ → ℝ, (((List.range D).flatMap fun l => (List.range D).map fun p => (l, p)).map F).sum =
        ∑ l ∈ Finset.range D, ∑ p ∈ Finset.range D, F (l, p) := by
      intro F
      rw [← hL, sum_flatMap, sum_map_range]
      refine Finset.sum_congr rfl fun l _ => ?_
      rw [sum_map_range]
    have key := flSum_err2 h hu ((List.range D).flatMap fun l => (List.range D).map fun p => (l, p))
      (fun x : ℕ × ℕ => rnd (rnd (w x.1 * A.e x.1 x.2) * w x.2)) (fun x : ℕ × ℕ => w x.1 * A.e x.1 x.2 * w x.2) ((1 + u) ^ 2) (hone 2) (fun x _ => rnd3_err h hu _ _ _)
    rw [hsum, hsum, ← hL, ← pow_add] at key
    have hlen : ((List.range D).flatMap fun l => (List.range D).map fun p => (l, p)).length = D * D := by
      simp [List.length_flatMap]
    rw [hlen] at key
    have hdef : (rndProbArith rnd S).quad w A = flSum rnd ((List.range D).flatMap fun l => (List.range D).map fun p => rnd (rnd (w l * A.e l p) * w p)) := by
      simp only [rndProbArith, h1, h2]
    rw [hdef]
    refine key.trans (mul_le_mul_of_nonneg_right ?_ (Finset.sum_nonneg fun _ _ => Finset.sum_nonneg fun _ _ => abs_nonneg _))
    linarith [hmono (2 + D * D) ((d + 1) * (D + 1) * (D + 1) + 2) (by omega)]
  · intro A hpos
    exact saturate_bound hS hpos
  · intro p l z _
    have e0 : abs (rnd (Real.log |p|) - Real.log |p|) ≤ u * abs (Real.log |p|) := h _
    have e1 : |rnd (Real.log |p|) + l - (Real.log |p| + l)| ≤ ((1 + u) - 1) * (abs (Real.log |p|) + |l|) := by
      rw [add_sub_add_right_eq_sub]
      nlinarith [abs_nonneg l]
    have e2 := rnd_err h hu e1 (abs_add_le _ _)
    have e3 : |2 * rnd (rnd (Real.log |p|) + l) - 2 * (Real.log |p| + l)| ≤ ((1 + u) * (1 + u) - 1) * (2 * (abs (Real.log |p|) + |l|)) := by
      rw [← mul_sub, abs_mul, abs_of_pos (by norm_num : (0 : ℝ) < 2)]
      nlinarith
    have e4 := rnd_err h hu e3 (by
      rw [abs_mul, abs_of_pos (by norm_num : (0 : ℝ) < 2)]
      exact mul_le_mul_of_nonneg_left (abs_add_le _ _) (by norm_num))
    have e5 : |rnd (2 * rnd (rnd (Real.log |p|) + l)) - z - (2 * (Real.log |p| + l) - z)| ≤ ((1 + u) * (1 + u) * (1 + u) - 1) * (2 * (abs (Real.log |p|) + |l|) + |z|) := by
      rw [sub_sub_sub_cancel_right]
      refine e4.trans (mul_le_mul_of_nonneg_left (by linarith [abs_nonneg z]) ?_)
      have := hone 3
      have e : (1 + u) ^ 3 = (1 + u) * (1 + u) * (1 + u) := by ring
      linarith
    have e6 := rnd_err h hu e5 (by
      refine (abs_sub _ _).trans (add_le_add ?_ (le_refl _))
      rw [abs_mul, abs_of_pos (by norm_num : (0 : ℝ) < 2)]
      exact mul_le_mul_of_nonneg_left (abs_add_le _ _) (by norm_num))
    refine e6.trans (le_of_eq ?_)
    ring

/-- C91. The error factors tend to 0 with the precision: for given sizes and a given norm, sufficiently precise rounding makes them as small as desired. -/
theorem C91_limit (S Z : ℝ) (d D N n : ℕ) (δ : ℝ) (hδ : 0 < δ) : ∃ η > 0, ∀ u, 0 ≤ u → u ≤ η →
    ampErr ((1 + u) ^ (D + 1) - 1) u ((1 + u) ^ (N + 2) - 1) S n < δ ∧
    normErr u ((1 + u) ^ (N + 2) - 1) ((1 + u) ^ ((d + 1) * (D + 1) * (D + 1) + 2) - 1) S n Z < δ := by
  have c1 : Continuous (fun u : ℝ => ampErr ((1 + u) ^ (D + 1) - 1) u ((1 + u) ^ (N + 2) - 1) S n) := by
    unfold ampErr roundErr
    fun_prop
  have c2 : Continuous (fun u : ℝ => normErr u ((1 + u) ^ (N + 2) - 1) ((1 + u) ^ ((d + 1) * (D + 1) * (D + 1) + 2) - 1) S n Z) := by
    unfold normErr
    fun_prop
  have h1 := c1.continuousAt (x := 0)
  have h2 := c2.continuousAt (x := 0)
  rw [Metric.continuousAt_iff] at h1 h2
  obtain ⟨η1, p1, k1⟩ := h1 δ hδ
  obtain ⟨η2, p2, k2⟩ := h2 δ hδ
  refine ⟨min η1 η2 / 2, by positivity, ?_⟩
  intro u hu hle
  have hm := lt_min p1 p2
  have l1 := min_le_left η1 η2
  have l2 := min_le_right η1 η2
  have e1 := k1 (x := u) (by rw [Real.dist_eq, sub_zero, abs_of_nonneg hu]; linarith)
  have e2 := k2 (x := u) (by rw [Real.dist_eq, sub_zero, abs_of_nonneg hu]; linarith)
  have z1 : ampErr ((1 + (0 : ℝ)) ^ (D + 1) - 1) 0 ((1 + (0 : ℝ)) ^ (N + 2) - 1) S n = 0 := by simp [ampErr, roundErr]
  have z2 : normErr 0 ((1 + (0 : ℝ)) ^ (N + 2) - 1) ((1 + (0 : ℝ)) ^ ((d + 1) * (D + 1) * (D + 1) + 2) - 1) S n Z = 0 := by simp [normErr]
  rw [Real.dist_eq, z1, sub_zero] at e1
  rw [Real.dist_eq, z2, sub_zero] at e2
  exact ⟨(le_abs_self _).trans_lt e1, (le_abs_self _).trans_lt e2⟩

/-- The hypotheses of C91 are met: a model of two sites with parameters 1, a batch of one sequence, and truncation to sufficiently many bits; so the three ways of evaluation succeed. -/
example : ∃ p : ℕ, ∀ slim par : Bool, ∃ out,
    (rndProbArith (truncBits p) 88).forward ⟨false, ⟨[2, 2, 2, 2], fun _ => 1⟩, ⟨[2, 2], fun _ => 1⟩, none, none⟩ ⟨[1, 2], fun idx => idx.getD 1 0⟩ slim par = .ok out ∧
      out.shape = [1] := by
  set m : ProbMPS ℝ := ⟨false, ⟨[2, 2, 2, 2], fun _ => 1⟩, ⟨[2, 2], fun _ => 1⟩, none, none⟩ with hm
  have hcore : ∀ s k, coreMat m.core 2 s k = Matrix.of fun _ _ => 1 := by
    intro s k
    ext i j
    simp [coreMat, hm]
  have hedge : ∀ e, boundVec m.edge 2 e = fun _ => 1 := by
    intro e
    funext j
    simp [boundVec, hm]
  have hamp : amplitude (fun _ : Fin 2 => (1 : ℝ)) (fun _ => 1) [Matrix.of fun _ _ => 1, Matrix.of fun _ _ => 1] = 8 := by
    simp [amplitude, dotProduct, Matrix.mulVec, Matrix.mul_apply]
    norm_num
  have hseq : ∀ x : Fin 2 → Fin 2, psiSeq m 2 2 2 x = 8 := by
    intro x
    have hB : biasMat m 2 = 0 := rfl
    simp only [psiSeq, hB, add_zero, hcore, hedge]
    exact hamp
  have hZ : 0 < modelZ m 2 2 2 := by
    unfold modelZ
    refine Finset.sum_pos (fun x _ => ?_) Finset.univ_nonempty
    rw [hseq]
    norm_num
  obtain ⟨η, hη, hlim⟩ := C91_limit 88 (modelZ m 2 2 2) 2 2 4 2 (1 / 2) (by norm_num)
  obtain ⟨p0, hp0⟩ := exists_pow_lt_of_lt_one hη (by norm_num : (2 : ℝ)⁻¹ < 1)
  have hpow : (2 : ℝ)⁻¹ ^ (p0 + 1) ≤ η := (pow_le_pow_of_le_one (by norm_num) (by norm_num) (by omega)).trans hp0.le
  obtain ⟨e1, e2⟩ := hlim ((2 : ℝ)⁻¹ ^ (p0 + 1)) (by positivity) hpow
  have ac := C91_rounding (truncBits (p0 + 1)) _ 88 (truncBits_isRounding (p0 + 1)) (by positivity) (pow_lt_one₀ (by norm_num) (by norm_num) (by omega)) (by norm_num) 2 2 4
  refine ⟨p0 + 1, fun slim par => ?_⟩
  obtain ⟨out, psis, z, h1, h2, -⟩ := C91_nonneg ac m 2 (by norm_num) (by norm_num) ⟨rfl, rfl, by simp [hm], by norm_num⟩ rfl
    ⟨fun s _ k _ i j => by rw [hcore]; simp, fun e _ j => by rw [hedge]; simp⟩ ⟨[1, 2], fun idx => idx.getD 1 0⟩ 1
    ⟨rfl, by intro b _ s hs; simp only [List.getD_cons_succ, List.getD_cons_zero]; omega⟩ slim par hZ
    (by
      intro b _
      rw [psi_tokens m rfl]
      simp only [hcore, hedge]
      have : (List.range 2).map (fun _ => (Matrix.of fun _ _ => 1 : Matrix (Fin 2) (Fin 2) ℝ)) = [Matrix.of fun _ _ => 1, Matrix.of fun _ _ => 1] := rfl
      rw [this, hamp]
      norm_num) (by linarith) (by linarith)
  exact ⟨out, h1, h2⟩

end TorchMPS
