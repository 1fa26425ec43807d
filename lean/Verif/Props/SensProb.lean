import Verif.Lemmas.SensProb
import Verif.Props.Sens
/-
C98: how changes of the parameters affect the distribution of a probabilistic MPS.
-/
namespace TorchMPS
open Spec
variable {K : Type} [RCLike K] {n d D : ℕ}

theorem psiSeq_near (m m' : ProbMPS K) (v w : ProbMPS ℝ) (hm : ValidModel m n d D) (hc : m'.core.shape = m.core.shape) (hcv : v.core.shape = m.core.shape)
    (hcw : w.core.shape = m.core.shape) (h1 : NearT m.core.shape m.core m'.core v.core w.core) (h2 : NearT m.edge.shape m.edge m'.edge v.edge w.edge)
    (h3 : ∀ i j, ‖biasMat m D i j‖ ≤ biasMat v D i j ∧ ‖biasMat m' D i j - biasMat m D i j‖ ≤ biasMat w D i j - biasMat v D i j) (x : Fin n → Fin d) :
    ‖psiSeq m' n d D x - psiSeq m n d D x‖ ≤ psiSeq w n d D x - psiSeq v n d D x := by
  refine amplitude_near _ _ _ _ _ _ _ _ _ _ _ _ ?_ ?_ ?_
  · intro i
    exact h2 [0, i] (by rw [hm.edge]; simp [InRange])
  · intro i
    exact h2 [1, i] (by rw [hm.edge]; simp [InRange])
  · intro s i j
    have hcm : ‖coreMat m.core D s (x s) i j‖ ≤ coreMat v.core D s (x s) i j ∧
        ‖coreMat m'.core D s (x s) i j - coreMat m.core D s (x s) i j‖ ≤ coreMat w.core D s (x s) i j - coreMat v.core D s (x s) i j := by
      have hs := hm.core
      simp only [coreMat, Matrix.of_apply, hc, hcv, hcw]
      cases hu : m.uniform with
      | true =>
        rw [hu] at hs
        simp only [if_true] at hs
        rw [if_pos (by simp [hs]), if_pos (by simp [hs]), if_pos (by simp [hs]), if_pos (by simp [hs])]
        exact h1 [x s, i, j] (by rw [hs]; simp [InRange])
      | false =>
        rw [hu] at hs
        simp only [Bool.false_eq_true, if_false] at hs
        rw [if_neg (by simp [hs]), if_neg (by simp [hs]), if_neg (by simp [hs]), if_neg (by simp [hs])]
        exact h1 [s, x s, i, j] (by rw [hs]; simp [InRange])
    have hb := h3 i j
    simp only [Matrix.add_apply]
    refine ⟨le_trans (norm_add_le _ _) (add_le_add hcm.1 hb.1), ?_⟩
    rw [add_sub_add_comm]
    refine le_trans (norm_add_le _ _) ?_
    linarith [hcm.2, hb.2]

theorem valid_same (m m' : ProbMPS K) (hm : ValidModel m n d D) (hm' : ValidModel m' n d D) (hu : m'.uniform = m.uniform) : m'.core.shape = m.core.shape := by
  rw [hm.core, hm'.core, hu]

theorem biasMat_abs (m : ProbMPS K) (i j : Fin D) : biasMat (absProb m) D i j = ‖biasMat m D i j‖ := by
  unfold biasMat absProb
  cases m.bias with
  | none => simp
  | some b => simp [absT]

theorem biasMat_wide (m m' : ProbMPS K) (h : m'.bias.isSome = m.bias.isSome) (i j : Fin D) :
    biasMat (wideProb m m') D i j = ‖biasMat m D i j‖ + ‖biasMat m' D i j - biasMat m D i j‖ := by
  unfold biasMat wideProb
  cases hb : m.bias with
  | none =>
    rw [hb] at h
    cases hb' : m'.bias with
    | none => simp [wideBias]
    | some b' => rw [hb'] at h; simp at h
  | some b =>
    rw [hb] at h
    cases hb' : m'.bias with
    | none => rw [hb'] at h; simp at h
    | some b' => simp [wideBias, wideT]

theorem modelZ_pos (m : ProbMPS K) (h : modelZ m n d D ≠ 0) : 0 < modelZ m n d D :=
  lt_of_le_of_ne (Finset.sum_nonneg fun _ _ => sq_nonneg _) (Ne.symm h)

/-- C98. For all parameters of two models of one class and one shape, with or without bias, and all evaluation strategies: the sum over all sequences of the changes of their
probabilities is at most `4 ‖Ψ(|p| + |Δp|) - Ψ(|p|)‖ / √Z`, where `Ψ` is the tensor of all amplitudes. -/
theorem C98_distance (m m' : ProbMPS K) (hm : ValidModel m n d D) (hm' : ValidModel m' n d D) (he : m.embedding = none) (he' : m'.embedding = none)
    (hu : m'.uniform = m.uniform) (hbias : m'.bias.isSome = m.bias.isSome) (slim par slim' par' : Bool) (hslim : slim = true → m.bias = none)
    (hslim' : slim' = true → m'.bias = none) (hZ : modelZ m n d D ≠ 0) (hZ' : modelZ m' n d D ≠ 0) :
    ∑ x : Fin n → Fin d, |probSeq m' slim' par' x - probSeq m slim par x| ≤
      4 * Real.sqrt (∑ x : Fin n → Fin d, (psiSeq (wideProb m m') n d D x - psiSeq (absProb m) n d D x) ^ 2) / Real.sqrt (modelZ m n d D) := by
  rw [Finset.sum_congr rfl fun x _ => by rw [probSeq_eq m n d D hm he slim par hslim hZ x, probSeq_eq m' n d D hm' he' slim' par' hslim' hZ' x]]
  refine distributions_near (fun x => psiSeq m n d D x) (fun x => psiSeq m' n d D x) (modelZ m n d D) (modelZ m' n d D) rfl rfl (modelZ_pos m hZ) (modelZ_pos m' hZ') _ ?_
  intro x
  refine psiSeq_near m m' (absProb m) (wideProb m m') hm (valid_same m m' hm hm' hu) rfl rfl (nearT_wide _ _ _) (nearT_wide _ _ _) ?_ x
  intro i j
  rw [biasMat_abs, biasMat_wide m m' hbias]
  simp

/-- a model with all parameters multiplied by `c` -/
def scaleProb (c : ℝ) (m : ProbMPS ℝ) : ProbMPS ℝ := ⟨m.uniform, m.core.mapT (c * ·), m.edge.mapT (c * ·), m.bias.map (Tensor.mapT (c * ·)), none⟩

theorem biasMat_scale (c : ℝ) (m : ProbMPS ℝ) : biasMat (scaleProb c m) D = c • biasMat m D := by
  unfold biasMat scaleProb
  cases m.bias with
  | none => simp
  | some b => ext i j; simp [Tensor.mapT]

theorem psiSeq_scale (c : ℝ) (m : ProbMPS ℝ) (x : Fin n → Fin d) : psiSeq (scaleProb c m) n d D x = c ^ (n + 2) * psiSeq m n d D x := by
  unfold psiSeq
  rw [← amplitude_scaled, biasMat_scale]
  congr 1
  congr 1
  funext s
  rw [smul_add]
  congr 1
  ext i j
  simp only [coreMat, scaleProb, Tensor.mapT, Matrix.of_apply, Matrix.smul_apply, smul_eq_mul]
  split <;> simp [*]

theorem bias_rel {ε : ℝ} (m m' : ProbMPS K) (hm : ValidModel m n d D) (h : OnBias (RelClose ε) m.bias m'.bias) (i j : Fin D) :
    ‖biasMat m' D i j - biasMat m D i j‖ ≤ ε * ‖biasMat m D i j‖ := by
  have hs := hm.bias
  unfold biasMat
  cases hb : m.bias with
  | none =>
    rw [hb] at h
    cases hb' : m'.bias with
    | none => simp
    | some b' => rw [hb'] at h; exact h.elim
  | some b =>
    rw [hb] at h
    cases hb' : m'.bias with
    | none => rw [hb'] at h; exact h.elim
    | some b' =>
      rw [hb'] at h
      exact h [i, j] (by rw [hs b (by simp [hb])]; simp [InRange])

omit [RCLike K] in
theorem onBias_none {P : Tensor K → Tensor K → Prop} {b b' : Option (Tensor K)} (h : OnBias P b b') : b'.isSome = b.isSome := by
  cases b <;> cases b' <;> first | rfl | exact h.elim

theorem psiSeq_rel {ε : ℝ} (m m' : ProbMPS K) (hm : ValidModel m n d D) (hm' : ValidModel m' n d D) (h : AllProb (RelClose ε) m m') (x : Fin n → Fin d) :
    ‖psiSeq m' n d D x - psiSeq m n d D x‖ ≤ ((1 + ε) ^ (n + 2) - 1) * psiSeq (absProb m) n d D x := by
  rw [sub_one_mul, ← psiSeq_scale]
  refine psiSeq_near m m' (absProb m) (scaleProb (1 + ε) (absProb m)) hm (valid_same m m' hm hm' h.1) rfl rfl (nearT_rel (le_refl _) _ _ _ rfl h.2.1)
    (nearT_rel (le_refl _) _ _ _ rfl h.2.2.1) ?_ x
  intro i j
  rw [biasMat_scale, Matrix.smul_apply, biasMat_abs, smul_eq_mul]
  refine ⟨le_refl _, le_trans (bias_rel m m' hm h.2.2.2 i j) (le_of_eq ?_)⟩
  ring

/-- C98. If every parameter changes at most by the fraction `ε` of its absolute value, then the sum over all sequences of the changes of their probabilities is at most
`4 ((1+ε)^(n+2) - 1) √(Z(|p|) / Z(p))`. -/
theorem C98_relative (ε : ℝ) (m m' : ProbMPS K) (hm : ValidModel m n d D) (hm' : ValidModel m' n d D) (he : m.embedding = none) (he' : m'.embedding = none) (hε : 0 ≤ ε)
    (h : AllProb (RelClose ε) m m') (slim par slim' par' : Bool) (hslim : slim = true → m.bias = none) (hslim' : slim' = true → m'.bias = none) (hZ : modelZ m n d D ≠ 0)
    (hZ' : modelZ m' n d D ≠ 0) :
    ∑ x : Fin n → Fin d, |probSeq m' slim' par' x - probSeq m slim par x| ≤ 4 * ((1 + ε) ^ (n + 2) - 1) * Real.sqrt (modelZ (absProb m) n d D / modelZ m n d D) := by
  rw [Finset.sum_congr rfl fun x _ => by rw [probSeq_eq m n d D hm he slim par hslim hZ x, probSeq_eq m' n d D hm' he' slim' par' hslim' hZ' x]]
  refine le_trans (distributions_near (fun x => psiSeq m n d D x) (fun x => psiSeq m' n d D x) (modelZ m n d D) (modelZ m' n d D) rfl rfl (modelZ_pos m hZ) (modelZ_pos m' hZ') _
    (fun x => psiSeq_rel m m' hm hm' h x)) (le_of_eq ?_)
  have hpos : 0 ≤ (1 + ε) ^ (n + 2) - 1 := by linarith [one_le_pow₀ (n := n + 2) (show 1 ≤ 1 + ε by linarith)]
  have e : ∑ x : Fin n → Fin d, (((1 + ε) ^ (n + 2) - 1) * psiSeq (absProb m) n d D x) ^ 2 = ((1 + ε) ^ (n + 2) - 1) ^ 2 * modelZ (absProb m) n d D := by
    unfold modelZ
    rw [Finset.mul_sum]
    refine Finset.sum_congr rfl fun x _ => ?_
    rw [mul_pow, Real.norm_eq_abs, sq_abs]
  rw [e, Real.sqrt_mul (sq_nonneg _), Real.sqrt_sq hpos, Real.sqrt_div' _ (modelZ_pos m hZ).le]
  ring

/-- C98. With nonnegative parameters: if every parameter changes at most by the fraction `ε < 1`, then no log probability that is finite changes by more than
`2 (n+2) log((1+ε)/(1-ε))`, for all batches and all evaluation strategies; in particular the changed model can evaluate all these sequences. -/
theorem C98_nonneg (ε : ℝ) (m m' : ProbMPS ℝ) (hm : ValidModel m n d D) (hm' : ValidModel m' n d D) (he : m.embedding = none) (he' : m'.embedding = none) (hε : 0 ≤ ε) (hε1 : ε < 1)
    (h : AllProb (RelClose ε) m m') (hpos : NonnegProb m) (hZ : modelZ m n d D ≠ 0) (x : Fin n → Fin d) (slim par slim' par' : Bool) (hslim : slim = true → m.bias = none)
    (hslim' : slim' = true → m'.bias = none) (hx : probSeq m slim par x ≠ 0) :
    0 < probSeq m' slim' par' x ∧ |Real.log (probSeq m' slim' par' x) - Real.log (probSeq m slim par x)| ≤ 2 * (n + 2) * Real.log ((1 + ε) / (1 - ε)) := by
  have hcs := valid_same m m' hm hm' h.1
  have hcore : ∀ (s : Fin n) (k : Fin d) (i j : Fin D), 0 ≤ coreMat m.core D s k i j ∧ |coreMat m'.core D s k i j - coreMat m.core D s k i j| ≤ ε * coreMat m.core D s k i j := by
    intro s k i j
    have key : ∀ idx, InRange idx m.core.shape → 0 ≤ m.core.get idx ∧ |m'.core.get idx - m.core.get idx| ≤ ε * m.core.get idx := by
      intro idx hi
      have h0 := hpos.1 idx hi
      have h1 := h.2.1 idx hi
      rw [Real.norm_of_nonneg h0] at h1
      exact ⟨h0, h1⟩
    have hs := hm.core
    simp only [coreMat, Matrix.of_apply, hcs]
    cases hu : m.uniform with
    | true =>
      rw [hu] at hs
      simp only [if_true] at hs
      rw [if_pos (by simp [hs]), if_pos (by simp [hs])]
      exact key [k, i, j] (by rw [hs]; simp [InRange])
    | false =>
      rw [hu] at hs
      simp only [Bool.false_eq_true, if_false] at hs
      rw [if_neg (by simp [hs]), if_neg (by simp [hs])]
      exact key [s, k, i, j] (by rw [hs]; simp [InRange])
  have hedge : ∀ (e : ℕ) (_ : e < 2) (i : Fin D), 0 ≤ boundVec m.edge D e i ∧ |boundVec m'.edge D e i - boundVec m.edge D e i| ≤ ε * boundVec m.edge D e i := by
    intro e he2 i
    have hi : InRange [e, (i : ℕ)] m.edge.shape := by rw [hm.edge]; simp [InRange, he2]
    have h0 := hpos.2.1 _ hi
    have h1 := h.2.2.1 _ hi
    rw [Real.norm_of_nonneg h0] at h1
    exact ⟨h0, h1⟩
  have hbias : ∀ i j : Fin D, 0 ≤ biasMat m D i j ∧ |biasMat m' D i j - biasMat m D i j| ≤ ε * biasMat m D i j := by
    intro i j
    have h0 : 0 ≤ biasMat m D i j := by
      unfold biasMat
      cases hb : m.bias with
      | none => simp
      | some b => exact hpos.2.2 b (by simp [hb]) [i, j] (by rw [hm.bias b (by simp [hb])]; simp [InRange])
    have h1 := bias_rel m m' hm h.2.2.2 i j
    rw [Real.norm_of_nonneg h0] at h1
    exact ⟨h0, h1⟩
  have hc1 : 0 < 1 - ε := by linarith
  -- the amplitudes
  have amp : ∀ x : Fin n → Fin d, 0 ≤ psiSeq m n d D x ∧ (1 - ε) ^ (n + 2) * psiSeq m n d D x ≤ psiSeq m' n d D x ∧ psiSeq m' n d D x ≤ (1 + ε) ^ (n + 2) * psiSeq m n d D x := by
    intro x
    have low : ∀ a b : ℝ, 0 ≤ a ∧ |b - a| ≤ ε * a → 0 ≤ (1 - ε) * a ∧ (1 - ε) * a ≤ b := fun a b hab => by
      have := (abs_le.1 hab.2).1
      exact ⟨mul_nonneg hc1.le hab.1, by linarith⟩
    have up : ∀ a b : ℝ, 0 ≤ a ∧ |b - a| ≤ ε * a → 0 ≤ b ∧ b ≤ (1 + ε) * a := fun a b hab => by
      have h1 := low a b hab
      have := (abs_le.1 hab.2).2
      exact ⟨le_trans h1.1 h1.2, by linarith⟩
    have hsum : ∀ (s : Fin n) (i j : Fin D), 0 ≤ (coreMat m.core D s (x s) + biasMat m D) i j ∧
        |(coreMat m'.core D s (x s) + biasMat m' D) i j - (coreMat m.core D s (x s) + biasMat m D) i j| ≤ ε * (coreMat m.core D s (x s) + biasMat m D) i j := by
      intro s i j
      obtain ⟨c1, c2⟩ := hcore s (x s) i j
      obtain ⟨b1, b2⟩ := hbias i j
      simp only [Matrix.add_apply]
      refine ⟨add_nonneg c1 b1, ?_⟩
      rw [add_sub_add_comm]
      refine le_trans (abs_add_le _ _) ?_
      linarith
    have k1 := amplitude_mono (boundVec m.edge D 0) (boundVec m.edge D 0) (boundVec m.edge D 1) (boundVec m.edge D 1) (fun s : Fin n => coreMat m.core D s (x s) + biasMat m D)
      (fun s : Fin n => coreMat m.core D s (x s) + biasMat m D) (fun i => ⟨(hedge 0 (by decide) i).1, le_refl _⟩) (fun i => ⟨(hedge 1 (by decide) i).1, le_refl _⟩)
      (fun s i j => ⟨(hsum s i j).1, le_refl _⟩)
    have k2 := amplitude_mono (fun i => (1 - ε) * boundVec m.edge D 0 i) (boundVec m'.edge D 0) (fun i => (1 - ε) * boundVec m.edge D 1 i) (boundVec m'.edge D 1)
      (fun s : Fin n => (1 - ε) • (coreMat m.core D s (x s) + biasMat m D)) (fun s : Fin n => coreMat m'.core D s (x s) + biasMat m' D)
      (fun i => low _ _ (hedge 0 (by decide) i)) (fun i => low _ _ (hedge 1 (by decide) i)) (fun s i j => low _ _ (hsum s i j))
    have k3 := amplitude_mono (boundVec m'.edge D 0) (fun i => (1 + ε) * boundVec m.edge D 0 i) (boundVec m'.edge D 1) (fun i => (1 + ε) * boundVec m.edge D 1 i)
      (fun s : Fin n => coreMat m'.core D s (x s) + biasMat m' D) (fun s : Fin n => (1 + ε) • (coreMat m.core D s (x s) + biasMat m D))
      (fun i => up _ _ (hedge 0 (by decide) i)) (fun i => up _ _ (hedge 1 (by decide) i)) (fun s i j => up _ _ (hsum s i j))
    rw [amplitude_scaled] at k2 k3
    exact ⟨k1.1, k2.2, k3.2⟩
  set L := (1 - ε) ^ (n + 2) with hL
  set U := (1 + ε) ^ (n + 2) with hU
  have hL0 : 0 < L := pow_pos hc1 _
  have hU0 : 0 < U := pow_pos (by linarith) _
  have hsq : ∀ x : Fin n → Fin d, L ^ 2 * ‖psiSeq m n d D x‖ ^ 2 ≤ ‖psiSeq m' n d D x‖ ^ 2 ∧ ‖psiSeq m' n d D x‖ ^ 2 ≤ U ^ 2 * ‖psiSeq m n d D x‖ ^ 2 := by
    intro x
    obtain ⟨a1, a2, a3⟩ := amp x
    have a4 : 0 ≤ psiSeq m' n d D x := le_trans (mul_nonneg hL0.le a1) a2
    rw [Real.norm_of_nonneg a1, Real.norm_of_nonneg a4, ← mul_pow, ← mul_pow]
    exact ⟨pow_le_pow_left₀ (mul_nonneg hL0.le a1) a2 2, pow_le_pow_left₀ a4 a3 2⟩
  have hZZ : L ^ 2 * modelZ m n d D ≤ modelZ m' n d D ∧ modelZ m' n d D ≤ U ^ 2 * modelZ m n d D := by
    unfold modelZ
    rw [Finset.mul_sum, Finset.mul_sum]
    exact ⟨Finset.sum_le_sum fun x _ => (hsq x).1, Finset.sum_le_sum fun x _ => (hsq x).2⟩
  have hZp := modelZ_pos m hZ
  have hZp' : 0 < modelZ m' n d D := lt_of_lt_of_le (mul_pos (pow_pos hL0 2) hZp) hZZ.1
  have eP := probSeq_eq m n d D hm he slim par hslim hZ x
  have eP' := probSeq_eq m' n d D hm' he' slim' par' hslim' hZp'.ne' x
  rw [eP] at hx
  rw [eP, eP']
  have hψ : 0 < ‖psiSeq m n d D x‖ ^ 2 := lt_of_le_of_ne (sq_nonneg _) (fun h0 => hx (by rw [← h0]; simp))
  have hψ' : 0 < ‖psiSeq m' n d D x‖ ^ 2 := lt_of_lt_of_le (mul_pos (pow_pos hL0 2) hψ) (hsq x).1
  refine ⟨div_pos hψ' hZp', ?_⟩
  rw [Real.log_div hψ'.ne' hZp'.ne', Real.log_div hψ.ne' hZp.ne']
  have bd : ∀ a b : ℝ, 0 < a → 0 < b → L ^ 2 * a ≤ b → b ≤ U ^ 2 * a → 2 * (n + 2) * Real.log (1 - ε) ≤ Real.log b - Real.log a ∧ Real.log b - Real.log a ≤ 2 * (n + 2) * Real.log (1 + ε) := by
    intro a b ha hb h1 h2
    have l1 := Real.log_le_log (mul_pos (pow_pos hL0 2) ha) h1
    have l2 := Real.log_le_log hb h2
    rw [Real.log_mul (pow_pos hL0 2).ne' ha.ne', Real.log_pow, hL, Real.log_pow] at l1
    rw [Real.log_mul (pow_pos hU0 2).ne' ha.ne', Real.log_pow, hU, Real.log_pow] at l2
    push_cast at l1 l2
    constructor <;> linarith
  have b1 := bd _ _ hψ hψ' (hsq x).1 (hsq x).2
  have b2 := bd _ _ hZp hZp' hZZ.1 hZZ.2
  rw [Real.log_div (by linarith) hc1.ne', abs_le]
  constructor <;> linarith [b1.1, b1.2, b2.1, b2.2]

/-- a model with `δ` added to all parameters -/
def plusProb (δ : ℝ) (m : ProbMPS ℝ) : ProbMPS ℝ := ⟨m.uniform, m.core.plusT δ, m.edge.plusT δ, m.bias.map (Tensor.plusT δ), none⟩

/-- the same with an indeterminate -/
noncomputable def polyProb (m : ProbMPS ℝ) : ProbMPS (Polynomial ℝ) :=
  ⟨m.uniform, m.core.mapT (fun a => Polynomial.C a + Polynomial.X), m.edge.mapT (fun a => Polynomial.C a + Polynomial.X),
    m.bias.map (Tensor.mapT (fun a => Polynomial.C a + Polynomial.X)), none⟩

/-- the amplitude as a polynomial -/
noncomputable def polyPsi (m : ProbMPS ℝ) (n d D : ℕ) (x : Fin n → Fin d) : Polynomial ℝ :=
  amplitude (boundVec (polyProb m).edge D 0) (boundVec (polyProb m).edge D 1) (List.ofFn fun s : Fin n => coreMat (polyProb m).core D s (x s) + biasMat (polyProb m) D)

theorem polyPsi_eval (m : ProbMPS ℝ) (x : Fin n → Fin d) (δ : ℝ) : (polyPsi m n d D x).eval δ = psiSeq (plusProb δ m) n d D x := by
  refine (amplitude_mapHom (Polynomial.evalRingHom δ) _ _ _).trans ?_
  unfold psiSeq
  rw [List.map_ofFn]
  congr 1
  · funext i; simp [boundVec, polyProb, plusProb, Tensor.mapT, Tensor.plusT]
  · funext i; simp [boundVec, polyProb, plusProb, Tensor.mapT, Tensor.plusT]
  · congr 1
    funext s
    ext i j
    simp only [Function.comp_apply, Matrix.map_apply, Matrix.add_apply, map_add]
    congr 1
    · simp only [coreMat, polyProb, plusProb, Tensor.mapT, Tensor.plusT, Matrix.of_apply]
      by_cases hl : List.length m.core.shape = 3 <;> simp [hl]
    · unfold biasMat polyProb plusProb
      cases m.bias with
      | none => simp
      | some b => simp [Tensor.mapT, Tensor.plusT]

theorem plusProb_zero (m : ProbMPS ℝ) (x : Fin n → Fin d) : psiSeq (plusProb 0 m) n d D x = psiSeq m n d D x := by
  have e : ∀ t : Tensor ℝ, t.plusT 0 = t := by
    intro t
    cases t
    simp [Tensor.plusT]
  unfold psiSeq plusProb
  have hb : biasMat (⟨m.uniform, m.core.plusT 0, m.edge.plusT 0, m.bias.map (Tensor.plusT 0), none⟩ : ProbMPS ℝ) D = biasMat m D := by
    unfold biasMat
    cases m.bias with
    | none => rfl
    | some b => simp [e]
  rw [hb]
  simp only [e]

theorem bias_close {δ : ℝ} (m m' : ProbMPS K) (hm : ValidModel m n d D) (h : OnBias (AbsClose δ) m.bias m'.bias) (i j : Fin D) :
    ‖biasMat m D i j‖ ≤ biasMat (absProb m) D i j ∧ ‖biasMat m' D i j - biasMat m D i j‖ ≤ biasMat (plusProb δ (absProb m)) D i j - biasMat (absProb m) D i j := by
  refine ⟨le_of_eq (biasMat_abs m i j).symm, ?_⟩
  have hs := hm.bias
  unfold biasMat plusProb absProb
  cases hb : m.bias with
  | none =>
    rw [hb] at h
    cases hb' : m'.bias with
    | none => simp
    | some b' => rw [hb'] at h; exact h.elim
  | some b =>
    rw [hb] at h
    cases hb' : m'.bias with
    | none => rw [hb'] at h; exact h.elim
    | some b' =>
      rw [hb'] at h
      have := h [i, j] (by rw [hs b (by simp [hb])]; simp [InRange])
      simpa [Tensor.plusT, absT] using this

/-- C98. The distribution depends continuously on the parameters: for every model with a nonzero norm and every tolerance there is a `δ > 0` such that every model whose parameters differ
from these at most by `δ` has a nonzero norm too, and the sum over all sequences of the differences of their probabilities is at most the tolerance. -/
theorem C98_continuous (m : ProbMPS K) (hm : ValidModel m n d D) (he : m.embedding = none) (slim par : Bool) (hslim : slim = true → m.bias = none) (hZ : modelZ m n d D ≠ 0)
    (tol : ℝ) (htol : 0 < tol) : ∃ δ > 0, ∀ m' : ProbMPS K, ValidModel m' n d D → m'.embedding = none → AllProb (AbsClose δ) m m' → ∀ slim' par' : Bool, (slim' = true → m'.bias = none) →
      modelZ m' n d D ≠ 0 ∧ ∑ x : Fin n → Fin d, |probSeq m' slim' par' x - probSeq m slim par x| ≤ tol := by
  have hZp := modelZ_pos m hZ
  have hsZ : 0 < Real.sqrt (modelZ m n d D) := Real.sqrt_pos.2 hZp
  let T : ℝ → ℝ := fun δ => Real.sqrt (∑ x : Fin n → Fin d, ((polyPsi (absProb m) n d D x).eval δ - (polyPsi (absProb m) n d D x).eval 0) ^ 2)
  have hT0 : T 0 = 0 := by simp [T]
  have hTc : Continuous T := by
    refine Real.continuous_sqrt.comp (continuous_finsetSum _ fun x _ => ?_)
    exact ((polyPsi (absProb m) n d D x).continuous.sub continuous_const).pow 2
  obtain ⟨δ, δ1, δ2⟩ := Metric.continuousAt_iff.1 (hTc.continuousAt (x := 0)) (min (tol / 4) (1 / 2) * Real.sqrt (modelZ m n d D)) (mul_pos (lt_min (by positivity) (by norm_num)) hsZ)
  refine ⟨δ / 2, by positivity, ?_⟩
  intro m' hm' he' h slim' par' hslim'
  have hT : T (δ / 2) < min (tol / 4) (1 / 2) * Real.sqrt (modelZ m n d D) := by
    have := δ2 (x := δ / 2) (by rw [Real.dist_eq, sub_zero, abs_of_pos (by positivity)]; linarith)
    rw [Real.dist_eq, hT0, sub_zero] at this
    exact lt_of_le_of_lt (le_abs_self _) this
  have hψ : ∀ x : Fin n → Fin d, ‖psiSeq m' n d D x - psiSeq m n d D x‖ ≤ (polyPsi (absProb m) n d D x).eval (δ / 2) - (polyPsi (absProb m) n d D x).eval 0 := by
    intro x
    rw [polyPsi_eval, polyPsi_eval, plusProb_zero]
    exact psiSeq_near m m' (absProb m) (plusProb (δ / 2) (absProb m)) hm (valid_same m m' hm hm' h.1) rfl rfl (nearT_abs _ _ _ rfl h.2.1) (nearT_abs _ _ _ rfl h.2.2.1)
      (bias_close m m' hm h.2.2.2) x
  have hZ' : modelZ m' n d D ≠ 0 := by
    intro h0
    have hz : ∀ x : Fin n → Fin d, psiSeq m' n d D x = 0 := by
      intro x
      have := (Finset.sum_eq_zero_iff_of_nonneg (fun x _ => sq_nonneg ‖psiSeq m' n d D x‖)).1 h0 x (Finset.mem_univ _)
      simpa using this
    have h1 : modelZ m n d D ≤ ∑ x : Fin n → Fin d, ((polyPsi (absProb m) n d D x).eval (δ / 2) - (polyPsi (absProb m) n d D x).eval 0) ^ 2 := by
      refine Finset.sum_le_sum fun x _ => pow_le_pow_left₀ (norm_nonneg _) ?_ 2
      have := hψ x
      rwa [hz, zero_sub, norm_neg] at this
    have h2 := Real.sqrt_le_sqrt h1
    have h3 : min (tol / 4) (1 / 2) * Real.sqrt (modelZ m n d D) ≤ 1 / 2 * Real.sqrt (modelZ m n d D) := mul_le_mul_of_nonneg_right (min_le_right _ _) hsZ.le
    have h4 : T (δ / 2) = Real.sqrt (∑ x : Fin n → Fin d, ((polyPsi (absProb m) n d D x).eval (δ / 2) - (polyPsi (absProb m) n d D x).eval 0) ^ 2) := rfl
    rw [← h4] at h2
    linarith
  refine ⟨hZ', ?_⟩
  rw [Finset.sum_congr rfl fun x _ => by rw [probSeq_eq m n d D hm he slim par hslim hZ x, probSeq_eq m' n d D hm' he' slim' par' hslim' hZ' x]]
  refine le_trans (distributions_near (fun x => psiSeq m n d D x) (fun x => psiSeq m' n d D x) (modelZ m n d D) (modelZ m' n d D) rfl rfl hZp (modelZ_pos m' hZ') _ hψ) ?_
  rw [div_le_iff₀ hsZ]
  have h3 : min (tol / 4) (1 / 2) * Real.sqrt (modelZ m n d D) ≤ tol / 4 * Real.sqrt (modelZ m n d D) := mul_le_mul_of_nonneg_right (min_le_left _ _) hsZ.le
  have h4 : T (δ / 2) = Real.sqrt (∑ x : Fin n → Fin d, ((polyPsi (absProb m) n d D x).eval (δ / 2) - (polyPsi (absProb m) n d D x).eval 0) ^ 2) := rfl
  rw [← h4]
  linarith

/-- a uniform model of bond dimension 2 with a bias matrix, for words over three letters; the left edge vector is (a, 0), the right one (a, -a) -/
def sensProb (a : ℝ) (useBias : Bool) : ProbMPS ℝ :=
  ⟨true, ⟨[3, 2, 2], fun i => a * (if i.getD 1 0 = i.getD 2 0 then (i.getD 0 0 : ℝ) else 1)⟩, ⟨[2, 2], fun i => a * (if i.getD 0 0 = 0 then (if i.getD 1 0 = 0 then 1 else 0) else
    if i.getD 1 0 = 0 then 1 else -1)⟩, if useBias then some ⟨[2, 2], fun _ => a⟩ else none, none⟩

theorem sensProb_valid (a : ℝ) (ub : Bool) : ValidModel (sensProb a ub) 1 3 2 := by
  refine ⟨rfl, rfl, ?_, by decide⟩
  intro b hb
  cases ub <;> simp [sensProb] at hb
  rw [← hb]

theorem sensProb_psi (a : ℝ) (ub : Bool) (x : Fin 1 → Fin 3) : psiSeq (sensProb a ub) 1 3 2 x = a * (a * (x 0 : ℕ) - a) * a := by
  cases ub <;> simp [psiSeq, amplitude, coreMat, biasMat, boundVec, sensProb, dotProduct, Matrix.mulVec, Fin.sum_univ_two] <;> ring

theorem sensProb_Z (a : ℝ) (ub : Bool) (ha : a ≠ 0) : modelZ (sensProb a ub) 1 3 2 ≠ 0 := by
  intro h
  have := (Finset.sum_eq_zero_iff_of_nonneg (fun x _ => sq_nonneg ‖psiSeq (sensProb a ub) 1 3 2 x‖)).1 h (fun _ => 0) (Finset.mem_univ _)
  rw [sensProb_psi] at this
  simp [ha] at this

/-- all parameters changed by 1%, evaluated with different strategies: the hypotheses are met, for a model with parameters of both signs, with and without bias -/
example (ub par par' : Bool) : ∑ x : Fin 1 → Fin 3, |probSeq (sensProb (1 + 1 / 100) ub) false par' x - probSeq (sensProb 1 ub) false par x| ≤
    4 * ((1 + 1 / 100) ^ 3 - 1) * Real.sqrt (modelZ (absProb (sensProb 1 ub)) 1 3 2 / modelZ (sensProb 1 ub) 1 3 2) :=
  C98_relative (1 / 100) (sensProb 1 ub) (sensProb (1 + 1 / 100) ub) (sensProb_valid 1 ub) (sensProb_valid _ ub) rfl rfl (by norm_num)
    ⟨rfl, relClose_mul _ _ _ (by intro i; simp [sensProb]) (by norm_num), relClose_mul _ _ _ (by intro i; simp [sensProb]) (by norm_num), by
      cases ub
      · trivial
      · exact relClose_mul _ _ _ (by intro i; simp) (by norm_num)⟩ false par false par' (by simp) (by simp) (sensProb_Z 1 ub one_ne_zero) (sensProb_Z _ ub (by norm_num))

/-- continuity at this model -/
example (ub par : Bool) : ∃ δ > 0, ∀ m' : ProbMPS ℝ, ValidModel m' 1 3 2 → m'.embedding = none → AllProb (AbsClose δ) (sensProb 1 ub) m' → ∀ slim' par' : Bool, (slim' = true → m'.bias = none) →
      modelZ m' 1 3 2 ≠ 0 ∧ ∑ x : Fin 1 → Fin 3, |probSeq m' slim' par' x - probSeq (sensProb 1 ub) false par x| ≤ 1 / 1000 :=
  C98_continuous (sensProb 1 ub) (sensProb_valid 1 ub) rfl false par (by simp) (sensProb_Z 1 ub one_ne_zero) _ (by norm_num)

/-- a fixed-length model with nonnegative parameters -/
def sensPos (a : ℝ) : ProbMPS ℝ := ⟨false, ⟨[2, 2, 1, 1], fun i => a * (i.getD 0 0 + i.getD 1 0)⟩, ⟨[2, 1], fun _ => a⟩, none, none⟩

theorem sensPos_valid (a : ℝ) : ValidModel (sensPos a) 2 2 1 := ⟨rfl, rfl, by simp [sensPos], by decide⟩

theorem sensPos_psi (a : ℝ) (x : Fin 2 → Fin 2) : psiSeq (sensPos a) 2 2 1 x = a ^ 4 * ((x 0 : ℕ) * (1 + (x 1 : ℕ))) := by
  simp [psiSeq, amplitude, coreMat, biasMat, boundVec, sensPos, dotProduct, Matrix.mulVec, Matrix.mul_apply]
  ring

theorem sensPos_Z (a : ℝ) (ha : a ≠ 0) : modelZ (sensPos a) 2 2 1 ≠ 0 := by
  intro h
  have := (Finset.sum_eq_zero_iff_of_nonneg (fun x _ => sq_nonneg ‖psiSeq (sensPos a) 2 2 1 x‖)).1 h (fun _ => 1) (Finset.mem_univ _)
  rw [sensPos_psi] at this
  simp [ha] at this

/-- log probabilities of a model whose first letter must not be 0, after a change of all parameters by at most 1% -/
example (m' : ProbMPS ℝ) (hm' : ValidModel m' 2 2 1) (he' : m'.embedding = none) (h : AllProb (RelClose (1 / 100)) (sensPos 1) m') (slim par slim' par' : Bool) (x : Fin 2 → Fin 2) (hx : x 0 = 1) :
    |Real.log (probSeq m' slim' par' x) - Real.log (probSeq (sensPos 1) slim par x)| ≤ 8 * Real.log ((1 + 1 / 100) / (1 - 1 / 100)) := by
  have hb' : m'.bias = none := by
    have := h.2.2.2
    cases hb : m'.bias with
    | none => rfl
    | some b => rw [hb] at this; exact this.elim
  have := (C98_nonneg (1 / 100) (sensPos 1) m' (sensPos_valid 1) hm' rfl he' (by norm_num) (by norm_num) h ⟨fun idx _ => by simp only [sensPos]; positivity, fun idx _ => by simp [sensPos], by simp [sensPos]⟩
    (sensPos_Z 1 one_ne_zero) x slim par slim' par' (fun _ => rfl) (fun _ => hb') (by
      rw [probSeq_eq (sensPos 1) 2 2 1 (sensPos_valid 1) rfl slim par (fun _ => rfl) (sensPos_Z 1 one_ne_zero), sensPos_psi, hx]
      refine div_ne_zero ?_ (sensPos_Z 1 one_ne_zero)
      have : (0 : ℝ) < 1 + ((x 1 : ℕ) : ℝ) := by positivity
      simp [this.ne'])).2
  refine le_trans this (le_of_eq ?_)
  norm_num

end TorchMPS
