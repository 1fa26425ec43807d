import Verif.Lemmas.LogNorm
/-
C17, C18, C19: `get_log_norm`.
-/
namespace TorchMPS
open Spec
variable {K : Type}

theorem CoreShape.ndim [RCLike K] {core : Tensor K} {n d D : ℕ} (h : CoreShape core n d D) :
    core.ndim = 3 ∨ core.ndim = 4 := by
  rcases h with h | h <;> simp [Tensor.ndim, h]

theorem unbind0_feat [RCLike K] (core : Tensor K) (n d D : ℕ) (h : core.shape = [n, d, D, D]) {ι : Type}
    (v : ι → ℕ → K) :
    (∀ ct ∈ unbind0 core, ct.shape = [d, D, D]) ∧
    (unbind0 core).map (fun ct a => feat3 ct d D (v a)) =
      List.ofFn fun s : Fin n => fun a => featMat core d D s (v a) := by
  constructor
  · intro ct hct
    simp only [unbind0, List.mem_map] at hct
    obtain ⟨s, -, rfl⟩ := hct
    simp [h]
  · simp only [unbind0, h, List.headD_cons, List.map_map, List.ofFn_eq_map]
    refine List.ext_getElem (by simp) ?_
    intro i h1 h2
    simp only [List.getElem_map, List.getElem_range, Function.comp]
    funext a
    simp [feat3, featMat, coreMat, h]

theorem replicate_feat [RCLike K] (core : Tensor K) (n d D : ℕ) (h : core.shape = [d, D, D]) {ι : Type}
    (v : ι → ℕ → K) :
    (List.replicate n core).map (fun ct a => feat3 ct d D (v a)) =
      List.ofFn fun s : Fin n => fun a => featMat core d D s (v a) := by
  refine List.ext_getElem (by simp) ?_
  intro i h1 h2
  simp only [List.getElem_map, List.getElem_replicate, List.getElem_ofFn]
  funext a
  simp [feat3, featMat, coreMat, h]

theorem logNormCorr_some [RCLike K] (bound dm : Tensor K) (D : ℕ) (c : ℝ)
    (h : FinalIs dm D (boundVec bound D 1) c) : logNormCorr bound D (some dm) = .ok (some c) := by
  obtain ⟨o, h1, -, h3⟩ := einsum_final (rightVec bound D) dm (conjT (rightVec bound D)) D D rfl h.1 rfl
  have : o.get [] = (c : K) := by
    rw [h3, ← h.2, ← Fin.sum_univ_eq_sum_range (fun r => ∑ q ∈ Finset.range D,
      (rightVec bound D).get [r] * (dm.get [r, q] * (conjT (rightVec bound D)).get [q])) D]
    refine Finset.sum_congr rfl fun i _ => ?_
    rw [← Fin.sum_univ_eq_sum_range (fun q => (rightVec bound D).get [(i : ℕ)] *
      (dm.get [(i : ℕ), q] * (conjT (rightVec bound D)).get [q])) D]
    rfl
  simp only [logNormCorr, h1, bind, Except.bind, this]
  rw [realify_of_im_zero _ (by simp)]
  simp

theorem logNormCheck_ok [RCLike K] (core bound : Tensor K) (n d D : ℕ) (hcore : CoreShape core n d D)
    (hbound : bound.shape = [2, D]) (length : Option ℤ) (hlen : LengthArg core n length)
    (lamb : Option (Tensor K)) (hlamb : ∀ l ∈ lamb, l.ndim ≤ 2) :
    logNormCheck core bound length lamb = .ok () := by
  unfold logNormCheck
  rw [assert_true _ hlamb]
  rcases hcore with h | h <;> rcases hlen with ⟨h1, h2⟩ | ⟨h1, h2⟩
  · subst h2
    have : ¬ (n : ℤ) = -1 := by omega
    simp [h, hbound, Tensor.ndim, assert, bind, Except.bind, pure, Except.pure, this]
  · simp [h] at h1
  · simp [h] at h1
  · rcases h2 with rfl | rfl <;>
      simp [h, hbound, Tensor.ndim, assert, bind, Except.bind, pure, Except.pure]

theorem getLogNorm_main [RCLike K] (core bound : Tensor K) (n d D : ℕ) (hcore : CoreShape core n d D)
    (hbound : bound.shape = [2, D]) (length : Option ℤ) (hlen : LengthArg core n length)
    (lamb : Option (Tensor K)) (Λ : ℕ → ℕ → K) (hL : LambdaIs lamb d Λ) {ι : Type} [Fintype ι] (w : ι → ℝ)
    (hw : ∀ a, 0 ≤ w a) (v : ι → ℕ → K)
    (hΛ : ∀ i < d, ∀ j < d, Λ i j = ∑ a, (w a : K) * (v a i * star (v a j))) :
    (weightedNormSq core bound n d D w v ≠ 0 → getLogNorm core bound length lamb =
      .ok (some ((Real.log (weightedNormSq core bound n d D w v) : ℝ) : EReal))) ∧
    (weightedNormSq core bound n d D w v = 0 → getLogNorm core bound length lamb = .ok (some ⊥) ∨
      getLogNorm core bound length lamb = .ok none ∨
      (isComplex K ∧ getLogNorm core bound length lamb = .error .assertion)) := by
  have hlamb : ∀ l ∈ lamb, l.ndim ≤ 2 := by
    intro l hl
    rw [Option.mem_def] at hl
    subst hl
    rcases hL with ⟨h, -⟩ | ⟨h, -⟩ | ⟨h, -⟩ <;> simp [Tensor.ndim, h]
  have hc : ∃ cores : List (Tensor K),
      (if core.ndim = 3 then List.replicate (length.getD 0).toNat core else unbind0 core) = cores ∧
      (∀ ct ∈ cores, ct.shape = [d, D, D]) ∧ cores.map (fun ct a => feat3 ct d D (v a)) =
      List.ofFn fun s : Fin n => fun a => featMat core d D s (v a) := by
    refine ⟨_, rfl, ?_⟩
    rcases hcore with h | h
    · have h3 : core.ndim = 3 := by simp [Tensor.ndim, h]
      have hl : length = some (n : ℤ) := by
        rcases hlen with h' | h'
        · exact h'.2
        · simp [h] at h'
      rw [if_pos h3, hl]
      simp only [Option.getD_some, Int.toNat_natCast]
      refine ⟨fun ct hct => ?_, replicate_feat core n d D h v⟩
      rw [List.eq_of_mem_replicate hct, h]
    · have h3 : core.ndim ≠ 3 := by simp [Tensor.ndim, h]
      rw [if_neg h3]
      exact unbind0_feat core n d D h v
  obtain ⟨cores, hcores, hc1, hc2⟩ := hc
  have hfam : IsFamily (densMat bound D) D (fun _ : Unit => 1) (fun _ => boundVec bound D 0) := by
    refine ⟨rfl, fun r q => ?_⟩
    simp [densMat, boundVec]
  have hmain := foldl_family lamb d D Λ hL w hw v hΛ (boundVec bound D 1) cores hc1
    (fun _ : Unit => (1 : ℝ)) (fun _ => zero_le_one) (fun _ => boundVec bound D 0) _ hfam 0
    (weightedNormSq core bound n d D w v) (by
      rw [hc2]; simp [totM_ofFn, weightedNormSq])
  have hD : core.shape.getD (core.ndim - 1) 0 = D := by
    rcases hcore with h | h <;> simp [Tensor.ndim, h]
  unfold getLogNorm
  rw [logNormCheck_ok core bound n d D hcore hbound length hlen lamb hlamb, hcores, hD]
  refine ⟨fun hS => ?_, fun hS => ?_⟩
  · obtain ⟨dm', l', c, e1, e2, e3, e4⟩ := hmain.1 hS
    simp only [bind, Except.bind, e1, logNormCorr_some bound dm' D c e3, pure, Except.pure]
    simp only [addLog, bind, Option.bind, torchLog, if_pos e2, pure]
    rw [← EReal.coe_add, e4, zero_add]
  · rcases hmain.2 hS with ⟨dm', l', e1, e3⟩ | ⟨l', e1⟩ | ⟨hcx, e1⟩
    · simp only [bind, Except.bind, e1, logNormCorr_some bound dm' D 0 e3, pure, Except.pure]
      left
      simp [addLog, torchLog]
    · simp only [e1, bind, Except.bind, pure, Except.pure, logNormCorr, realify]
      by_cases hcx : isComplex K
      · rw [if_pos hcx]; right; right; exact ⟨hcx, rfl⟩
      · rw [if_neg hcx]; right; left; rfl
    · simp only [e1, bind, Except.bind]; right; right; exact ⟨hcx, trivial⟩

theorem featMat_unit [RCLike K] (core : Tensor K) (d D s : ℕ) (k : Fin d) :
    featMat core d D s (fun i => if i = k then (1 : K) else 0) = coreMat core D s k := by
  rw [featMat, Finset.sum_eq_single (k : ℕ)]
  · simp
  · intro i _ hi; simp [hi]
  · intro h; exact absurd (Finset.mem_range.2 k.2) h

theorem weightedNormSq_unit [RCLike K] (core bound : Tensor K) (n d D : ℕ) :
    weightedNormSq core bound n d D (fun _ : Fin d => (1 : ℝ))
      (fun k i => if i = (k : ℕ) then (1 : K) else 0) = normSq core bound n d D := by
  unfold weightedNormSq normSq
  refine Finset.sum_congr rfl fun x _ => ?_
  simp only [Finset.prod_const_one, one_mul, featMat_unit]

theorem lambda_unit [RCLike K] (d : ℕ) : LambdaIs (none : Option (Tensor K)) d (fun i j =>
    ∑ a : Fin d, (((1 : ℝ)) : K) * ((if i = (a : ℕ) then (1 : K) else 0) * star (if j = (a : ℕ) then (1 : K) else 0))) := by
  intro i hi j hj
  beta_reduce
  rw [Finset.sum_eq_single ⟨i, hi⟩]
  · by_cases h : i = j
    · simp [h]
    · simp [h, Ne.symm h]
  · intro b _ hb
    have : ¬ i = (b : ℕ) := fun h => hb (Fin.ext h.symm)
    simp [this]
  · intro h; exact absurd (Finset.mem_univ _) h

/-- C17: without `lamb_mat`, `get_log_norm` is the logarithm of the sum of `|ψ(x)|²` over all `d ^ n`
index sequences `x`, for uniform cores (given the length `n`) and for cores with a site axis, whenever
this sum is not zero. -/
theorem C17_log_norm [RCLike K] (core bound : Tensor K) (n d D : ℕ) (hcore : CoreShape core n d D)
    (hbound : bound.shape = [2, D]) (length : Option ℤ) (hlen : LengthArg core n length)
    (hS : normSq core bound n d D ≠ 0) :
    getLogNorm core bound length none = .ok (some ((Real.log (normSq core bound n d D) : ℝ) : EReal)) := by
  have := (getLogNorm_main core bound n d D hcore hbound length hlen none _ (lambda_unit d)
    (fun _ : Fin d => (1 : ℝ)) (fun _ => zero_le_one) (fun k i => if i = (k : ℕ) then (1 : K) else 0)
    (fun i _ j _ => rfl)).1
  rw [weightedNormSq_unit] at this
  exact this hS

/-- C17, degenerate case: when the amplitude tensor is identically zero, `get_log_norm` returns `-inf` or
NaN or (complex dtypes only) raises AssertionError: it never returns a finite number. -/
theorem C17_log_norm_zero [RCLike K] (core bound : Tensor K) (n d D : ℕ) (hcore : CoreShape core n d D)
    (hbound : bound.shape = [2, D]) (length : Option ℤ) (hlen : LengthArg core n length)
    (hS : normSq core bound n d D = 0) :
    getLogNorm core bound length none = .ok (some ⊥) ∨ getLogNorm core bound length none = .ok none ∨
      (isComplex K ∧ getLogNorm core bound length none = .error .assertion) := by
  have := (getLogNorm_main core bound n d D hcore hbound length hlen none _ (lambda_unit d)
    (fun _ : Fin d => (1 : ℝ)) (fun _ => zero_le_one) (fun k i => if i = (k : ℕ) then (1 : K) else 0)
    (fun i _ j _ => rfl)).2
  rw [weightedNormSq_unit] at this
  exact this hS

/-- C18: if `lamb_mat` denotes `∑ a, w a • v_a v_a†` for a finite family of feature vectors with non-negative
weights (as a full matrix, a diagonal or a scalar multiple of the identity; see `LambdaIs`), then
`get_log_norm` is the logarithm of the weighted sum of `|ψ|²` over all sequences of feature vectors of
the family, whenever this sum is not zero. -/
theorem C18_log_norm_lambda [RCLike K] (core bound : Tensor K) (n d D : ℕ) (hcore : CoreShape core n d D)
    (hbound : bound.shape = [2, D]) (length : Option ℤ) (hlen : LengthArg core n length)
    (lamb : Option (Tensor K)) {ι : Type} [Fintype ι] (w : ι → ℝ) (hw : ∀ a, 0 ≤ w a) (v : ι → ℕ → K)
    (hL : LambdaIs lamb d (fun i j => ∑ a, (w a : K) * (v a i * star (v a j))))
    (hS : weightedNormSq core bound n d D w v ≠ 0) :
    getLogNorm core bound length lamb =
      .ok (some ((Real.log (weightedNormSq core bound n d D w v) : ℝ) : EReal)) :=
  (getLogNorm_main core bound n d D hcore hbound length hlen lamb _ hL w hw v (fun _ _ _ _ => rfl)).1 hS

/-- C18, degenerate case: a vanishing weighted sum never gives a finite number. -/
theorem C18_log_norm_lambda_zero [RCLike K] (core bound : Tensor K) (n d D : ℕ) (hcore : CoreShape core n d D)
    (hbound : bound.shape = [2, D]) (length : Option ℤ) (hlen : LengthArg core n length)
    (lamb : Option (Tensor K)) {ι : Type} [Fintype ι] (w : ι → ℝ) (hw : ∀ a, 0 ≤ w a) (v : ι → ℕ → K)
    (hL : LambdaIs lamb d (fun i j => ∑ a, (w a : K) * (v a i * star (v a j))))
    (hS : weightedNormSq core bound n d D w v = 0) :
    getLogNorm core bound length lamb = .ok (some ⊥) ∨ getLogNorm core bound length lamb = .ok none ∨
      (isComplex K ∧ getLogNorm core bound length lamb = .error .assertion) :=
  (getLogNorm_main core bound n d D hcore hbound length hlen lamb _ hL w hw v (fun _ _ _ _ => rfl)).2 hS

/-! ### Validation -/

theorem getLogNorm_of_check [RCLike K] (core bound : Tensor K) (length : Option ℤ) (lamb : Option (Tensor K))
    (e : Err) (h : logNormCheck core bound length lamb = .error e) :
    getLogNorm core bound length lamb = .error e := by
  simp only [getLogNorm, h, bind, Except.bind]

/-- C19: cores of rank other than 3 and 4 are rejected, whatever the other arguments. -/
theorem C19_core_rank [RCLike K] (core bound : Tensor K) (length : Option ℤ) (lamb : Option (Tensor K))
    (h : core.shape.length ≠ 3 ∧ core.shape.length ≠ 4) :
    getLogNorm core bound length lamb = .error .assertion := by
  refine getLogNorm_of_check _ _ _ _ _ ?_
  unfold logNormCheck
  rw [assert_false _ (by simpa [Tensor.ndim] using h)]
  rfl

/-- C19: boundary vectors of another bond dimension than the last axis of the core are rejected. -/
theorem C19_bond_mismatch [RCLike K] (core bound : Tensor K) (length : Option ℤ) (lamb : Option (Tensor K))
    (k D' : ℕ) (hb : bound.shape = [k, D'])
    (h : core.shape.getLast? ≠ some D') :
    getLogNorm core bound length lamb = .error .assertion := by
  by_cases hr : core.shape.length = 3 ∨ core.shape.length = 4
  · refine getLogNorm_of_check _ _ _ _ _ ?_
    unfold logNormCheck
    rw [assert_true _ (by simpa [Tensor.ndim] using hr)]
    have : ¬ bound.shape.getD (bound.ndim - 1) 0 = core.shape.getD (core.ndim - 1) 0 := by
      intro he
      apply h
      rw [List.getLast?_eq_getElem?]
      have hlt : core.shape.length - 1 < core.shape.length := by omega
      simp only [Tensor.ndim, List.getD_eq_getElem?_getD, List.getElem?_eq_getElem hlt, hb] at he
      rw [List.getElem?_eq_getElem hlt]
      simp at he
      rw [← he]
    rw [assert_false _ this]
    simp [Tensor.ndim, hb, bind, Except.bind]
  · exact C19_core_rank _ _ _ _ (by omega)

/-- C19: for a core with a site axis, a `length` different from the number of sites is rejected. -/
theorem C19_length_mismatch [RCLike K] (core bound : Tensor K) (l : ℤ) (lamb : Option (Tensor K))
    (n d D E k : ℕ) (hc : core.shape = [n, d, D, E]) (hb : bound.shape = [k, E]) (h : l ≠ n) :
    getLogNorm core bound (some l) lamb = .error .assertion := by
  refine getLogNorm_of_check _ _ _ _ _ ?_
  simp [logNormCheck, hc, hb, Tensor.ndim, assert, bind, Except.bind, h]

/-- C19: a uniform core without `length` is rejected. -/
theorem C19_length_missing [RCLike K] (core bound : Tensor K) (lamb : Option (Tensor K))
    (d D E k : ℕ) (hc : core.shape = [d, D, E]) (hb : bound.shape = [k, E]) :
    getLogNorm core bound none lamb = .error .assertion := by
  refine getLogNorm_of_check _ _ _ _ _ ?_
  unfold logNormCheck
  by_cases hl : ∀ l ∈ lamb, l.ndim ≤ 2
  · rw [assert_true _ hl]
    simp [hc, hb, Tensor.ndim, assert, bind, Except.bind]
  · rw [assert_false _ hl]
    simp [hc, hb, Tensor.ndim, assert, bind, Except.bind]

/-- C19: `lamb_mat` of rank greater than 2 is rejected. -/
theorem C19_lambda_rank [RCLike K] (core bound lam : Tensor K) (length : Option ℤ) (k E : ℕ)
    (hb : bound.shape = [k, E]) (h : 2 < lam.shape.length) :
    getLogNorm core bound length (some lam) = .error .assertion := by
  refine getLogNorm_of_check _ _ _ _ _ ?_
  unfold logNormCheck
  by_cases h1 : core.ndim = 3 ∨ core.ndim = 4
  · rw [assert_true _ h1]
    by_cases h2 : bound.shape.getD (bound.ndim - 1) 0 = core.shape.getD (core.ndim - 1) 0
    · rw [assert_true _ h2]
      by_cases h3 : core.ndim = 3 ∨ length = none ∨ length = some (core.shape.headD 0 : ℤ)
      · rw [assert_true _ h3, assert_false (∀ l ∈ some lam, l.ndim ≤ 2) (by simpa [Tensor.ndim] using h)]
        simp [hb, Tensor.ndim, bind, Except.bind]
      · rw [assert_false _ h3]
        simp [hb, Tensor.ndim, bind, Except.bind]
    · rw [assert_false _ h2]
      simp [hb, Tensor.ndim, bind, Except.bind]
  · rw [assert_false _ h1]; rfl

/-- C19: the request for the norm over all lengths (`length = -1`) of a uniform core is not implemented. -/
theorem C19_arbitrary_length [RCLike K] (core bound : Tensor K) (lamb : Option (Tensor K))
    (d D E : ℕ) (hc : core.shape = [d, D, E]) (hb : bound.shape = [2, E])
    (hl : ∀ l ∈ lamb, l.shape.length ≤ 2) :
    getLogNorm core bound (some (-1)) lamb = .error .notImplemented := by
  refine getLogNorm_of_check _ _ _ _ _ ?_
  unfold logNormCheck
  rw [assert_true (∀ l ∈ lamb, l.ndim ≤ 2) hl]
  simp [hc, hb, Tensor.ndim, assert, bind, Except.bind, throw, throwThe, MonadExceptOf.throw]

theorem not_isComplex_real : ¬ isComplex ℝ := by simp [isComplex]

/-- C19: real-valued arguments of consistent shapes are always accepted. -/
theorem C19_accepted (core bound : Tensor ℝ) (n d D : ℕ) (hcore : CoreShape core n d D)
    (hbound : bound.shape = [2, D]) (length : Option ℤ) (hlen : LengthArg core n length)
    (lamb : Option (Tensor ℝ)) {ι : Type} [Fintype ι] (w : ι → ℝ) (hw : ∀ a, 0 ≤ w a) (v : ι → ℕ → ℝ)
    (hL : LambdaIs lamb d (fun i j => ∑ a, (w a : ℝ) * (v a i * star (v a j)))) :
    ∃ y, getLogNorm core bound length lamb = .ok y := by
  have := getLogNorm_main core bound n d D hcore hbound length hlen lamb _ hL w hw v (fun _ _ _ _ => rfl)
  by_cases hS : weightedNormSq core bound n d D w v = 0
  · rcases this.2 hS with h | h | ⟨h, -⟩
    · exact ⟨_, h⟩
    · exact ⟨_, h⟩
    · exact absurd h not_isComplex_real
  · exact ⟨_, this.1 hS⟩

/-- Non-vacuity: for the all-ones core with one-dimensional bonds the hypotheses of C17 hold for every length,
and the norm is `2 ^ n` (here with complex entries and `n` arbitrary). -/
example (n : ℕ) : getLogNorm (K := ℂ) ⟨[2, 1, 1], fun _ => 1⟩ ⟨[2, 1], fun _ => 1⟩ (some n) none =
    .ok (some ((Real.log (2 ^ n) : ℝ) : EReal)) := by
  have hS : normSq (K := ℂ) ⟨[2, 1, 1], fun _ => 1⟩ ⟨[2, 1], fun _ => 1⟩ n 2 1 = 2 ^ n := by
    have h1 : ∀ n : ℕ, (Matrix.of fun _ _ : Fin 1 => (1 : ℂ)) ^ n = Matrix.of fun _ _ => 1 := by
      intro n
      induction n with
      | zero => ext i j; simp [Subsingleton.elim i j]
      | succ n ih => rw [pow_succ, ih]; ext i j; simp [Matrix.mul_apply]
    simp [normSq, amplitude, coreMat, boundVec, h1, Matrix.mulVec, dotProduct]
  have := C17_log_norm (K := ℂ) ⟨[2, 1, 1], fun _ => 1⟩ ⟨[2, 1], fun _ => 1⟩ n 2 1 (Or.inl rfl) rfl (some n)
    (Or.inl ⟨rfl, rfl⟩) (by rw [hS]; positivity)
  rw [this, hS]

/-- Non-vacuity of `LambdaIs` in C18: a non-diagonal `lamb_mat` from two overlapping feature vectors. -/
example : LambdaIs (K := ℝ) (some ⟨[2, 2], fun idx => if idx = [0, 0] then 3 else 1⟩) 2 (fun i j =>
    ∑ a : Fin 2, (((![2, 1] a : ℝ)) : ℝ) * ((if i = 1 ∧ a = 0 then 0 else 1 : ℝ) *
      star (if j = 1 ∧ a = 0 then 0 else 1 : ℝ))) := by
  right; right
  refine ⟨rfl, ?_⟩
  intro i hi j hj
  interval_cases i <;> interval_cases j <;> norm_num [Fin.sum_univ_two]

end TorchMPS
