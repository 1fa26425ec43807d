import Verif.Lemmas.RoundedEval
/-
Properties of the matrix reductions and of `contract_matseq` in rounded arithmetic: C83.
-/
namespace TorchMPS
open Spec
variable {K : Type} [RCLike K]

/-! ### exact arithmetic is a special case -/

theorem exact_seqStep : (exactOps K).seqStep = seqStep := by
  funext st m
  cases st with
  | none => rfl
  | some p =>
    obtain ⟨P, s⟩ := p
    simp only [Arith.seqStep, seqStep, exactOps, List.map_cons, List.map_nil, List.sum_cons, List.sum_nil, add_zero]

theorem exact_reduceSeq : (exactOps K).reduceSeq = matReduceSeq := by
  funext m ms
  unfold Arith.reduceSeq matReduceSeq
  rw [exact_seqStep]
  rfl

theorem exact_parStep (D : ℕ) (ms : List (Mat K)) (s : ℝ) : (exactOps K).parStep D ms s = parStep D ms s := rfl

theorem exact_parLoop (D : ℕ) (n : ℕ) : ∀ (ms : List (Mat K)) (s : ℝ), ms.length ≤ n → (exactOps K).parLoop D ms s = parLoop D ms s := by
  induction n with
  | zero =>
    intro ms s h
    rw [Arith.parLoop.eq_def, parLoop.eq_def, dif_neg (by omega), dif_neg (by omega)]
    cases ms <;> rfl
  | succ n ih =>
    intro ms s h
    rw [parLoop.eq_def]
    by_cases hl : 1 < ms.length
    · rw [dif_pos hl]
      split
      · rename_i hs
        exact parLoopF_none (exactOps K) D ms s hl hs
      · rename_i ms' l' hs
        rw [parLoopF_some (exactOps K) D ms ms' s l' hl hs]
        refine ih _ _ ?_
        simp only [parStep] at hs
        split at hs
        · cases hs
        · simp only [Option.some.injEq, Prod.mk.injEq] at hs
          rw [← hs.1, List.length_map, parPairs_length]
          omega
    · rw [dif_neg hl, Arith.parLoop.eq_def, dif_neg hl]
      cases ms <;> rfl

theorem exact_reducePar (D : ℕ) (ms : List (Mat K)) : (exactOps K).reducePar D ms = matReducePar D ms := by
  rcases ms with _ | ⟨a, _ | ⟨b, ms⟩⟩
  · rfl
  · rfl
  · exact exact_parLoop D _ _ _ (le_refl _)

theorem exact_elemPar (s : MatSeq K) (D : ℕ) : (exactOps K).elemPar s D = elemPar s D := by
  funext b
  unfold Arith.elemPar elemPar
  rw [exact_reducePar]
  cases matReducePar D (s.mats.map (·.at b)) with
  | none => rfl
  | some p => cases s.left <;> cases s.right <;> rfl

theorem exact_elemSeq (s : MatSeq K) : (exactOps K).elemSeq s = elemSeq s := by
  funext b
  unfold Arith.elemSeq elemSeq
  rw [exact_reduceSeq]
  rfl

theorem exact_evalMatSeq (s : MatSeq K) (par : Bool) (D : ℕ) : (exactOps K).evalMatSeq s par D = evalMatSeq s par D := by
  unfold Arith.evalMatSeq evalMatSeq
  simp only [exact_elemPar, exact_elemSeq]
  rfl

/-- C83: with exact arithmetic, the rounded `contract_matseq` is the one of the other properties. -/
theorem C83_exact_model (ms : TensorSeq K) (lv rv : Option (Tensor K)) (par : Bool) :
    (exactOps K).contractMatseq ms lv rv par = contractMatseq ms lv rv par := by
  unfold Arith.contractMatseq contractMatseq
  simp only [exact_evalMatSeq]
  rfl

/-- Exact arithmetic is accurate with all errors zero. -/
theorem exactOps_accurate (D N : ℕ) : Accurate (exactOps K) D N 0 0 0 where
  gamma := le_refl _
  unit := le_refl _
  mu := le_refl _
  mmSize A B := ⟨rfl, rfl⟩
  mm A B _ _ i _ j _ := by simp [exactOps, Mat.mul]
  scaleNonneg t A ht := div_nonneg (Mat.absSum_nonneg A) ht.le
  isZero s := Iff.rfl
  scaleZero t A ht := by
    show A.absSum / t = 0 ↔ _
    rw [div_eq_zero_iff, or_iff_left ht.ne', Mat.absSum_eq_zero_iff]
  divSize A s := ⟨rfl, rfl⟩
  div A s _ i _ j _ := by simp [exactOps, Mat.divReal]
  logAdd s rs _ _ := by simp [exactOps]

/-! ### the reductions -/

/-- C83. `mat_reduce_seq` in any accurate arithmetic: every entry of `exp(log_scale) * product` is within `ε` times the corresponding entry of the product
of absolute values of that of the exact product, and NaN arises only if the exact product is that small; `ε` for `n` matrices has `n - 1` factors for the
matrix products, the divisions and the updates of the log scale. -/
theorem C83_seq {ops : FlOps K} {D N : ℕ} {γ u μ S : ℝ} (ac : Accurate ops D N γ u μ) (hS : ScalesBounded ops S) (hN : 1 ≤ N) (m : Mat K) (ms : List (Mat K))
    (hc : ChainOK (m :: ms)) (hs : SizesUpTo D (m :: ms)) :
    Approximates (ops.reduceSeq m ms) (matProd m ms) (absProd m ms) (roundErr γ u μ S ms.length ms.length ms.length ms.length) :=
  (reduceSeq_near ac hN m ms hc hs).approx ac hS (by rw [mul_pow]) (le_refl _) (le_refl _)

/-- C83. `mat_reduce_par` in any accurate arithmetic: the log scale is updated only about `log2 n` times, with at most `2 (n - 1)` logarithms in total. -/
theorem C83_par {ops : FlOps K} {D N : ℕ} {γ u μ S : ℝ} (ac : Accurate ops D N γ u μ) (hS : ScalesBounded ops S) (d : ℕ) (hd : 1 ≤ d) (hD : d ≤ D) (m : Mat K)
    (ms : List (Mat K)) (hN : ms.length + 1 ≤ N) (h : ∀ x ∈ m :: ms, x.r = d ∧ x.c = d) :
    Approximates (ops.reducePar d (m :: ms)) (matProd m ms) (absProd m ms)
      (roundErr γ u μ S ms.length (2 * ms.length) (Nat.clog 2 (ms.length + 1)) (2 * ms.length)) :=
  (reducePar_near ac d hd hD m ms hN (fun _ => h)).approx ac hS (le_refl _) (le_refl _) (le_refl _)

theorem roundErr_mono {γ u μ S : ℝ} (hγ : 0 ≤ γ) (hu : 0 ≤ u) (hμ : 0 ≤ μ) (hS : 0 ≤ S) {a b k l a' b' k' l' : ℕ} (ha : a ≤ a') (hb : b ≤ b') (hk : k ≤ k') (hl : l ≤ l') :
    roundErr γ u μ S a b k l ≤ roundErr γ u μ S a' b' k' l' := by
  have e1 : (1 + γ) ^ a ≤ (1 + γ) ^ a' := pow_le_pow_right₀ (by linarith) ha
  have e2 : (1 + u) ^ b ≤ (1 + u) ^ b' := pow_le_pow_right₀ (by linarith) hb
  have e3 : (1 + μ) ^ k ≤ (1 + μ) ^ k' := pow_le_pow_right₀ (by linarith) hk
  have e4 : (1 : ℝ) ≤ (1 + μ) ^ k' := one_le_pow₀ (by linarith)
  have e5 : (l : ℝ) * S ≤ l' * S := mul_le_mul_of_nonneg_right (by exact_mod_cast hl) hS
  have e6 : Real.exp (((1 + μ) ^ k - 1) * (l * S)) ≤ Real.exp (((1 + μ) ^ k' - 1) * (l' * S)) :=
    Real.exp_le_exp.2 (mul_le_mul (by linarith) e5 (by positivity) (by linarith))
  unfold roundErr
  have := mul_le_mul (mul_le_mul e1 e2 (by positivity) (by positivity)) e6 (Real.exp_pos _).le (by positivity)
  linarith

/-- C83. The error factor tends to 0 with the errors of the arithmetic: for given numbers of operations and exponent range, sufficiently accurate arithmetic
makes it as small as desired. -/
theorem C83_limit (S : ℝ) (a b k l : ℕ) (δ : ℝ) (hδ : 0 < δ) :
    ∃ η > 0, ∀ γ u μ, 0 ≤ γ → 0 ≤ u → 0 ≤ μ → γ ≤ η → u ≤ η → μ ≤ η → roundErr γ u μ (max S 0) a b k l < δ := by
  have hcont : Continuous (fun η : ℝ => roundErr η η η (max S 0) a b k l) := by
    unfold roundErr
    fun_prop
  have h0 : roundErr 0 0 0 (max S 0) a b k l = 0 := by simp [roundErr]
  have := hcont.continuousAt (x := 0)
  rw [Metric.continuousAt_iff] at this
  obtain ⟨ε, hε, h⟩ := this δ hδ
  refine ⟨ε / 2, by linarith, ?_⟩
  intro γ u μ hγ hu hμ h1 h2 h3
  have h4 := h (x := ε / 2) (by rw [Real.dist_eq, sub_zero, abs_of_pos (by linarith)]; linarith)
  rw [Real.dist_eq, h0, sub_zero] at h4
  refine lt_of_le_of_lt ?_ ((le_abs_self _).trans_lt h4)
  have hS : (0 : ℝ) ≤ max S 0 := le_max_right _ _
  have e1 : (1 + γ) ^ a ≤ (1 + ε / 2) ^ a := pow_le_pow_left₀ (by linarith) (by linarith) _
  have e2 : (1 + u) ^ b ≤ (1 + ε / 2) ^ b := pow_le_pow_left₀ (by linarith) (by linarith) _
  have e3 : (1 + μ) ^ k ≤ (1 + ε / 2) ^ k := pow_le_pow_left₀ (by linarith) (by linarith) _
  have e6 : Real.exp (((1 + μ) ^ k - 1) * (l * max S 0)) ≤ Real.exp (((1 + ε / 2) ^ k - 1) * (l * max S 0)) :=
    Real.exp_le_exp.2 (mul_le_mul_of_nonneg_right (by linarith) (by positivity))
  unfold roundErr
  have := mul_le_mul (mul_le_mul e1 e2 (by positivity) (by positivity)) e6 (Real.exp_pos _).le (by positivity)
  linarith

/-- C83. The sequential and the parallel reduction of the same square matrices agree up to twice the error. -/
theorem C83_seq_par {ops : FlOps K} {D N : ℕ} {γ u μ S : ℝ} (ac : Accurate ops D N γ u μ) (hS : ScalesBounded ops S) (hD : 1 ≤ D) (m : Mat K) (ms : List (Mat K))
    (hN : ms.length + 1 ≤ N) (h : ∀ x ∈ m :: ms, x.r = D ∧ x.c = D) (hc : ChainOK (m :: ms)) (P Q : Mat K) (s t : ℝ) (hP : ops.reduceSeq m ms = some (P, s))
    (hQ : ops.reducePar D (m :: ms) = some (Q, t)) (i j : ℕ) (hi : i < D) (hj : j < D) :
    ‖((Real.exp s : ℝ) : K) * P.e i j - ((Real.exp t : ℝ) : K) * Q.e i j‖ ≤
      2 * roundErr γ u μ S ms.length (2 * ms.length) ms.length (2 * ms.length) * (absProd m ms).e i j := by
  have hs : SizesUpTo D (m :: ms) := fun x hx => by rw [(h x hx).1, (h x hx).2]; exact ⟨hD, le_refl _, hD, le_refl _⟩
  have k1 := C83_seq ac hS (by omega) m ms hc hs
  have k2 := C83_par ac hS D hD (le_refl _) m ms hN h
  have hdom := (absMat_dom m).matProd ms hc
  rw [hP] at k1
  rw [hQ] at k2
  have hr : (matProd m ms).r = D := by rw [matProd_r]; exact (h m (by simp)).1
  have hcc : (matProd m ms).c = D := by rw [matProd_c]; exact (h _ (List.getLast_mem _)).2
  have b1 := k1.2.2 i (by rw [hr]; exact hi) j (by rw [hcc]; exact hj)
  have b2 := k2.2.2 i (by rw [hr]; exact hi) j (by rw [hcc]; exact hj)
  have hY : 0 ≤ (absProd m ms).e i j := by
    have := (norm_nonneg _).trans (hdom.bound i (by rw [hr]; exact hi) j (by rw [hcc]; exact hj))
    rwa [one_mul] at this
  have hcl : Nat.clog 2 (ms.length + 1) ≤ ms.length := Nat.clog_le_of_le_pow Nat.lt_two_pow_self
  have c1 := mul_le_mul_of_nonneg_right (roundErr_mono ac.gamma ac.unit ac.mu hS.1 (le_refl ms.length) (show ms.length ≤ 2 * ms.length by omega) (le_refl ms.length)
    (show ms.length ≤ 2 * ms.length by omega)) hY
  have c2 := mul_le_mul_of_nonneg_right (roundErr_mono ac.gamma ac.unit ac.mu hS.1 (le_refl ms.length) (le_refl (2 * ms.length)) hcl (le_refl (2 * ms.length))) hY
  calc ‖((Real.exp s : ℝ) : K) * P.e i j - ((Real.exp t : ℝ) : K) * Q.e i j‖
      = ‖(((Real.exp s : ℝ) : K) * P.e i j - (matProd m ms).e i j) - (((Real.exp t : ℝ) : K) * Q.e i j - (matProd m ms).e i j)‖ := by congr 1; ring
    _ ≤ _ := (norm_sub_le _ _).trans (by linarith)

/-! ### `contract_matseq` -/

theorem evalMatSeqF (ops : FlOps K) (s : MatSeq K) (par : Bool) (D : ℕ) (o : ContractOut K) (h : evalMatSeq s par D = .ok o) :
    ∃ r c v, o = packOut s r c v ∧ ops.evalMatSeq s par D = .ok (packOut s r c
      (if s.sameShape && (par || (s.left.isNone && s.right.isNone)) then ops.elemPar s (match s.mats with | [] => D | m :: _ => m.c) else ops.elemSeq s)) := by
  unfold evalMatSeq at h
  unfold Arith.evalMatSeq
  simp only at h ⊢
  by_cases hp : (s.sameShape && (par || (s.left.isNone && s.right.isNone))) = true
  · rw [if_pos hp] at h
    simp only [if_pos hp]
    cases hm : s.mats with
    | nil =>
      rw [hm] at h
      simp only at h ⊢
      split at h
      · rename_i h1
        rw [if_pos h1]
        cases h
        exact ⟨_, _, _, rfl, rfl⟩
      · cases h
    | cons m ms =>
      rw [hm] at h
      simp only at h ⊢
      split at h
      · cases h
      · rename_i h1
        rw [if_neg h1]
        split at h
        · rename_i h2
          rw [if_pos h2]
          cases h
          exact ⟨_, _, _, rfl, rfl⟩
        · cases h
  · rw [if_neg hp] at h
    simp only [if_neg hp]
    cases hm : s.full with
    | nil =>
      rw [hm] at h
      cases h
    | cons m ms =>
      rw [hm] at h
      simp only at h ⊢
      split at h
      · rename_i h2
        rw [if_pos h2]
        cases h
        exact ⟨_, _, _, rfl, rfl⟩
      · cases h

theorem sizes_of_dims {D : ℕ} {l l' : List (Mat K)} (h : l.map (fun m => (m.r, m.c)) = l'.map (fun m => (m.r, m.c))) (hs : SizesUpTo D l) : SizesUpTo D l' := by
  intro x hx
  have : (x.r, x.c) ∈ l.map (fun m => (m.r, m.c)) := by rw [h]; exact List.mem_map.2 ⟨x, hx, rfl⟩
  obtain ⟨y, hy, he⟩ := List.mem_map.1 this
  have := hs y hy
  rw [Prod.mk.injEq] at he
  rw [he.1, he.2] at this
  exact this

/-- C83. `contract_matseq` in any accurate arithmetic, for any batch shapes, with or without boundary vectors, sequential or parallel: it succeeds whenever the
sizes fit, with the same shapes as in exact arithmetic; at every batch index, every entry of `exp(log_scale) * product` is within `ε` times the corresponding
entry of the product of absolute values of the exact value, where `ε` depends only on the number of factors and on the arithmetic; NaN arises only where the
exact value is that small. -/
theorem C83_contract {ops : FlOps K} {D N : ℕ} {γ u μ S : ℝ} (ac : Accurate ops D N γ u μ) (hS : ScalesBounded ops S) (ms : TensorSeq K) (lv rv : Option (Tensor K))
    (par : Bool) (B : Shape) (hw : WellRanked ms lv rv) (hB : IsBroadcast (batchShapes ms lv rv) B) (m0 : Mat K) (rest0 : List (Mat K))
    (h0 : chainAt ms lv rv [] = m0 :: rest0) (hchain : ChainOK (m0 :: rest0)) (hne : matsAt ms [] ≠ []) (hsz : SizesUpTo D (m0 :: rest0))
    (hN : rest0.length + 1 ≤ N) :
    ∃ out, ops.contractMatseq ms lv rv par = .ok out ∧
      out.product.shape = B ++ (if lv.isNone then [m0.r] else []) ++ (if rv.isNone then [((m0 :: rest0).getLast (by simp)).c] else []) ∧
      out.logScale.shape = B ++ (if lv.isNone then [1] else []) ++ (if rv.isNone then [1] else []) ∧
      ∀ b, InRange b B → ∃ m rest, chainAt ms lv rv b = m :: rest ∧
        ∀ i j, i < (matProd m rest).r → j < (matProd m rest).c →
          match out.product.get (outIndex lv rv b i j), out.logScale.get (outIndex lv rv b 0 0) with
          | some p, some s => ‖((Real.exp s : ℝ) : K) * p - (matProd m rest).e i j‖ ≤
              roundErr γ u μ S rest0.length (2 * rest0.length) rest0.length (2 * rest0.length) * (absProd m rest).e i j
          | none, none => ‖(matProd m rest).e i j‖ ≤
              roundErr γ u μ S rest0.length (2 * rest0.length) rest0.length (2 * rest0.length) * (absProd m rest).e i j
          | _, _ => False := by
  have hempty : EmptyFits ms lv rv := by
    cases ms with
    | seq ts => trivial
    | single t =>
      intro h
      exfalso
      apply hne
      obtain ⟨n, r, c, hrc⟩ := exists_three t hw.1
      have hsp := shape_split t 3
      rw [hrc] at hsp
      have hn : t.shape.getD (t.ndim - 3) 0 = n := by unfold Tensor.ndim; rw [hsp]; simp
      rw [matsAt_single t hrc]
      rw [h] at hn
      subst hn
      rfl
  obtain ⟨out0, ho, hs1, hs2, -⟩ := contractMatseq_spec ms lv rv par B hw hB m0 rest0 h0 hchain hempty
  obtain ⟨s, D', ⟨he, heF⟩, hd, hbund, hsame, hsingle, hseq⟩ := contractMatseq_eqF ms lv rv par B hw hB
  rw [he] at ho
  obtain ⟨r, c, v, hov, hF⟩ := evalMatSeqF ops s par D' out0 ho
  refine ⟨_, (heF ops).trans hF, ?_, ?_, ?_⟩
  · rw [← hs1, hov]
    rfl
  · rw [← hs2, hov]
    rfl
  intro b hb
  have hdims : (chainAt ms lv rv b).map (fun m => (m.r, m.c)) = (m0 :: rest0).map (fun m => (m.r, m.c)) := by
    rw [← hd.vals b hb, map_at_dims, hd.dims, h0]
  obtain ⟨m, rest, hmr⟩ : ∃ m rest, chainAt ms lv rv b = m :: rest := by
    cases hch : chainAt ms lv rv b with
    | nil => rw [hch] at hdims; simp at hdims
    | cons m rest => exact ⟨m, rest, rfl⟩
  rw [hmr] at hdims
  have hlen : rest.length = rest0.length := by
    have := congrArg List.length hdims
    simpa using this
  have hsz' := sizes_of_dims hdims.symm hsz
  have hchain' : ChainOK (m :: rest) := by
    rw [chainOK_iff] at hchain ⊢
    have e : ∀ l : List (Mat K), List.IsChain (fun a b => a.c = b.r) l ↔ List.IsChain (fun (p q : ℕ × ℕ) => p.2 = q.1) (l.map (fun m => (m.r, m.c))) := by
      intro l
      rw [List.isChain_map]
    rw [e, hdims, ← e]
    exact hchain
  obtain ⟨p1, p2⟩ := hd.parts b hb
  have hmats := hd.mats b hb
  obtain ⟨y, ys, hy⟩ : ∃ y ys, s.mats = y :: ys := by
    have := hd.matsLen
    cases hm : s.mats with
    | nil => rw [hm] at this; exact absurd (List.length_eq_zero_iff.1 this.symm) hne
    | cons y ys => exact ⟨y, ys, rfl⟩
  have hchb : (lv.map (rowAt · b)).toList ++ (y.at b :: ys.map (·.at b)) ++ (rv.map (colAt · b)).toList = m :: rest := by
    rw [← hmr, chainAt, ← hmats, hy]
    rfl
  have hval : (if s.sameShape && (par || (s.left.isNone && s.right.isNone)) then ops.elemPar s (match s.mats with | [] => D' | m :: _ => m.c) else ops.elemSeq s) b =
      ops.evalAt (UsesParallel ms lv rv par) (lv.map (rowAt · b)) (y.at b) (ys.map (·.at b)) (rv.map (colAt · b)) := by
    unfold Arith.evalAt
    by_cases hp : UsesParallel ms lv rv par
    · rw [if_pos ((usesParallel_iff hd hbund).2 hp), if_pos hp, ← p1, ← p2]
      unfold Arith.elemPar
      simp only [hy, List.map_cons]
      have hyc : (y.at b).c = y.c := rfl
      rw [hyc]
      cases ops.reducePar y.c (y.at b :: ys.map (·.at b)) with
      | none => rfl
      | some q =>
        obtain ⟨q1, q2⟩ := q
        cases s.left <;> cases s.right <;> rfl
    · rw [if_neg (fun h => hp ((usesParallel_iff hd hbund).1 h)), if_neg hp, hchb]
      unfold Arith.elemSeq
      rw [hd.vals b hb, hmr]
  have key := evalAtF_approx ac hS (UsesParallel ms lv rv par) (lv.map (rowAt · b)) (y.at b) (ys.map (·.at b)) (rv.map (colAt · b)) m rest hchb hchain' hsz'
    (by rw [hlen]; exact hN) (by
      intro hp hne' x hx
      have hss : s.sameShape = true := by
        have := (usesParallel_iff hd hbund).2 hp
        simp only [Bool.and_eq_true] at this
        exact this.1
      have hx' : x ∈ (y :: ys).map (·.at b) := by simpa using hx
      obtain ⟨z, hz, rfl⟩ := List.mem_map.1 hx'
      have hzy := hsame hss z (by rw [hy]; exact hz) y (by rw [hy]; simp)
      obtain _ | ⟨y2, ys⟩ := ys
      · simp at hne'
      have hy2 := hsame hss y2 (by rw [hy]; simp) y (by rw [hy]; simp)
      have hch := hchain'
      rw [← hchb, chainOK_iff] at hch
      have h1 := (List.isChain_append.1 (List.isChain_append.1 hch).1).2.1
      simp only [List.map_cons, List.isChain_cons_cons] at h1
      have h2 : y.c = y2.r := h1.1
      exact ⟨hzy.1.trans (hy2.1.symm.trans h2.symm), hzy.2⟩)
  rw [← hval, hlen] at key
  refine ⟨m, rest, hmr, ?_⟩
  intro i j hi hj
  have hi0 : lv ≠ none → i = 0 := by
    intro hl
    obtain ⟨w, rfl⟩ := Option.ne_none_iff_exists'.1 hl
    have : m = rowAt w b := by
      simp only [Option.map_some, Option.toList_some, List.cons_append, List.cons.injEq] at hchb
      exact hchb.1.symm
    rw [matProd_r, this] at hi
    have : (rowAt w b).r = 1 := rfl
    omega
  have hj0 : rv ≠ none → j = 0 := by
    intro hl
    obtain ⟨w, rfl⟩ := Option.ne_none_iff_exists'.1 hl
    have : (m :: rest).getLast (by simp) = colAt w b := by
      have e : (m :: rest).getLast? = some (colAt w b) := by
        rw [← hchb]
        simp only [Option.map_some, Option.toList_some, List.getLast?_append, List.getLast?_singleton, Option.some_or]
      rw [List.getLast?_eq_getLast_of_ne_nil (by simp)] at e
      exact Option.some.inj e
    rw [matProd_c, this] at hj
    have : (colAt w b).c = 1 := rfl
    omega
  obtain ⟨o1, o2⟩ := packOut_product hd r c (if s.sameShape && (par || (s.left.isNone && s.right.isNone)) then ops.elemPar s (match s.mats with | [] => D' | m :: _ => m.c) else ops.elemSeq s) b hb i j hi0 hj0
  rw [o1, o2 0 0]
  generalize (if s.sameShape && (par || (s.left.isNone && s.right.isNone)) then ops.elemPar s (match s.mats with | [] => D' | m :: _ => m.c) else ops.elemSeq s) b = res at key ⊢
  cases res with
  | none => exact key i hi j hj
  | some q =>
    obtain ⟨q1, q2⟩ := q
    exact key.2.2 i hi j hj

end TorchMPS
