import Verif.Spec.Embedding
import Verif.Props.ProbMps
import Verif.Lemmas.EinsumUses
/-
Lambda matrices and `forward` with an embedding.
-/
namespace TorchMPS
open Spec
variable {K : Type}

theorem einsum_bi_bj [CommSemiring K] (s t : Tensor K) (B d e : ℕ) (hs : s.shape = [B, d])
    (ht : t.shape = [B, e]) :
    ∃ o, einsum ["bi".toList, "bj".toList] "bij".toList [s, t] = .ok o ∧ o.shape = [B, d, e] ∧
      ∀ b < B, ∀ i < d, ∀ j < e, o.get [b, i, j] = s.get [b, i] * t.get [b, j] := by
  obtain ⟨o, h1, h2, h3⟩ := einsum_ok (K := K)
    (fun c => if c = 'b' then B else if c = 'i' then d else e)
    ["bi".toList, "bj".toList] "bij".toList [s, t] rfl (by simp [hs, ht]) (by decide) (by decide)
  refine ⟨o, h1, by rw [h2]; rfl, ?_⟩
  intro b hb i hi j hj
  rw [h3 _ (by simp [hb, hi, hj])]
  have : (["bi".toList, "bj".toList].flatten.dedup).filter (fun c => c ∉ "bij".toList) = [] := by decide
  rw [this]
  simp [sumOver, Env.ofOut, Env.set]

theorem sum_trapezoid [RCLike K] (h : ℝ) (y : ℕ → K) (N : ℕ) :
    ∑ k ∈ Finset.range (N + 1), (h : K) * (y k + y (k + 1)) / 2 =
      ∑ k ∈ Finset.range (N + 2), ((if k = 0 ∨ k = N + 1 then h / 2 else h : ℝ) : K) * y k := by
  induction N with
  | zero =>
    have h2 : ((h / 2 : ℝ) : K) = (h : K) / 2 := by push_cast; rfl
    simp only [zero_add, Finset.sum_range_succ, Finset.range_zero, Finset.sum_empty, true_or, or_true, if_true, h2]
    ring
  | succ N ih =>
    rw [Finset.sum_range_succ, ih, Finset.sum_range_succ _ (N + 2), Finset.sum_range_succ _ (N + 1),
      Finset.sum_range_succ _ (N + 1)]
    have : ∀ k ∈ Finset.range (N + 1), ((if k = 0 ∨ k = N + 1 then h / 2 else h : ℝ) : K) * y k =
        ((if k = 0 ∨ k = N + 1 + 1 then h / 2 else h : ℝ) : K) * y k := by
      intro k hk
      have hk := Finset.mem_range.1 hk
      have e1 : ¬ k = N + 1 := by omega
      have e2 : ¬ k = N + 1 + 1 := by omega
      simp [e1, e2]
    rw [Finset.sum_congr rfl this]
    have e3 : ¬ (N + 1 = 0 ∨ N + 1 = N + 1 + 1) := by omega
    rw [if_neg e3, if_pos (Or.inr rfl), if_pos (Or.inr rfl)]
    push_cast
    ring

theorem linspace_grid (lo hi : ℝ) (N k : ℕ) (hN : N ≠ 0) : linspace lo hi (N + 1) k = gridPoint lo hi N k := by
  simp [linspace, gridPoint, hN]

theorem trapz_eq [RCLike K] (lo hi : ℝ) (N : ℕ) (hN : N ≠ 0) (y : ℕ → K) :
    trapz (N + 1) (linspace lo hi (N + 1)) y = ∑ k ∈ Finset.range (N + 1), (trapWeight lo hi N k : K) * y k := by
  obtain ⟨M, rfl⟩ := Nat.exists_eq_succ_of_ne_zero hN
  simp only [trapz, Nat.succ_eq_add_one, Nat.add_sub_cancel]
  have := sum_trapezoid ((hi - lo) / (M + 1 : ℕ)) y M
  unfold trapWeight
  rw [← this]
  refine Finset.sum_congr rfl fun k _ => ?_
  congr 3
  rw [linspace_grid _ _ _ _ hN, linspace_grid _ _ _ _ hN, gridPoint, gridPoint]
  push_cast
  ring

/-- shape of the embedded evaluation points, and lambda as a Gram matrix: general form (no assumption on `f`) -/
theorem rawLambda_gram [RCLike K] (f : EmbFun K) (dom : DataDomain) (np : ℕ) (t : Tensor K)
    (h : rawLambda f dom np = .ok t) (hdom : ∀ hi lo, dom = .continuous hi lo → lo < hi ∧ 2 ≤ np) :
    ∃ (d N : ℕ) (o : Tensor K) (w : Fin N → ℝ), f (lambdaPoints dom np).2 = .ok o ∧ o.shape = [N, d] ∧
      t.shape = [d, d] ∧ N = (lambdaPoints (K := K) dom np).1 ∧
      (∀ a, 0 ≤ w a) ∧
      (∀ hi lo, dom = .continuous hi lo → ∀ a, w a = trapWeight lo hi (np - 1) a) ∧
      (∀ M, dom = .discrete M → ∀ a, w a = 1) ∧
      ∀ i < d, ∀ j < d, t.get [i, j] = gram w (fun a i => o.get [(a : ℕ), i]) i j := by
  unfold rawLambda at h
  simp only [bind, Except.bind] at h
  rcases ho : f (lambdaPoints dom np).2 with e | o
  · rw [ho] at h; cases h
  rw [ho] at h
  simp only at h
  by_cases h2 : o.ndim = 2
  swap
  · rw [assert_false _ h2] at h; cases h
  rw [assert_true _ h2] at h
  simp only at h
  by_cases h3 : o.shape.getD 0 0 = (lambdaPoints (K := K) dom np).1
  swap
  · rw [assert_false _ h3] at h; cases h
  rw [assert_true _ h3] at h
  simp only at h
  obtain ⟨N, d, hsh⟩ : ∃ N d, o.shape = [N, d] := by
    unfold Tensor.ndim at h2
    match hs : o.shape with
    | [N, d] => exact ⟨N, d, rfl⟩
    | [] => simp [hs] at h2
    | [_] => simp [hs] at h2
    | _ :: _ :: _ :: _ => simp [hs] at h2
  obtain ⟨em, he, -, hg⟩ := einsum_bi_bj o (conjT o) N d d hsh (by simp [conjT, hsh])
  rw [he] at h
  simp only [hsh, List.getD_cons_succ, List.getD_cons_zero, pure, Except.pure, Except.ok.injEq] at h h3
  subst h
  cases hd : dom with
  | continuous hi lo =>
    obtain ⟨hlt, hnp⟩ := hdom hi lo hd
    have hN : N = np := by rw [h3, hd]; rfl
    have hw : ∀ k, 0 ≤ trapWeight lo hi (np - 1) k := by
      intro k
      unfold trapWeight
      have : 0 ≤ (hi - lo) / (np - 1 : ℕ) := div_nonneg (by linarith) (by positivity)
      split <;> linarith
    refine ⟨d, N, o, fun a => trapWeight lo hi (np - 1) a, rfl, hsh, rfl, by rw [← hd]; exact h3,
      fun a => hw a, ?_, by simp, ?_⟩
    · intro hi' lo' he a
      cases he; rfl
    · intro i hi' j hj
      subst hN
      obtain ⟨M, rfl⟩ : ∃ M, N = M + 1 := ⟨N - 1, by omega⟩
      have hM : M ≠ 0 := by omega
      simp only [lambdaPoints]
      rw [trapz_eq lo hi M hM, gram, Fin.sum_univ_eq_sum_range
        (fun k => (trapWeight lo hi (M + 1 - 1) k : K) * (o.get [k, i] * star (o.get [k, j]))) (M + 1)]
      refine Finset.sum_congr rfl fun k hk => ?_
      rw [hg k (Finset.mem_range.1 hk) i hi' j hj]
      rfl
  | discrete M =>
    have hN : N = M.toNat := by rw [h3, hd]; rfl
    refine ⟨d, N, o, fun _ => 1, rfl, hsh, rfl, by rw [← hd]; exact h3, fun _ => zero_le_one,
      by simp, fun _ _ _ => rfl, ?_⟩
    intro i hi' j hj
    subst hN
    simp only [lambdaPoints]
    rw [gram, Fin.sum_univ_eq_sum_range
      (fun k => ((1 : ℝ) : K) * (o.get [k, i] * star (o.get [k, j]))) M.toNat]
    refine Finset.sum_congr rfl fun k hk => ?_
    rw [hg k (Finset.mem_range.1 hk) i hi' j hj]
    simp [conjT]

theorem rawLambda_ints [RCLike K] (f : EmbFun K) (N d : ℕ) (v : ℕ → ℕ → K) (hf : EmbedsInts f N d v) (np : ℕ) :
    ∃ t, rawLambda f (.discrete N) np = .ok t ∧ t.shape = [d, d] ∧
      ∀ i < d, ∀ j < d, t.get [i, j] = gram (fun _ : Fin N => (1 : ℝ)) (fun a => v a) i j := by
  obtain ⟨o, ho, hs, hg⟩ := hf ⟨[N], fun idx => (idx.getD 0 0 : ℤ)⟩ (by
    intro idx hidx
    match idx, hidx with
    | [a], h => simpa using h)
  have hs' : o.shape = [N, d] := hs
  obtain ⟨em, he, -, hem⟩ := einsum_bi_bj o (conjT o) N d d hs' (by simp [conjT, hs'])
  have hpts : lambdaPoints (K := K) (.discrete (N : ℤ)) np = (N, .ints ⟨[N], fun idx => (idx.getD 0 0 : ℤ)⟩) := by
    simp [lambdaPoints]
  have hraw : ∃ t, rawLambda f (.discrete N) np = .ok t ∧ t.shape = [d, d] ∧
      ∀ i j, t.get [i, j] = ∑ k ∈ Finset.range N, em.get [k, i, j] := by
    unfold rawLambda
    simp only [hpts, ho, bind, Except.bind]
    rw [assert_true _ (show o.ndim = 2 by simp [Tensor.ndim, hs'])]
    simp only
    rw [assert_true _ (show o.shape.getD 0 0 = N by simp [hs'])]
    simp only [he, hs', List.getD_cons_succ, List.getD_cons_zero]
    exact ⟨_, rfl, rfl, fun _ _ => rfl⟩
  obtain ⟨t, r1, r2, r3⟩ := hraw
  refine ⟨t, r1, r2, ?_⟩
  · intro i hi j hj
    rw [r3, gram, Fin.sum_univ_eq_sum_range (fun k => ((1 : ℝ) : K) * (v k i * star (v k j))) N]
    refine Finset.sum_congr rfl fun k hk => ?_
    have hk := Finset.mem_range.1 hk
    rw [hem k hk i hi j hj]
    have h1 := hg [k] (by simpa using hk) i hi
    have h2 := hg [k] (by simpa using hk) j hj
    simp only [List.cons_append, List.nil_append, List.getD_cons_zero, Int.toNat_natCast] at h1 h2
    simp [conjT, h1, h2]

theorem gridPoint_mem (lo hi : ℝ) (h : lo < hi) (N k : ℕ) (hN : N ≠ 0) (hk : k < N + 1) :
    lo ≤ gridPoint lo hi N k ∧ gridPoint lo hi N k ≤ hi := by
  have hN' : (0 : ℝ) < N := by exact_mod_cast Nat.pos_of_ne_zero hN
  have h1 : 0 ≤ (hi - lo) / N := div_nonneg (by linarith) hN'.le
  have h2 : (k : ℝ) ≤ N := by exact_mod_cast Nat.lt_succ_iff.1 hk
  have h3 : (0 : ℝ) ≤ k := by positivity
  unfold gridPoint
  refine ⟨by nlinarith, ?_⟩
  have : (k : ℝ) * ((hi - lo) / N) ≤ N * ((hi - lo) / N) := mul_le_mul_of_nonneg_right h2 h1
  have e : (N : ℝ) * ((hi - lo) / N) = hi - lo := by field_simp
  linarith

theorem rawLambda_reals [RCLike K] (f : EmbFun K) (lo hi : ℝ) (hlt : lo < hi) (d : ℕ) (v : ℝ → ℕ → K)
    (hf : EmbedsReals f lo hi d v) (N : ℕ) (hN : N ≠ 0) :
    ∃ t, rawLambda f (.continuous hi lo) (N + 1) = .ok t ∧ t.shape = [d, d] ∧
      ∀ i < d, ∀ j < d, t.get [i, j] =
        gram (fun a : Fin (N + 1) => trapWeight lo hi N a) (fun a => v (gridPoint lo hi N a)) i j := by
  obtain ⟨o, ho, hs, hg⟩ := hf [N + 1] (fun idx => linspace lo hi (N + 1) (idx.getD 0 0)) (by
    intro idx hidx
    match idx, hidx with
    | [a], h =>
      rw [linspace_grid _ _ _ _ hN]
      exact gridPoint_mem lo hi hlt N _ hN (by simpa using h))
  have hs' : o.shape = [N + 1, d] := hs
  obtain ⟨em, he, -, hem⟩ := einsum_bi_bj o (conjT o) (N + 1) d d hs' (by simp [conjT, hs'])
  have hraw : ∃ t, rawLambda f (.continuous hi lo) (N + 1) = .ok t ∧ t.shape = [d, d] ∧
      ∀ i j, t.get [i, j] = trapz (N + 1) (linspace lo hi (N + 1)) (fun k => em.get [k, i, j]) := by
    unfold rawLambda
    have hpts : lambdaPoints (K := K) (.continuous hi lo) (N + 1) =
        (N + 1, .floats ⟨[N + 1], fun idx => (linspace lo hi (N + 1) (idx.getD 0 0) : K)⟩) := rfl
    simp only [hpts, ho, bind, Except.bind]
    rw [assert_true _ (show o.ndim = 2 by simp [Tensor.ndim, hs'])]
    simp only
    rw [assert_true _ (show o.shape.getD 0 0 = N + 1 by simp [hs'])]
    simp only [he, hs', List.getD_cons_succ, List.getD_cons_zero]
    exact ⟨_, rfl, rfl, fun _ _ => rfl⟩
  obtain ⟨t, r1, r2, r3⟩ := hraw
  refine ⟨t, r1, r2, ?_⟩
  · intro i hi' j hj
    rw [r3, trapz_eq lo hi N hN, gram, Fin.sum_univ_eq_sum_range
      (fun k => (trapWeight lo hi N k : K) * (v (gridPoint lo hi N k) i * star (v (gridPoint lo hi N k) j))) (N + 1)]
    refine Finset.sum_congr rfl fun k hk => ?_
    have hk := Finset.mem_range.1 hk
    rw [hem k hk i hi' j hj]
    have h1 := hg [k] (by simpa using hk) i hi'
    have h2 := hg [k] (by simpa using hk) j hj
    simp only [List.cons_append, List.nil_append, List.getD_cons_zero, linspace_grid _ _ _ _ hN] at h1 h2
    simp [conjT, h1, h2]

/-! ### `forward` with an embedding -/

theorem featMat_addBias [RCLike K] (m : ProbMPS K) (n d D : ℕ) (hm : ValidModel m n d D) (s : ℕ) (v : ℕ → K)
    (hb : m.bias = none ∨ ∑ k ∈ Finset.range d, v k = 1) :
    featMat (addBias m.core m.bias) d D s v = featMat m.core d D s v + biasMat m D := by
  unfold featMat
  simp only [coreMat_addBias m n d D hm, smul_add, Finset.sum_add_distrib, ← Finset.sum_smul]
  rcases hb with hb | hb
  · simp [biasMat, hb]
  · rw [hb, one_smul]

theorem weightedNormSq_addBias [RCLike K] {ι : Type} [Fintype ι] (m : ProbMPS K) (n d D : ℕ)
    (hm : ValidModel m n d D) (w : ι → ℝ) (v : ι → ℕ → K)
    (hb : m.bias = none ∨ ∀ a, ∑ k ∈ Finset.range d, v a k = 1) :
    weightedNormSq (addBias m.core m.bias) m.edge n d D w v = embZ m n d D w v := by
  unfold weightedNormSq embZ psiFeat
  refine Finset.sum_congr rfl fun x _ => ?_
  congr 5
  funext s
  exact featMat_addBias m n d D hm s _ (hb.imp id fun h => h _)

theorem embZ_nonneg [RCLike K] {ι : Type} [Fintype ι] (m : ProbMPS K) (n d D : ℕ) (w : ι → ℝ)
    (hw : ∀ a, 0 ≤ w a) (v : ι → ℕ → K) : 0 ≤ embZ m n d D w v :=
  Finset.sum_nonneg fun x _ => mul_nonneg (Finset.prod_nonneg fun s _ => hw _) (sq_nonneg _)

/-- `forward` of a model with an embedding whose lambda matrix is a Gram matrix (general form) -/
theorem forward_embedded_gen [RCLike K] (m : ProbMPS K) (n d D : ℕ) (hm : ValidModel m n d D) (e : Embedding K)
    (he : m.embedding = some e) (x : SeqInput K) (B : ℕ) (hx2 : 2 ≤ x.shape.length) (hxB : x.shape.getD 0 0 = B)
    (hxn : x.shape.getD 1 0 = n) (o : Tensor K) (ho : e.embFun x = .ok o) (hos : o.shape = [B, n, d])
    (lam : Tensor K) (hlam : UsesLambda e lam) {ι : Type} [Fintype ι] (w : ι → ℝ) (hw : ∀ a, 0 ≤ w a)
    (v : ι → ℕ → K) (hL : LambdaIs (some lam) d (gram w v)) (W : ℝ)
    (hW : weightedNormSq (addBias m.core m.bias) m.edge n d D w v = W) (slim par : Bool) (hslim : SlimOK m slim B n) :
    (m.forward x slim par).2 = { m with embedding := some { e with lamb := some lam } } ∧
    (W ≠ 0 ∧ (∀ b < B, Accepts m (.floats o) n d D slim par b) →
      ∃ out, (m.forward x slim par).1 = .ok out ∧ out.shape = [B] ∧
        ∀ b < B, out.get [b] = some (bornLog (psi m (.floats o) n d D b) W)) ∧
    (¬ (W ≠ 0 ∧ ∀ b < B, Accepts m (.floats o) n d D slim par b) →
      (m.forward x slim par).1 = .error .assertion) := by
  have hfe : e.forward x = (.ok o, { e with lamb := some lam }) := by
    unfold Embedding.forward
    unfold UsesLambda at hlam
    by_cases ht : e.trainable = true
    · rw [if_pos ht] at hlam ⊢
      simp only [hlam, ho]
    · rw [if_neg ht] at hlam ⊢
      rw [ho]
      congr 1
      cases e
      simp only at hlam
      rw [hlam]
  set m' : ProbMPS K := { m with embedding := some { e with lamb := some lam } } with hm'def
  have hfw : m.forward x slim par = (m'.body (.floats o) B n slim par, m') := by
    unfold ProbMPS.forward
    rw [if_neg (by omega), hxB, hxn, he]
    simp only [hfe]
    rw [hm'def]
  have hv' : ValidModel m' n d D := ⟨hm.core, hm.edge, hm.bias, hm.pos⟩
  have hx' : ValidInput (.floats o : SeqInput K) B n d := hos
  have hs' : SlimOK m' slim B n := hslim
  have hmain := getLogNorm_main (addBias m.core m.bias) m.edge n d D (coreShape_addBias m n d D hm) hm.edge _
    (lengthArg_model m n d D hm) (some lam) _ hL w hw v (fun i _ j _ => rfl)
  have hnn : 0 ≤ W := by
    rw [← hW]
    exact Finset.sum_nonneg fun x _ => mul_nonneg (Finset.prod_nonneg fun s _ => hw _) (sq_nonneg _)
  rw [hW] at hmain
  have hln : m'.logNorm n =
      getLogNorm (addBias m.core m.bias) m.edge (if m.uniform then some (n : ℤ) else none) (some lam) := by
    simp only [ProbMPS.logNorm, hm'def, bind, Except.bind]
  rw [hfw]
  refine ⟨rfl, ?_, ?_⟩
  · rintro ⟨h0, hacc⟩
    have hpos : 0 < W := lt_of_le_of_ne hnn (Ne.symm h0)
    exact (body_spec m' n d D hv' _ B hx' slim par hs' _ hpos (by rw [hln]; exact hmain.1 h0)).1 hacc
  · intro h
    by_cases h0 : W = 0
    · refine body_not_finite m' n d D hv' _ B hx' slim par hs' ?_
      rw [hln]
      rcases hmain.2 h0 with h | h | ⟨-, h⟩
      · exact Or.inl h
      · exact Or.inr (Or.inl h)
      · exact Or.inr (Or.inr h)
    · have hpos : 0 < W := lt_of_le_of_ne hnn (Ne.symm h0)
      exact (body_spec m' n d D hv' _ B hx' slim par hs' _ hpos (by rw [hln]; exact hmain.1 h0)).2
        (fun hacc => h ⟨h0, hacc⟩)

/-! ### Compression -/

theorem compress_exact [RCLike K] (t : Tensor K) (d : ℕ) (hs : t.shape = [d, d]) (Λ : ℕ → ℕ → K)
    (ht : ∀ i < d, ∀ j < d, t.get [i, j] = Λ i j) (h : ExactCompression Λ d) :
    LambdaIs (some (compressLambda t)) d Λ := by
  classical
  have hmean : diagMean t d = (∑ k ∈ Finset.range d, Λ k k) / d := by
    unfold diagMean
    congr 1
    exact Finset.sum_congr rfl fun k hk => ht k (Finset.mem_range.1 hk) k (Finset.mem_range.1 hk)
  have hd : t.shape.getD 0 0 = d := by simp [hs]
  unfold compressLambda
  simp only [hd]
  by_cases h1 : ∀ i < d, ∀ j < d, closeTo (if i = j then t.get [i, i] else 0) (t.get [i, j])
  · rw [if_pos h1]
    rcases h with ⟨i, hi, j, hj, h⟩ | ⟨hz, h⟩
    · exfalso
      have := h1 i hi j hj
      rw [ht i hi j hj, ht i hi i hi] at this
      exact h this
    by_cases h2 : ∀ i < d, closeTo (diagMean t d) (t.get [i, i])
    · rw [if_pos h2]
      rcases h with ⟨i, hi, h⟩ | h
      · exfalso
        have := h2 i hi
        rw [ht i hi i hi, hmean] at this
        exact h this
      · left
        refine ⟨rfl, fun i hi j hj => ?_⟩
        by_cases hij : i = j
        · subst hij
          rw [if_pos rfl, hmean, Finset.sum_congr rfl fun k hk => h k (Finset.mem_range.1 hk) i hi]
          simp only [Finset.sum_const, Finset.card_range, nsmul_eq_mul]
          have : (d : K) ≠ 0 := by exact_mod_cast (by omega : d ≠ 0)
          field_simp
        · rw [if_neg hij]; exact hz i hi j hj hij
    · rw [if_neg h2]
      right; left
      refine ⟨rfl, fun i hi j hj => ?_⟩
      by_cases hij : i = j
      · subst hij
        rw [if_pos rfl]
        exact (ht i hi i hi).symm
      · rw [if_neg hij]; exact hz i hi j hj hij
  · rw [if_neg h1]
    right; right
    exact ⟨hs, fun i hi j hj => (ht i hi j hj).symm⟩

end TorchMPS
