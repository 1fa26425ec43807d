import Verif.Lemmas.Amplitude
import Verif.Lemmas.BatchBroadcast
import Verif.Spec.Input
/-
Properties of `slim_eval_fun` (torchmps/mps_base.py): C16, C15 (slim evaluation).
-/
namespace TorchMPS
open Spec
variable {K : Type}

theorem slimSlice_ok [RCLike K] (x : SeqInput K) (core : Tensor K) (B T d D s : ℕ)
    (hx : ValidInput x B T d) (hc : CoreShape core T d D) (hs : s < T) :
    ∃ m, slimSlice x core s = .ok m ∧ ∀ b < B, Mat.of D D (fun i j => m.get [b, i, j]) =
      ofMatrix (inputMat x core d D b s) := by
  -- the core used at site `s`
  obtain ⟨coreS, hS, hSs, hSg⟩ : ∃ coreS : Tensor K, siteCore core s = coreS ∧ coreS.shape = [d, D, D] ∧
      ∀ k (i j : Fin D), coreS.get [k, i, j] = coreMat core D s k i j := by
    rcases hc with hc | hc
    · refine ⟨core, by simp only [siteCore, hc], hc, ?_⟩
      intro k i j; simp [coreMat, hc]
    · refine ⟨_, rfl, by simp only [siteCore, hc], ?_⟩
      intro k i j; simp [siteCore, coreMat, hc]
  have fin : ∀ (m : Tensor K) (b : ℕ), (∀ i j : Fin D, m.get [b, i, j] = inputMat x core d D b s i j) →
      Mat.of D D (fun i j => m.get [b, i, j]) = ofMatrix (inputMat x core d D b s) := by
    intro m b h
    unfold Mat.of ofMatrix
    congr 1
    funext i j
    by_cases hij : i < D ∧ j < D
    · rw [if_pos hij, dif_pos hij]; exact h ⟨i, hij.1⟩ ⟨j, hij.2⟩
    · rw [if_neg hij, dif_neg hij]
  unfold slimSlice
  simp only [hS]
  cases x with
  | ints t =>
    obtain ⟨ht, hv⟩ := hx
    simp only [SeqInput.shape, ht, hSs]
    rw [if_pos (by
      intro b hb
      rw [resolveIdx_nat _ _ (hv b hb s hs).1 (hv b hb s hs).2]; rfl)]
    simp only [bind, Except.bind, pure, Except.pure]
    rw [if_pos (by rfl)]
    refine ⟨_, rfl, fun b hb => fin _ b ?_⟩
    intro i j
    simp only
    rw [resolveIdx_nat _ _ (hv b hb s hs).1 (hv b hb s hs).2]
    exact hSg _ i j
  | floats t =>
    have ht : t.shape = [B, T, d] := hx
    simp only [SeqInput.shape, ht, hSs]
    obtain ⟨o, h1, h2, h3⟩ := einsum_bi_ide (siteVecs t B d s) coreS B d D D rfl hSs
    rw [h1]
    simp only [bind, Except.bind, pure, Except.pure]
    rw [if_pos (by rfl)]
    refine ⟨o, rfl, fun b hb => fin o b ?_⟩
    intro i j
    rw [h3 b hb i i.2 j j.2]
    simp only [inputMat, featMat, Matrix.sum_apply, Matrix.smul_apply, smul_eq_mul]
    refine Finset.sum_congr rfl fun k _ => ?_
    rw [hSg k i j]; rfl

/-- the argument checks of `slim_eval_fun` pass -/
theorem slimEvalFun_eq [RCLike K] (x : SeqInput K) (core bound : Tensor K) (B T d D : ℕ)
    (hx : ValidInput x B T d) (hc : CoreShape core T d D) (hb : bound.shape = [2, D]) :
    slimEvalFun x core bound = (do
      let mats ← (List.range T).mapM (slimSlice x core)
      assert (0 < T ∨ B = 1)
      return ⟨⟨[B], fun idx => (slimValue mats bound D (idx.getD 0 0)).map Prod.fst⟩,
        ⟨[B], fun idx => (slimValue mats bound D (idx.getD 0 0)).map Prod.snd⟩⟩) := by
  unfold slimEvalFun
  cases x with
  | ints t =>
    obtain ⟨ht, -⟩ := hx
    rcases hc with hc | hc <;>
      simp [SeqInput.shape, ht, hc, hb, Tensor.ndim, assert, bind, Except.bind, pure, Except.pure]
  | floats t =>
    have ht : t.shape = [B, T, d] := hx
    rcases hc with hc | hc <;>
      simp [SeqInput.shape, ht, hc, hb, Tensor.ndim, assert, bind, Except.bind, pure, Except.pure]

/-- `slim_eval_fun` succeeds, and at batch element `b` folds the step over the matrices of the input. -/
theorem slimEvalFun_val [RCLike K] (x : SeqInput K) (core bound : Tensor K) (B T d D : ℕ)
    (hx : ValidInput x B T d) (hc : CoreShape core T d D) (hb : bound.shape = [2, D]) (hT : 0 < T ∨ B = 1) :
    ∃ out, slimEvalFun x core bound = .ok out ∧ out.product.shape = [B] ∧ out.logScale.shape = [B] ∧
      ∀ b < B, ∃ val : Option (K × ℝ), out.product.get [b] = val.map Prod.fst ∧
        out.logScale.get [b] = val.map Prod.snd ∧
        val = (((inputMats x core T d D b).map ofMatrix).foldl (slimStep D) (some (rowMat (boundVec bound D 0), 0))).map
          (fun p => ((p.1.mul (colMat (boundVec bound D 1))).e 0 0, p.2)) := by
  obtain ⟨mats, hm1, hm2⟩ := mapM_except_ok (slimSlice x core) (List.range T)
    (fun s (m : Tensor K) => ∀ b < B, Mat.of D D (fun i j => m.get [b, i, j]) =
      ofMatrix (inputMat x core d D b s)) (fun s hs => slimSlice_ok x core B T d D s hx hc (List.mem_range.1 hs))
  have hmats : ∀ b < B, mats.map (fun m => Mat.of D D (fun i j => m.get [b, i, j])) =
      (inputMats x core T d D b).map ofMatrix := by
    intro b hb'
    unfold inputMats
    clear hm1
    generalize List.range T = L at hm2
    induction hm2 with
    | nil => rfl
    | cons h _ ih => simp only [List.map_cons, h b hb', ih]
  have hrow : ∀ k, Mat.of 1 D (fun _ i => bound.get [k, i]) = rowMat (boundVec bound D k) := by
    intro k
    unfold Mat.of rowMat ofMatrix boundVec
    congr 1
  have hcol : ∀ k, Mat.of D 1 (fun i _ => bound.get [k, i]) = colMat (boundVec bound D k) := by
    intro k
    unfold Mat.of colMat ofMatrix boundVec
    congr 1
  rw [slimEvalFun_eq x core bound B T d D hx hc hb, hm1]
  simp only [bind, Except.bind, pure, Except.pure]
  rw [assert_true _ hT]
  refine ⟨_, rfl, rfl, rfl, ?_⟩
  intro b hbB
  refine ⟨_, rfl, rfl, ?_⟩
  simp only [List.getD_cons_zero, slimValue]
  rw [hmats b hbB, hrow 0, hcol 1]

/-- The whole evaluation: `slim_eval_fun` succeeds, and at batch element `b` its outcome is decided by the
row vector `lᵀ M₁ ... M_T`. -/
theorem slimEvalFun_spec [RCLike K] (x : SeqInput K) (core bound : Tensor K) (B T d D : ℕ)
    (hx : ValidInput x B T d) (hc : CoreShape core T d D) (hb : bound.shape = [2, D]) (hT : 0 < T ∨ B = 1) :
    ∃ out, slimEvalFun x core bound = .ok out ∧ out.product.shape = [B] ∧ out.logScale.shape = [B] ∧
      ∀ b < B, ∃ val : Option (K × ℝ), out.product.get [b] = val.map Prod.fst ∧
        out.logScale.get [b] = val.map Prod.snd ∧
        (D ≠ 0 → (val = none ↔ T ≠ 0 ∧
          Matrix.vecMul (boundVec bound D 0) (inputMats x core T d D b).prod = 0)) ∧
        ∀ c s, val = some (c, s) → D ≠ 0 → c * (Real.exp s : K) =
          amplitude (boundVec bound D 0) (boundVec bound D 1) (inputMats x core T d D b) := by
  obtain ⟨out, h1, h2, h3, h4⟩ := slimEvalFun_val x core bound B T d D hx hc hb hT
  refine ⟨out, h1, h2, h3, fun b hbB => ?_⟩
  obtain ⟨val, k1, k2, k3⟩ := h4 b hbB
  refine ⟨val, k1, k2, ?_, ?_⟩
  · intro hD
    rw [k3, Option.map_eq_none_iff, (slim_loop D hD _ _ _).1, matProd_rowMat, isZero_rowMat]
    have : ((inputMats x core T d D b).map ofMatrix ≠ [] ↔ T ≠ 0) := by
      unfold inputMats
      rw [ne_eq, List.map_eq_nil_iff, List.map_eq_nil_iff, List.range_eq_nil]
    rw [this]
  · intro c s hval hD
    rw [k3, Option.map_eq_some_iff] at hval
    obtain ⟨⟨P, s'⟩, h1, h2⟩ := hval
    simp only [Prod.mk.injEq] at h2
    obtain ⟨h2, rfl⟩ := h2
    have h3 := (slim_loop D hD _ _ _).2 P s' h1
    rw [← h2, ← matProd_amplitude]
    have h4 : (P.smul (Real.exp s' : K)).mul (colMat (boundVec bound D 1)) =
        ((matProd (rowMat (boundVec bound D 0)) ((inputMats x core T d D b).map ofMatrix))).mul
          (colMat (boundVec bound D 1)) := by rw [h3]; simp
    rw [← h4, Mat.smul_mul]
    simp only [Mat.smul]; ring

/-- C16. For uniform or per-site cores, and index or vector inputs: `slim_eval_fun` returns `(c, s)` with
`c * exp(s)` equal to `lᵀ M₁ ... M_T r`, for each batch element whose row vector `lᵀ M₁ ... M_T` is non-zero. -/
theorem C16_slim_value [RCLike K] (x : SeqInput K) (core bound : Tensor K) (B T d D : ℕ)
    (hx : ValidInput x B T d) (hc : CoreShape core T d D) (hb : bound.shape = [2, D]) (hT : 0 < T ∨ B = 1) :
    ∃ out, slimEvalFun x core bound = .ok out ∧ out.product.shape = [B] ∧ out.logScale.shape = [B] ∧
      ∀ b < B, Matrix.vecMul (boundVec bound D 0) (inputMats x core T d D b).prod ≠ 0 →
        ∃ c s, out.product.get [b] = some c ∧ out.logScale.get [b] = some s ∧ c * (Real.exp s : K) =
          amplitude (boundVec bound D 0) (boundVec bound D 1) (inputMats x core T d D b) := by
  obtain ⟨out, h1, h2, h3, h4⟩ := slimEvalFun_spec x core bound B T d D hx hc hb hT
  refine ⟨out, h1, h2, h3, fun b hbB hne => ?_⟩
  obtain ⟨val, k1, k2, k3, k4⟩ := h4 b hbB
  have hD : D ≠ 0 := by
    rintro rfl
    exact hne (funext fun i => i.elim0)
  have hv : val ≠ none := fun h => hne ((k3 hD).1 h).2
  obtain ⟨⟨c, s⟩, rfl⟩ := Option.ne_none_iff_exists'.1 hv
  exact ⟨c, s, k1, k2, k4 c s rfl hD⟩

/-- C16. Exactly when the result is NaN; all other results are exact. -/
theorem C16_slim_nan_iff [RCLike K] (x : SeqInput K) (core bound : Tensor K) (B T d D : ℕ) (hD : D ≠ 0)
    (hx : ValidInput x B T d) (hc : CoreShape core T d D) (hb : bound.shape = [2, D]) (hT : 0 < T ∨ B = 1) :
    ∃ out, slimEvalFun x core bound = .ok out ∧
      ∀ b < B, (out.product.get [b] = none ↔ T ≠ 0 ∧
          Matrix.vecMul (boundVec bound D 0) (inputMats x core T d D b).prod = 0) ∧
        ∀ c, out.product.get [b] = some c → ∃ s, out.logScale.get [b] = some s ∧ c * (Real.exp s : K) =
          amplitude (boundVec bound D 0) (boundVec bound D 1) (inputMats x core T d D b) := by
  obtain ⟨out, h1, h2, h3, h4⟩ := slimEvalFun_spec x core bound B T d D hx hc hb hT
  refine ⟨out, h1, fun b hbB => ?_⟩
  obtain ⟨val, k1, k2, k3, k4⟩ := h4 b hbB
  refine ⟨by rw [k1, Option.map_eq_none_iff]; exact k3 hD, ?_⟩
  intro c hcc
  rw [k1, Option.map_eq_some_iff] at hcc
  obtain ⟨⟨c', s⟩, rfl, rfl⟩ := hcc
  exact ⟨s, k2, k4 c' s rfl hD⟩

/-- C16. The empty sequence is only evaluated for a batch of one: other batch sizes raise AssertionError. -/
theorem C16_slim_empty [RCLike K] (x : SeqInput K) (core bound : Tensor K) (B d D : ℕ)
    (hx : ValidInput x B 0 d) (hc : CoreShape core 0 d D) (hb : bound.shape = [2, D]) (hB : B ≠ 1) :
    slimEvalFun x core bound = .error .assertion := by
  rw [slimEvalFun_eq x core bound B 0 d D hx hc hb]
  simp only [List.range_zero, List.mapM_nil, bind, Except.bind, pure, Except.pure]
  rw [assert_false _ (by omega)]

/-- C15. With slim evaluation a fixed-length model rejects every input of a different length, index or vector. -/
theorem C15_slim_rejected [RCLike K] (x : SeqInput K) (core bound : Tensor K) (B T n d D : ℕ)
    (hx : ValidInput x B T d) (hc : core.shape = [n, d, D, D]) (hb : bound.shape = [2, D]) (hT : T ≠ n) :
    slimEvalFun x core bound = .error .assertion := by
  have hT' : n ≠ T := fun h => hT h.symm
  unfold slimEvalFun
  cases x with
  | ints t =>
    obtain ⟨ht, -⟩ := hx
    simp [SeqInput.shape, ht, hc, hb, Tensor.ndim, assert, bind, Except.bind, pure, Except.pure, hT']
  | floats t =>
    have ht : t.shape = [B, T, d] := hx
    simp [SeqInput.shape, ht, hc, hb, Tensor.ndim, assert, bind, Except.bind, pure, Except.pure, hT']

/-- the hypotheses of C16 are met by a 2-site model with 2 x 2 identity slices -/
example : let core : Tensor ℝ := ⟨[2, 3, 2, 2], fun idx => if idx.getD 2 0 = idx.getD 3 0 then 1 else 0⟩
    let x : SeqInput ℝ := .ints ⟨[1, 2], fun idx => idx.getD 1 0⟩
    let bound : Tensor ℝ := ⟨[2, 2], fun _ => 1⟩
    ValidInput x 1 2 3 ∧ CoreShape core 2 3 2 ∧
      Matrix.vecMul (boundVec bound 2 0) (inputMats x core 2 3 2 0).prod ≠ 0 := by
  intro core x bound
  refine ⟨⟨rfl, ?_⟩, Or.inr rfl, ?_⟩
  · intro b _ s hs
    simp only [List.getD_cons_succ, List.getD_cons_zero]
    omega
  · intro h
    have h0 := congrFun h 0
    have hone : ∀ s k, coreMat core 2 s k = 1 := by
      intro s k
      ext i j
      simp [coreMat, core, Matrix.one_apply, Fin.ext_iff]
    have : inputMats x core 2 3 2 0 = [1, 1] := by
      simp [inputMats, List.range_succ, inputMat, x, hone]
    rw [this] at h0
    simp [boundVec, bound] at h0

end TorchMPS
