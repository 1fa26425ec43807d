import Verif.Props.LogNorm
import Mathlib.Analysis.Matrix.PosDef
/-
C18: `get_log_norm` for weights of any sign.
-/
namespace TorchMPS
open Spec
open scoped ComplexOrder
variable {K : Type}

theorem foldl_signed [RCLike K] (lamb : Option (Tensor K)) (d D : ℕ) (Λ : ℕ → ℕ → K)
    (hL : LambdaIs lamb d Λ) {ι : Type} [Fintype ι] (w : ι → ℝ) (v : ι → ℕ → K)
    (hΛ : ∀ i < d, ∀ j < d, Λ i j = ∑ a, (w a : K) * (v a i * star (v a j))) (r : Fin D → K)
    (cts : List (Tensor K)) (hct : ∀ ct ∈ cts, ct.shape = [d, D, D])
    {X : Type} [Fintype X] (W : X → ℝ) (u : X → Fin D → K) (dm : Tensor K)
    (hdm : IsFamily dm D W u) (l : Option ℝ) (S : ℝ)
    (hS : S = ∑ x, W x * totM w r (cts.map fun ct a => feat3 ct d D (v a)) (u x)) :
    (∃ dm' l0 l' c, l = some l0 ∧ cts.foldlM (transferStep lamb) (some dm, l) = .ok (some dm', some l') ∧ FinalIs dm' D r c ∧
        Real.exp l' * c = Real.exp l0 * S) ∨
    (∃ dm' c, cts.foldlM (transferStep lamb) (some dm, l) = .ok (some dm', none) ∧ FinalIs dm' D r c) ∨
    (∃ l', cts.foldlM (transferStep lamb) (some dm, l) = .ok (none, l')) ∨
    (isComplex K ∧ cts.foldlM (transferStep lamb) (some dm, l) = .error .assertion) := by
  induction cts generalizing X dm l S with
  | nil =>
    have hf := family_final hdm r
    simp only [List.map_nil, totM] at hS
    rw [← hS] at hf
    cases l with
    | none => exact Or.inr (Or.inl ⟨dm, S, rfl, hf⟩)
    | some l0 => exact Or.inl ⟨dm, l0, l0, S, rfl, rfl, hf, rfl⟩
  | cons ct cts ih =>
    obtain ⟨o, ho, hfam⟩ := transferOp_family lamb d D Λ dm ct hL w v hΛ W u hdm (hct ct (by simp))
    have htr := family_trace hfam
    set tr := ∑ x : X × ι, W x.1 * w x.2 * vecNormSq (Matrix.vecMul (u x.1) (feat3 ct d D (v x.2))) with htrd
    have hS' : S = ∑ p : X × ι, W p.1 * w p.2 * totM w r (cts.map fun ct a => feat3 ct d D (v a))
        (Matrix.vecMul (u p.1) (feat3 ct d D (v p.2))) := by
      rw [hS, Fintype.sum_prod_type]
      refine Finset.sum_congr rfl fun x _ => ?_
      simp only [List.map_cons, totM, Finset.mul_sum]
      refine Finset.sum_congr rfl fun a _ => ?_
      ring
    have hstep : transferStep lamb (some dm, l) ct =
        if tr = 0 then .ok (none, none)
        else .ok (some ⟨o.shape, fun idx => o.get idx / (tr : K)⟩, if 0 < tr then l.map (· + Real.log tr) else none) := by
      simp only [transferStep, ho, bind, Except.bind, htr, pure, Except.pure]
    by_cases h0 : tr = 0
    · rw [List.foldlM_cons, hstep, if_pos h0]
      rcases transferStep_none (K := K) lamb none cts with h | h
      · exact Or.inr (Or.inr (Or.inl ⟨_, h⟩))
      · exact Or.inr (Or.inr (Or.inr h))
    · rw [List.foldlM_cons, hstep, if_neg h0]
      have key := ih (fun c hc => hct c (by simp [hc])) (fun p : X × ι => W p.1 * w p.2 / tr) _ _ (family_scale hfam tr)
        (if 0 < tr then l.map (· + Real.log tr) else none) (S / tr) (by
          rw [hS', Finset.sum_div]
          exact Finset.sum_congr rfl fun p _ => by ring)
      rcases key with ⟨dm', l0, l', c, k1, k2, k3, k4⟩ | k | k | k
      · left
        by_cases hpos : 0 < tr
        · rw [if_pos hpos] at k1
          cases l with
          | none => cases k1
          | some l1 =>
            simp only [Option.map_some, Option.some.injEq] at k1
            refine ⟨dm', l1, l', c, rfl, k2, k3, ?_⟩
            rw [k4, ← k1, Real.exp_add, Real.exp_log hpos]
            field_simp
        · rw [if_neg hpos] at k1
          cases k1
      · exact Or.inr (Or.inl k)
      · exact Or.inr (Or.inr (Or.inl k))
      · exact Or.inr (Or.inr (Or.inr k))

/-- C18, weights of any sign: if `lamb_mat` denotes `∑ a, w a • v_a v_a†` with real weights (every Hermitian matrix has this form), `get_log_norm` returns the
logarithm of the weighted sum of `|ψ|²` if it returns a finite number (the sum is then positive), and `-inf` only if the sum is zero; otherwise the result is NaN, or
(complex dtypes only) an AssertionError. In particular a negative sum gives NaN or an error, never a number. -/
theorem C18_log_norm_signed [RCLike K] (core bound : Tensor K) (n d D : ℕ) (hcore : CoreShape core n d D)
    (hbound : bound.shape = [2, D]) (length : Option ℤ) (hlen : LengthArg core n length)
    (lamb : Option (Tensor K)) {ι : Type} [Fintype ι] (w : ι → ℝ) (v : ι → ℕ → K)
    (hL : LambdaIs lamb d (fun i j => ∑ a, (w a : K) * (v a i * star (v a j)))) :
    (0 < weightedNormSq core bound n d D w v ∧
      getLogNorm core bound length lamb = .ok (some ((Real.log (weightedNormSq core bound n d D w v) : ℝ) : EReal))) ∨
    (weightedNormSq core bound n d D w v = 0 ∧ getLogNorm core bound length lamb = .ok (some ⊥)) ∨
    getLogNorm core bound length lamb = .ok none ∨ (isComplex K ∧ getLogNorm core bound length lamb = .error .assertion) := by
  have hlamb : ∀ l ∈ lamb, l.ndim ≤ 2 := by
    intro l hl
    rw [Option.mem_def] at hl
    subst hl
    rcases hL with ⟨h, -⟩ | ⟨h, -⟩ | ⟨h, -⟩ <;> simp [Tensor.ndim, h]
  have hc : ∃ cores : List (Tensor K),
      (if core.ndim = 3 then List.replicate (length.getD 0).toNat core else unbind0 core) = cores ∧
      (∀ ct ∈ cores, ct.shape = [d, D, D]) ∧ cores.map (fun ct a => feat3 ct d D (v a)) =
      List.ofFn fun s : Fin n => fun a => featMat core d D s (v a) := by
    refine ⟨_, rfl, ?_⟩
    rcases hcore with h | h
    · have h3 : core.ndim = 3 := by simp [Tensor.ndim, h]
      have hl : length = some (n : ℤ) := by
        rcases hlen with h' | h'
        · exact h'.2
        · simp [h] at h'
      rw [if_pos h3, hl]
      simp only [Option.getD_some, Int.toNat_natCast]
      refine ⟨fun ct hct => ?_, replicate_feat core n d D h v⟩
      rw [List.eq_of_mem_replicate hct, h]
    · have h3 : core.ndim ≠ 3 := by simp [Tensor.ndim, h]
      rw [if_neg h3]
      exact unbind0_feat core n d D h v
  obtain ⟨cores, hcores, hc1, hc2⟩ := hc
  have hfam : IsFamily (densMat bound D) D (fun _ : Unit => 1) (fun _ => boundVec bound D 0) := by
    refine ⟨rfl, fun r q => ?_⟩
    simp [densMat, boundVec]
  have hmain := foldl_signed lamb d D _ hL w v (fun i _ j _ => rfl) (boundVec bound D 1) cores hc1
    (fun _ : Unit => (1 : ℝ)) (fun _ => boundVec bound D 0) _ hfam (some 0)
    (weightedNormSq core bound n d D w v) (by
      rw [hc2]; simp [totM_ofFn, weightedNormSq])
  have hD : core.shape.getD (core.ndim - 1) 0 = D := by
    rcases hcore with h | h <;> simp [Tensor.ndim, h]
  unfold getLogNorm
  rw [logNormCheck_ok core bound n d D hcore hbound length hlen lamb hlamb, hcores, hD]
  rcases hmain with ⟨dm', l0, l', c, e0, e1, e2, e3⟩ | ⟨dm', c, e1, e2⟩ | ⟨l', e1⟩ | ⟨hcx, e1⟩
  · simp only [Option.some.injEq] at e0
    subst e0
    rw [Real.exp_zero, one_mul] at e3
    simp only [bind, Except.bind, e1, logNormCorr_some bound dm' D c e2, pure, Except.pure]
    rcases lt_trichotomy c 0 with hneg | rfl | hpos
    · right; right; left
      simp only [addLog, bind, Option.bind, torchLog, if_neg (not_lt.2 hneg.le), if_neg hneg.ne]
    · right; left
      refine ⟨by rw [← e3, mul_zero], ?_⟩
      simp [addLog, torchLog]
    · left
      refine ⟨by rw [← e3]; positivity, ?_⟩
      simp only [addLog, bind, Option.bind, torchLog, if_pos hpos, pure]
      rw [← EReal.coe_add, ← e3, Real.log_mul (Real.exp_pos _).ne' hpos.ne', Real.log_exp]
  · right; right; left
    simp only [bind, Except.bind, e1, logNormCorr_some bound dm' D c e2, pure, Except.pure]
    rfl
  · simp only [e1, bind, Except.bind, pure, Except.pure, logNormCorr, realify]
    by_cases hcx : isComplex K
    · rw [if_pos hcx]; right; right; right; exact ⟨hcx, rfl⟩
    · rw [if_neg hcx]; right; right; left; rfl
  · simp only [e1, bind, Except.bind]; right; right; right; exact ⟨hcx, trivial⟩

/-- C18: every Hermitian matrix is such a weighted family, with non-negative weights if it is positive semidefinite. -/
theorem C18_hermitian_family [RCLike K] (d : ℕ) (Λ : ℕ → ℕ → K) (h : (Matrix.of fun i j : Fin d => Λ i j).IsHermitian) :
    ∃ (w : Fin d → ℝ) (v : Fin d → ℕ → K), (∀ i < d, ∀ j < d, Λ i j = ∑ a, (w a : K) * (v a i * star (v a j))) ∧
      ((Matrix.of fun i j : Fin d => Λ i j).PosSemidef → ∀ a, 0 ≤ w a) := by
  refine ⟨h.eigenvalues, fun a i => if hi : i < d then (h.eigenvectorUnitary : Matrix (Fin d) (Fin d) K) ⟨i, hi⟩ a else 0, ?_, ?_⟩
  · intro i hi j hj
    have e := congrFun (congrFun h.spectral_theorem ⟨i, hi⟩) ⟨j, hj⟩
    rw [Matrix.of_apply, Unitary.conjStarAlgAut_apply, Matrix.mul_apply] at e
    refine e.trans (Finset.sum_congr rfl fun a _ => ?_)
    rw [Matrix.mul_diagonal, Matrix.star_apply]
    simp only [dif_pos hi, dif_pos hj, Function.comp]
    ring
  · intro hp a
    exact hp.eigenvalues_nonneg a

/-- An indefinite `lamb_mat = diag(1, -1)` with weighted sum -1 (a positive trace and a negative correction): the result is NaN. -/
example : getLogNorm (K := ℝ) ⟨[1, 2, 2, 2], fun idx => if idx = [0, 0, 0, 0] then 2 else if idx = [0, 1, 0, 1] then 1 else 0⟩
    ⟨[2, 2], fun idx => if idx = [0, 0] ∨ idx = [1, 1] then 1 else 0⟩ none (some ⟨[2], fun idx => if idx = [0] then 1 else -1⟩) = .ok none := by
  have key := C18_log_norm_signed (K := ℝ) ⟨[1, 2, 2, 2], fun idx => if idx = [0, 0, 0, 0] then 2 else if idx = [0, 1, 0, 1] then 1 else 0⟩
    ⟨[2, 2], fun idx => if idx = [0, 0] ∨ idx = [1, 1] then 1 else 0⟩ 1 2 2 (Or.inr rfl) rfl none (Or.inr ⟨rfl, Or.inl rfl⟩)
    (some ⟨[2], fun idx => if idx = [0] then 1 else -1⟩) (fun a : Fin 2 => if a = 0 then 1 else -1) (fun a i => if i = (a : ℕ) then 1 else 0) (by
      refine Or.inr (Or.inl ⟨rfl, ?_⟩)
      intro i hi j hj
      interval_cases i <;> interval_cases j <;> simp [Fin.sum_univ_two])
  have hS : weightedNormSq (K := ℝ) ⟨[1, 2, 2, 2], fun idx => if idx = [0, 0, 0, 0] then 2 else if idx = [0, 1, 0, 1] then 1 else 0⟩
    ⟨[2, 2], fun idx => if idx = [0, 0] ∨ idx = [1, 1] then 1 else 0⟩ 1 2 2 (fun a : Fin 2 => if a = 0 then 1 else -1) (fun a i => if i = (a : ℕ) then 1 else 0) = -1 := by
    unfold weightedNormSq
    rw [← (Equiv.funUnique (Fin 1) (Fin 2)).symm.sum_comp]
    simp [Fin.sum_univ_two, featMat, coreMat, amplitude, boundVec, dotProduct, Matrix.mulVec, Finset.sum_range_succ]
  rw [hS] at key
  rcases key with h | h | h | h
  · linarith [h.1]
  · linarith [h.1]
  · exact h
  · exact absurd h.1 not_isComplex_real

end TorchMPS
