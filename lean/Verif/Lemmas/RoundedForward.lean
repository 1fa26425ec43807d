import Verif.Lemmas.RoundedNorm
import Verif.Lemmas.ProbMps
import Verif.Props.Rounded
/-
Rounding errors of the amplitudes and of the norm of a probabilistic MPS.
-/
namespace TorchMPS
open Spec
variable {a : ProbArith} {d D N : ℕ} {γ u μ τ ν S : ℝ}

theorem cores_range (core : Tensor ℝ) (n : ℕ) (hc : CoreShape core n d D) (length : Option ℤ) (hlen : LengthArg core n length) :
    (if core.ndim = 3 then List.replicate (length.getD 0).toNat core else unbind0 core) = (List.range n).map (siteCore core) := by
  rcases hc with h | h
  · have h3 : core.ndim = 3 := by simp [Tensor.ndim, h]
    have hl : length = some (n : ℤ) := by
      rcases hlen with h' | h'
      · exact h'.2
      · simp [h] at h'
    rw [if_pos h3, hl]
    simp only [Option.getD_some, Int.toNat_natCast]
    have : siteCore core = fun _ => core := by funext s; simp only [siteCore, h]
    rw [this]
    simp
  · have h3 : core.ndim ≠ 3 := by simp [Tensor.ndim, h]
    rw [if_neg h3, unbind0, h]
    simp only [List.headD_cons, List.tail_cons]
    refine List.map_congr_left fun s _ => ?_
    simp only [siteCore, h]

theorem siteCore_shape (core : Tensor ℝ) (n : ℕ) (hc : CoreShape core n d D) (s : ℕ) : (siteCore core s).shape = [d, D, D] := by
  rcases hc with h | h
  · simp only [siteCore, h]
  · simp only [siteCore, h]

theorem slice3_siteCore (core : Tensor ℝ) (n : ℕ) (hc : CoreShape core n d D) (s i : ℕ) : slice3 (siteCore core s) D i = coreMat core D s i := by
  ext l r
  rcases hc with h | h <;> simp [slice3, siteCore, coreMat, h]

theorem absTensor_siteCore (core : Tensor ℝ) (n : ℕ) (hc : CoreShape core n d D) (s : ℕ) : absTensor (siteCore core s) = siteCore (absTensor core) s := by
  have e : (absTensor core).shape = core.shape := rfl
  rcases hc with h | h
  · simp only [siteCore, h, e]
  · simp only [siteCore, h, e]
    rfl

theorem absTensor_coreShape {core : Tensor ℝ} {n : ℕ} (hc : CoreShape core n d D) : CoreShape (absTensor core) n d D := hc

theorem trM_prefix (m : ProbMPS ℝ) (n : ℕ) (hc : CoreShape m.core n d D) (k : ℕ) :
    trM D (((List.range k).map (siteCore m.core)).foldl (tf d D) (dm0 D (fun i => m.edge.get [0, i]))) = prefixMass m d D k := by
  rw [trM_fold, massL_range]
  simp only [slice3_siteCore m.core n hc]
  rfl

theorem qf_modelZ (m : ProbMPS ℝ) (n : ℕ) (hc : CoreShape m.core n d D) (hb : m.bias = none) :
    qf D (fun i => m.edge.get [1, i]) (((List.range n).map (siteCore m.core)).foldl (tf d D) (dm0 D (fun i => m.edge.get [0, i]))) = modelZ m n d D := by
  rw [qf_fold, massL_range]
  simp only [slice3_siteCore m.core n hc]
  unfold modelZ psiSeq
  have hB : biasMat m D = 0 := by simp [biasMat, hb]
  refine Finset.sum_congr rfl fun x _ => ?_
  simp only [hB, add_zero, Real.norm_eq_abs, sq_abs, amplitude, Matrix.dotProduct_mulVec]
  rfl

theorem absModel_map (core : Tensor ℝ) (n k : ℕ) (hc : CoreShape core n d D) :
    ((List.range k).map (siteCore core)).map absTensor = (List.range k).map (siteCore (absTensor core)) := by
  rw [List.map_map]
  refine List.map_congr_left fun s _ => ?_
  exact absTensor_siteCore core n hc s

/-- `get_log_norm` of a valid model without bias matrix -/
theorem logNorm_near (ac : AccurateProb a d D N γ u μ τ ν S) (hN : 1 ≤ N) (m : ProbMPS ℝ) (n : ℕ) (hc : CoreShape m.core n d D) (he : m.edge.shape = [2, D])
    (hb : m.bias = none) (length : Option ℤ) (hlen : LengthArg m.core n length)
    (hcond : ∀ k, 1 ≤ k → k ≤ n → normErr u μ τ S n (modelZ m n d D) * prefixMass (absModel m) d D k < prefixMass m d D k)
    (hZ : 0 < modelZ m n d D) (hfin : 2 * (normErr u μ τ S n (modelZ m n d D) * modelZ (absModel m) n d D) ≤ modelZ m n d D) :
    ∃ z, a.logNorm m.core m.edge length = .ok (some z) ∧
      |Real.exp z - modelZ m n d D| ≤ normErr u μ τ S n (modelZ m n d D) * modelZ (absModel m) n d D := by
  have hD : m.core.shape.getD (m.core.ndim - 1) 0 = D := by
    rcases hc with h | h <;> simp [Tensor.ndim, h]
  have hlen' : ((List.range n).map (siteCore m.core)).length = n := by simp
  have tk : ∀ j < n, ((List.range n).map (siteCore m.core)).take (j + 1) = (List.range (j + 1)).map (siteCore m.core) := by
    intro j hj
    rw [← List.map_take, List.take_range, Nat.min_eq_left hj]
  have hca : CoreShape (absModel m).core n d D := hc
  have hba : (absModel m).bias = none := hb
  have key := norm_value ac hN ((List.range n).map (siteCore m.core))
    (by intro ct h; obtain ⟨s, -, rfl⟩ := List.mem_map.1 h; exact siteCore_shape m.core n hc s)
    (fun i => m.edge.get [0, i]) (fun i => m.edge.get [1, i]) (modelZ m n d D) (qf_modelZ m n hc hb) hZ
    (by
      intro j hj
      rw [hlen'] at hj ⊢
      rw [tk j hj, absModel_map m.core n (j + 1) hc, trM_prefix m n hc (j + 1)]
      have := trM_prefix (absModel m) n hca (j + 1)
      simp only [absModel, absTensor] at this ⊢
      rw [this]
      exact hcond (j + 1) (by omega) hj)
    (by
      rw [hlen', absModel_map m.core n n hc]
      have := qf_modelZ (absModel m) n hca hba
      simp only [absModel, absTensor] at this ⊢
      rw [this]
      exact hfin)
  rw [hlen', absModel_map m.core n n hc] at key
  have e2 := qf_modelZ (absModel m) n hca hba
  obtain ⟨z, k1, k2⟩ := key
  refine ⟨z, ?_, ?_⟩
  · unfold ProbArith.logNorm
    rw [logNormCheck_ok m.core m.edge n d D hc he length hlen none (by simp), cores_range m.core n hc length hlen, hD]
    simp only [bind, Except.bind, pure, Except.pure]
    rw [k1]
  · simp only [absModel, absTensor] at e2 k2 ⊢
    rw [e2] at k2
    exact k2

/-! ### the amplitudes -/

theorem slimStepF_none (ops : FlOps ℝ) (d : ℕ) (ms : List (Mat ℝ)) : ms.foldl (ops.slimStep d) none = none := by
  induction ms with
  | nil => rfl
  | cons a ms ih => exact ih

theorem slim_loopF {ops : FlOps ℝ} (ac : Accurate ops D N γ u μ) (hN : 1 ≤ N) (hD0 : 1 ≤ D) (ms : List (Mat ℝ)) :
    ∀ (p X Y : Mat ℝ) (k : ℕ) (s : ℝ) (rs : List ℝ) (g : ℝ), Near g rs.prod p X Y → (∀ r ∈ rs, IsScale ops r) → LogNear μ k s rs →
    ChainOK (X :: ms) → X.c ≤ D → SizesUpTo D ms →
    match ms.foldl (ops.slimStep D) (some (p, s)) with
    | none => Dom (g * ((1 + γ) * (1 + u)) ^ ms.length - 1) (matProd X ms) (matProd Y (ms.map absMat))
    | some (P, s') => ∃ rs', Near (g * ((1 + γ) * (1 + u)) ^ ms.length) rs'.prod P (matProd X ms) (matProd Y (ms.map absMat)) ∧
        (∀ r ∈ rs', IsScale ops r) ∧ LogNear μ (k + ms.length) s' rs' ∧ rs'.length = rs.length + ms.length := by
  induction ms with
  | nil =>
    intro p X Y k s rs g h1 h2 h3 _ _ _
    refine ⟨rs, ?_, h2, h3, rfl⟩
    rw [List.length_nil, pow_zero, mul_one]
    exact h1
  | cons m ms ih =>
    intro p X Y k s rs g h1 h2 h3 hc hD hs
    obtain ⟨m1, m2, m3, m4⟩ := hs m (List.mem_cons_self ..)
    have hmm := h1.mm ac (near_self m) hc.1 hD
    have hγ := ac.gamma
    have hu := ac.unit
    have hg := h1.one_le
    rw [mul_one, mul_one] at hmm
    rw [List.foldl_cons, List.map_cons, matProd_cons, matProd_cons]
    have hstep : ops.slimStep D (some (p, s)) m = if ops.scale (D : ℝ) (ops.mm p m) = 0 then none
      else some (ops.div (ops.mm p m) (ops.scale (D : ℝ) (ops.mm p m)), ops.logAdd s [ops.scale (D : ℝ) (ops.mm p m)]) := by
      simp only [Arith.slimStep, ac.isZero]
    rw [hstep]
    have ht : (0 : ℝ) < (D : ℝ) := by exact_mod_cast hD0
    generalize hρ : ops.scale (D : ℝ) (ops.mm p m) = ρ
    by_cases h0 : ρ = 0
    · rw [if_pos h0, slimStepF_none]
      have hz := (ac.scaleZero _ (ops.mm p m) ht).1 (hρ.trans h0)
      have hd := (hmm.dom_zero hz).mono hmm.dom (c' := g * ((1 + γ) * (1 + u)) ^ (ms.length + 1) - 1) (by
        have e1 : (1 : ℝ) ≤ (1 + γ) * (1 + u) := one_le_mul_of_one_le_of_one_le (by linarith) (by linarith)
        have e2 : (1 + γ) * (1 + u) ≤ ((1 + γ) * (1 + u)) ^ (ms.length + 1) := le_self_pow₀ e1 (by omega)
        have e3 : 1 + γ ≤ (1 + γ) * (1 + u) := le_mul_of_one_le_right (by linarith) (by linarith)
        have := mul_le_mul_of_nonneg_left (e3.trans e2) (by linarith : 0 ≤ g)
        linarith)
      exact hd.matProd ms (chainOK_mul hc)
    · rw [if_neg h0]
      have hpos : 0 < ρ := lt_of_le_of_ne (hρ ▸ ac.scaleNonneg _ _ ht) (Ne.symm h0)
      have hdiv := hmm.div ac ρ hpos
      have hl := h3.step ac [ρ] (by simpa using hpos) hN
      have hprod : rs.prod * ρ = (rs ++ [ρ]).prod := by simp
      rw [hprod] at hdiv
      have key := ih (ops.div (ops.mm p m) ρ) (X.mul m) (Y.mul (absMat m)) (k + 1) (ops.logAdd s [ρ]) (rs ++ [ρ]) _ hdiv (by
        intro r hr
        rcases List.mem_append.1 hr with hr | hr
        · exact h2 r hr
        · rw [List.mem_singleton] at hr
          exact ⟨_, _, ht, by rw [hr, hρ], by rw [hr]; exact hpos⟩) hl (chainOK_mul hc) m4 (fun x hx => hs x (List.mem_cons_of_mem _ hx))
      have e1 : g * (1 + γ) * (1 + u) * ((1 + γ) * (1 + u)) ^ ms.length = g * ((1 + γ) * (1 + u)) ^ (m :: ms).length := by
        rw [List.length_cons, pow_succ]
        ring
      rw [e1] at key
      generalize ms.foldl (ops.slimStep D) (some (ops.div (ops.mm p m) ρ, ops.logAdd s [ρ])) = res at key
      cases res with
      | none => exact key
      | some q =>
        obtain ⟨P, s'⟩ := q
        obtain ⟨rs', k1, k2, k3, k4⟩ := key
        refine ⟨rs', k1, k2, ?_, ?_⟩
        · rw [List.length_cons, ← Nat.add_assoc, Nat.add_right_comm]
          exact k3
        · rw [k4, List.length_append, List.length_singleton, List.length_cons]
          omega

theorem slimFold_near {ops : FlOps ℝ} (ac : Accurate ops D N γ u μ) (hN : 1 ≤ N) (hD0 : 1 ≤ D) (m : Mat ℝ) (ms : List (Mat ℝ)) (hc : ChainOK (m :: ms))
    (hs : SizesUpTo D (m :: ms)) :
    NearRes ops μ (((1 + γ) * (1 + u)) ^ ms.length) ms.length ms.length (ms.foldl (ops.slimStep D) (some (m, 0))) (matProd m ms) (absProd m ms) := by
  have h0 := hs m (by simp)
  have key := slim_loopF ac hN hD0 ms m m (absMat m) 0 0 [] 1 (near_self m) (by simp) (logNear_zero μ) hc h0.2.2.2 (sizesUpTo_tail hs)
  have hdom := (absMat_dom m).matProd ms hc
  cases hr : ms.foldl (ops.slimStep D) (some (m, 0)) with
  | none =>
    rw [hr] at key
    simp only [one_mul] at key
    exact ⟨key, hdom⟩
  | some p =>
    obtain ⟨P, s⟩ := p
    rw [hr] at key
    obtain ⟨rs, k1, k2, k3, k4⟩ := key
    rw [one_mul] at k1
    rw [zero_add] at k3
    refine ⟨rs, k1, k2, k3, ?_⟩
    simp [k4]

theorem absMat_ofMatrix {n k : ℕ} (A : Matrix (Fin n) (Fin k) ℝ) : absMat (ofMatrix A) = ofMatrix (A.map abs) := by
  unfold absMat ofMatrix
  congr 1
  funext i j
  by_cases h : i < n ∧ j < k
  · simp [dif_pos h]
  · simp [dif_neg h]

theorem absMat_rowMat (l : Fin D → ℝ) : absMat (rowMat l) = rowMat (fun i => |l i|) := absMat_ofMatrix _
theorem absMat_colMat (l : Fin D → ℝ) : absMat (colMat l) = colMat (fun i => |l i|) := absMat_ofMatrix _

/-- the product of the absolute values is the amplitude of the absolute values -/
theorem absProd_amplitude (l r : Fin D → ℝ) (Ms : List (Matrix (Fin D) (Fin D) ℝ)) :
    (absProd (rowMat l) (Ms.map ofMatrix ++ [colMat r])).e 0 0 = amplitude (fun i => |l i|) (fun i => |r i|) (Ms.map fun A => A.map abs) := by
  unfold absProd
  rw [List.map_append, List.map_map, matProd_append, ← matProd_amplitude, absMat_rowMat, List.map_singleton, absMat_colMat, List.map_map]
  have : absMat ∘ ofMatrix = (ofMatrix ∘ fun A : Matrix (Fin D) (Fin D) ℝ => A.map abs) := by funext A; exact absMat_ofMatrix A
  rw [this]
  rfl

theorem matProd_amplitude' (l r : Fin D → ℝ) (Ms : List (Matrix (Fin D) (Fin D) ℝ)) :
    (matProd (rowMat l) (Ms.map ofMatrix ++ [colMat r])).e 0 0 = amplitude l r Ms := by
  rw [matProd_append, ← matProd_amplitude]
  rfl

/-- chains of a row vector, square matrices and a column vector -/
theorem chain_ok (l r : Fin D → ℝ) (Ms : List (Matrix (Fin D) (Fin D) ℝ)) : ChainOK (rowMat l :: (Ms.map ofMatrix ++ [colMat r])) := by
  have : ∀ (L : List (Matrix (Fin D) (Fin D) ℝ)) (x : Mat ℝ), x.c = D → ChainOK (x :: (L.map ofMatrix ++ [colMat r])) := by
    intro L
    induction L with
    | nil => intro x hx; exact ⟨hx, trivial⟩
    | cons y L ih => intro x hx; exact ⟨hx, ih _ rfl⟩
  exact this _ _ rfl

theorem chain_ok' (l : Fin D → ℝ) (Ms : List (Matrix (Fin D) (Fin D) ℝ)) : ChainOK (rowMat l :: Ms.map ofMatrix) := by
  have : ∀ (L : List (Matrix (Fin D) (Fin D) ℝ)) (x : Mat ℝ), x.c = D → ChainOK (x :: L.map ofMatrix) := by
    intro L
    induction L with
    | nil => intro x hx; trivial
    | cons y L ih => intro x hx; exact ⟨hx, ih _ rfl⟩
  exact this _ _ rfl

theorem chain_sizes (hD : 1 ≤ D) (l r : Fin D → ℝ) (Ms : List (Matrix (Fin D) (Fin D) ℝ)) : SizesUpTo D (rowMat l :: (Ms.map ofMatrix ++ [colMat r])) := by
  intro x hx
  rcases List.mem_cons.1 hx with rfl | hx
  · exact ⟨le_refl _, hD, hD, le_refl _⟩
  · rcases List.mem_append.1 hx with hx | hx
    · obtain ⟨A, -, rfl⟩ := List.mem_map.1 hx
      exact ⟨hD, le_refl _, hD, le_refl _⟩
    · rw [List.mem_singleton] at hx
      subst hx
      exact ⟨hD, le_refl _, le_refl _, hD⟩

/-- what is known of an amplitude -/
def AmpNear (p s : Option ℝ) (x y ε : ℝ) : Prop :=
  match p, s with
  | some p, some s => |Real.exp s * p - x| ≤ ε * y
  | none, none => |x| ≤ ε * y
  | _, _ => False

/-- `contract_matseq` on a batch of sequences of square matrices with unbatched boundary vectors -/
theorem contract_stack_near {ops : FlOps ℝ} (ac : Accurate ops D N γ u μ) (hS : ScalesBounded ops S) (t l r : Tensor ℝ) (B T : ℕ) (hT : 1 ≤ T) (hD : 1 ≤ D)
    (hN : T + 2 ≤ N) (ht : t.shape = [B, T, D, D]) (hl : l.shape = [D]) (hr : r.shape = [D]) (par : Bool) (M : ℕ → ℕ → Matrix (Fin D) (Fin D) ℝ)
    (hM : ∀ b < B, ∀ s < T, ∀ i j : Fin D, t.get [b, s, i, j] = M b s i j) :
    ∃ out, ops.contractMatseq (.single t) (some l) (some r) par = .ok out ∧ out.product.shape = [B] ∧ out.logScale.shape = [B] ∧
      ∀ b < B, AmpNear (out.product.get [b]) (out.logScale.get [b])
        (amplitude (fun i : Fin D => l.get [i]) (fun i => r.get [i]) ((List.range T).map (M b)))
        (amplitude (fun i : Fin D => |l.get [i]|) (fun i => |r.get [i]|) (((List.range T).map (M b)).map fun A => A.map abs)) (ampErr γ u μ S T) := by
  have hbt : batchShape t 3 = [B] := by simp [batchShape, Tensor.ndim, ht]
  have hnt : nonBatchShape t 3 = [T, D, D] := by simp [nonBatchShape, Tensor.ndim, ht]
  have hbl : batchShape l 1 = [] := by simp [batchShape, Tensor.ndim, hl]
  have hbr : batchShape r 1 = [] := by simp [batchShape, Tensor.ndim, hr]
  have hw : WellRanked (.single t) (some l) (some r) := by
    simp [WellRanked, Tensor.ndim, ht, hl, hr]
  have hBr : IsBroadcast (batchShapes (.single t) (some l) (some r)) [B] := by
    simp only [batchShapes, hbt, hbl, hbr, Option.toList_some, List.map_cons, List.map_nil, List.cons_append,
      List.nil_append]
    refine ⟨by simp, ⟨[B], by simp, rfl⟩, ?_, fun i => ⟨[B], by simp, rfl⟩⟩
    intro i s hs
    simp only [List.mem_cons, List.not_mem_nil, or_false] at hs
    rcases hs with rfl | rfl | rfl
    · exact Or.inr rfl
    · left; simp [sizeAt]
    · left; simp [sizeAt]
  have hmats : ∀ b, matsAt (.single t) b = ((List.range T).map (fun k =>
      (Matrix.of fun (i j : Fin D) => t.get (sourceIndex [B] b ++ [k, (i : ℕ), (j : ℕ)])))).map ofMatrix := by
    intro b
    simp only [matsAt, hnt, hbt, List.map_map]
    refine List.map_congr_left fun s _ => ?_
    exact mat_of_eq_ofMatrix _ _ (fun i j => rfl)
  have hrow : ∀ b, rowAt l b = rowMat (fun i : Fin D => l.get [i]) := by
    intro b
    unfold rowAt rowMat
    rw [hbl, hl]
    exact mat_of_eq_ofMatrix _ _ (fun i j => by simp [sourceIndex]; rfl)
  have hcol : ∀ b, colAt r b = colMat (fun i : Fin D => r.get [i]) := by
    intro b
    unfold colAt colMat
    rw [hbr, hr]
    exact mat_of_eq_ofMatrix _ _ (fun i j => by simp [sourceIndex]; rfl)
  have hchainat : ∀ b, chainAt (.single t) (some l) (some r) b = rowMat (fun i : Fin D => l.get [i]) ::
      (matsAt (.single t) b ++ [colMat (fun i : Fin D => r.get [i])]) := by
    intro b; simp [chainAt, hrow, hcol]
  obtain ⟨out, h1, h2, h3, h4⟩ := C83_contract ac hS (.single t) (some l) (some r) par [B] hw hBr _ _ (hchainat [])
    (by rw [hmats]; exact chain_ok _ _ _) (by
      rw [hmats]
      intro h
      rw [List.map_eq_nil_iff, List.map_eq_nil_iff, List.range_eq_nil] at h
      omega) (by rw [hmats]; exact chain_sizes hD _ _ _) (by rw [hmats]; simp; omega)
  refine ⟨out, h1, by simpa using h2, by simpa using h3, ?_⟩
  intro b hb
  obtain ⟨m, rest, k1, k2⟩ := h4 [b] (by simp [hb])
  have hmb : matsAt (.single t) [b] = ((List.range T).map (M b)).map ofMatrix := by
    rw [hmats, List.map_map, List.map_map]
    refine List.map_congr_left fun s hs => ?_
    have hsrc : sourceIndex [B] [b] = [b] := by
      have : (if B = 1 then 0 else b) = b := by split <;> omega
      simp [sourceIndex, this]
    simp only [Function.comp, hsrc]
    congr 1
    ext i j
    exact hM b hb s (List.mem_range.1 hs) i j
  rw [hchainat, hmb] at k1
  simp only [List.cons.injEq] at k1
  obtain ⟨rfl, rfl⟩ := k1
  have hc1 : (matProd (rowMat fun i : Fin D => l.get [i]) (((List.range T).map (M b)).map ofMatrix ++ [colMat fun i : Fin D => r.get [i]])).r = 1 := by
    rw [matProd_r]; rfl
  have hc2 : (matProd (rowMat fun i : Fin D => l.get [i]) (((List.range T).map (M b)).map ofMatrix ++ [colMat fun i : Fin D => r.get [i]])).c = 1 := by
    rw [matProd_c]; simp [colMat, ofMatrix]
  have key := k2 0 0 (by rw [hc1]; exact one_pos) (by rw [hc2]; exact one_pos)
  rw [absProd_amplitude, matProd_amplitude'] at key
  have hlen : (matsAt (.single t) [] ++ [colMat fun i : Fin D => r.get [i]]).length = T + 1 := by rw [hmats]; simp
  rw [hlen] at key
  simp only [outIndex, Option.isNone_some, Bool.false_eq_true, if_false, List.append_nil, Real.norm_eq_abs] at key
  unfold AmpNear ampErr
  cases h1 : out.product.get [b] <;> cases h2 : out.logScale.get [b] <;> rw [h1, h2] at key <;> exact key

/-- the argument checks of `slim_eval_fun` pass -/
theorem slimEval_eq (x : SeqInput ℝ) (core bound : Tensor ℝ) (B T : ℕ) (hx : ValidInput x B T d) (hc : CoreShape core T d D) (hb : bound.shape = [2, D]) :
    a.slimEval x core bound = (do
      let mats ← (List.range T).mapM (slimSlice x core)
      assert (0 < T ∨ B = 1)
      return ⟨⟨[B], fun idx => (a.slimValue mats bound D (idx.getD 0 0)).map Prod.fst⟩,
        ⟨[B], fun idx => (a.slimValue mats bound D (idx.getD 0 0)).map Prod.snd⟩⟩) := by
  unfold ProbArith.slimEval
  cases x with
  | ints t =>
    obtain ⟨ht, -⟩ := hx
    rcases hc with hc | hc <;>
      simp [SeqInput.shape, ht, hc, hb, Tensor.ndim, assert, bind, Except.bind, pure, Except.pure]
  | floats t =>
    have ht : t.shape = [B, T, d] := hx
    rcases hc with hc | hc <;>
      simp [SeqInput.shape, ht, hc, hb, Tensor.ndim, assert, bind, Except.bind, pure, Except.pure]

/-- `slim_eval_fun` succeeds, and at batch element `b` folds the step over the matrices of the input. -/
theorem slimEval_val (x : SeqInput ℝ) (core bound : Tensor ℝ) (B T : ℕ)
    (hx : ValidInput x B T d) (hc : CoreShape core T d D) (hb : bound.shape = [2, D]) (hT : 0 < T ∨ B = 1) :
    ∃ out, a.slimEval x core bound = .ok out ∧ out.product.shape = [B] ∧ out.logScale.shape = [B] ∧
      ∀ b < B, ∃ val : Option (ℝ × ℝ), out.product.get [b] = val.map Prod.fst ∧
        out.logScale.get [b] = val.map Prod.snd ∧
        val = (((inputMats x core T d D b).map ofMatrix).foldl (a.base.slimStep D) (some (rowMat (boundVec bound D 0), 0))).map
          (fun p => ((a.base.mm p.1 (colMat (boundVec bound D 1))).e 0 0, p.2)) := by
  obtain ⟨mats, hm1, hm2⟩ := mapM_except_ok (slimSlice x core) (List.range T)
    (fun s (m : Tensor ℝ) => ∀ b < B, Mat.of D D (fun i j => m.get [b, i, j]) =
      ofMatrix (inputMat x core d D b s)) (fun s hs => slimSlice_ok x core B T d D s hx hc (List.mem_range.1 hs))
  have hmats : ∀ b < B, mats.map (fun m => Mat.of D D (fun i j => m.get [b, i, j])) =
      (inputMats x core T d D b).map ofMatrix := by
    intro b hb'
    unfold inputMats
    clear hm1
    generalize List.range T = L at hm2
    induction hm2 with
    | nil => rfl
    | cons h _ ih => simp only [List.map_cons, h b hb', ih]
  have hrow : ∀ k, Mat.of 1 D (fun _ i => bound.get [k, i]) = rowMat (boundVec bound D k) := by
    intro k
    unfold Mat.of rowMat ofMatrix boundVec
    congr 1
  have hcol : ∀ k, Mat.of D 1 (fun i _ => bound.get [k, i]) = colMat (boundVec bound D k) := by
    intro k
    unfold Mat.of colMat ofMatrix boundVec
    congr 1
  rw [slimEval_eq x core bound B T hx hc hb, hm1]
  simp only [bind, Except.bind, pure, Except.pure]
  rw [assert_true _ hT]
  refine ⟨_, rfl, rfl, rfl, ?_⟩
  intro b hbB
  refine ⟨_, rfl, rfl, ?_⟩
  simp only [List.getD_cons_zero, ProbArith.slimValue]
  rw [hmats b hbB, hrow 0, hcol 1]

theorem ampErr_eq (n : ℕ) : ampErr γ u μ S n = roundErr γ u μ S (n + 1) (2 * (n + 1)) (n + 1) (2 * (n + 1)) := rfl

theorem slim_near (ac : Accurate a.base D N γ u μ) (hS : ScalesBounded a.base S) (hN : 1 ≤ N) (hD : 1 ≤ D) (l r : Fin D → ℝ) (Ms : List (Matrix (Fin D) (Fin D) ℝ)) :
    ∀ val : Option (ℝ × ℝ), val = ((Ms.map ofMatrix).foldl (a.base.slimStep D) (some (rowMat l, 0))).map (fun p => ((a.base.mm p.1 (colMat r)).e 0 0, p.2)) →
      AmpNear (val.map Prod.fst) (val.map Prod.snd) (amplitude l r Ms) (amplitude (fun i => |l i|) (fun i => |r i|) (Ms.map fun A => A.map abs))
        (ampErr γ u μ S Ms.length) := by
  rintro val rfl
  have hs := chain_sizes hD l r Ms
  have h1 := slimFold_near ac hN hD (rowMat l) (Ms.map ofMatrix) (chain_ok' l Ms)
    (fun x hx => hs x (by rcases List.mem_cons.1 hx with h | h <;> simp [h]))
  have hc0 : (matProd (rowMat l) (Ms.map ofMatrix)).c = D := by rw [matProd_rowMat]; rfl
  have hγ := ac.gamma
  have hu := ac.unit
  have h2 := h1.mulRight ac (by positivity) (colMat r) hc0 hc0.le
  have h3 := h2.approx ac hS (a := Ms.length + 1) (b := 2 * (Ms.length + 1)) (k' := Ms.length + 1) (l' := 2 * (Ms.length + 1)) (by
    rw [List.length_map, mul_pow, mul_right_comm, ← pow_succ]
    refine mul_le_mul_of_nonneg_left (pow_le_pow_right₀ (by linarith) (by omega)) (by positivity)) (by simp) (by simp; omega)
  have e1 : ((matProd (rowMat l) (Ms.map ofMatrix)).mul (colMat r)).e 0 0 = amplitude l r Ms := matProd_amplitude l r Ms
  have e2 : ((absProd (rowMat l) (Ms.map ofMatrix)).mul (absMat (colMat r))).e 0 0 = amplitude (fun i => |l i|) (fun i => |r i|) (Ms.map fun A => A.map abs) := by
    rw [← absProd_amplitude]
    unfold absProd
    rw [List.map_append, matProd_append]
    rfl
  have hr0 : ((matProd (rowMat l) (Ms.map ofMatrix)).mul (colMat r)).r = 1 := by rw [matProd_rowMat]; rfl
  have hc1 : ((matProd (rowMat l) (Ms.map ofMatrix)).mul (colMat r)).c = 1 := rfl
  cases hv : (Ms.map ofMatrix).foldl (a.base.slimStep D) (some (rowMat l, 0)) with
  | none =>
    rw [hv] at h3
    have := h3 0 (by rw [hr0]; exact one_pos) 0 (by rw [hc1]; exact one_pos)
    rw [e1, e2] at this
    exact this
  | some p =>
    obtain ⟨P, s⟩ := p
    rw [hv] at h3
    have := h3.2.2 0 (by rw [hr0]; exact one_pos) 0 (by rw [hc1]; exact one_pos)
    rw [e1, e2] at this
    exact this

theorem psi_tokens (m : ProbMPS ℝ) (hb : m.bias = none) (t : Tensor ℤ) (n b : ℕ) : psi m (.ints t) n d D b =
    amplitude (boundVec m.edge D 0) (boundVec m.edge D 1) ((List.range n).map fun s => coreMat m.core D s (t.get [b, s]).toNat) := by
  simp [psi, transMats, biasMat, hb, inputMat]

theorem psi_abs (m : ProbMPS ℝ) (hb : m.bias = none) (t : Tensor ℤ) (n b : ℕ) : psi (absModel m) (.ints t) n d D b =
    amplitude (fun i => |boundVec m.edge D 0 i|) (fun i => |boundVec m.edge D 1 i|)
      (((List.range n).map fun s => coreMat m.core D s (t.get [b, s]).toNat).map fun A => A.map abs) := by
  rw [psi_tokens (absModel m) hb, List.map_map]
  have : ∀ s k, coreMat (absModel m).core D s k = (coreMat m.core D s k).map abs := by
    intro s k
    ext i j
    by_cases h : m.core.shape.length = 3 <;> simp [coreMat, absModel, absTensor, h]
  simp only [this]
  rfl

/-- the amplitudes of a batch -/
theorem evalPsi_near (ac : AccurateProb a d D N γ u μ τ ν S) (m : ProbMPS ℝ) (n : ℕ) (hN : n + 2 ≤ N) (hn : 1 ≤ n) (hm : ValidModel m n d D) (hb : m.bias = none)
    (t : Tensor ℤ) (B : ℕ) (hx : ValidInput (.ints t : SeqInput ℝ) B n d) (slim par : Bool) :
    ∃ out, a.evalPsi m (.ints t) slim par = .ok out ∧ out.product.shape = [B] ∧ out.logScale.shape = [B] ∧
      ∀ b < B, AmpNear (out.product.get [b]) (out.logScale.get [b]) (psi m (.ints t) n d D b) (psi (absModel m) (.ints t) n d D b) (ampErr γ u μ S n) := by
  have hD : 1 ≤ D := Nat.one_le_iff_ne_zero.2 hm.pos
  have hmats : ∀ b, inputMats (.ints t : SeqInput ℝ) m.core n d D b = (List.range n).map fun s => coreMat m.core D s (t.get [b, s]).toNat := fun b => rfl
  unfold ProbArith.evalPsi
  cases slim with
  | true =>
    rw [if_pos rfl]
    obtain ⟨out, h1, h2, h3, h4⟩ := slimEval_val (a := a) (.ints t) m.core m.edge B n hx hm.coreShape hm.edge (Or.inl hn)
    refine ⟨out, h1, h2, h3, ?_⟩
    intro b hbB
    obtain ⟨val, k1, k2, k3⟩ := h4 b hbB
    have := slim_near ac.base ac.scales (by omega) hD _ _ _ val k3
    rw [k1, k2, psi_tokens m hb, psi_abs m hb]
    rw [hmats, List.length_map, List.length_range] at this
    exact this
  | false =>
    rw [if_neg (by simp)]
    obtain ⟨o, h1, h2, h3⟩ := getMatSlices_ok (.ints t) m.core B n d D hx hm.coreShape
    obtain ⟨out, k1, k2, k3, k4⟩ := contract_stack_near ac.base ac.scales o (rowOf m.edge 0) (rowOf m.edge 1) B n hn hD hN h2
      (by simp [rowOf, hm.edge]) (by simp [rowOf, hm.edge]) par _ h3
    refine ⟨out, by simp [h1, k1, bind, Except.bind], k2, k3, ?_⟩
    intro b hbB
    rw [psi_tokens m hb, psi_abs m hb]
    exact k4 b hbB

end TorchMPS
