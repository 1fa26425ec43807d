import Verif.Spec.AutodiffProb
import Verif.Lemmas.AutodiffZ
import Verif.Props.Autodiff
import Verif.Props.ProbMps
/-
The derivative of the amplitudes of a probabilistic MPS.
-/
namespace TorchMPS
open Spec
variable {K : Type}

/-! ### Slices -/

/-- entry `(i, j)` of slice `k` of the core of site `s` -/
def coreEntry {R : Type} (core : Tensor R) (s k i j : ℕ) : R := if core.shape.length = 3 then core.get [k, i, j] else core.get [s, k, i, j]

/-- entry `(i, j)` of the transition matrix of batch element `b` at site `s` -/
def inputEntry {R : Type} [CommSemiring R] (x : SeqInput R) (core : Tensor R) (d b s i j : ℕ) : R :=
  match x with
  | .ints t => coreEntry core s (t.get [b, s]).toNat i j
  | .floats t => ∑ k ∈ Finset.range d, t.get [b, s, k] * coreEntry core s k i j

theorem inputMat_entry [RCLike K] (x : SeqInput K) (core : Tensor K) (d D b s : ℕ) (i j : Fin D) : inputMat x core d D b s i j = inputEntry x core d b s i j := by
  cases x with
  | ints t => rfl
  | floats t => simp [inputMat, featMat, inputEntry, Matrix.sum_apply, coreMat, coreEntry]

variable [RCLike K]

theorem cindex_eq (x : K) : cindex x = x := by
  unfold cindex
  split
  · rw [mul_comm]; exact RCLike.re_add_im x
  · rfl

theorem dualCindex_eq (a : DualNumber K) : dualCindex a = a := by
  unfold dualCindex
  rw [cindex_eq, cindex_eq]
  rfl

theorem dualSlices_ok (x : SeqInput (DualNumber K)) (core : Tensor (DualNumber K)) (B T d D : ℕ) (hx : ValidInput x B T d) (hc : CoreShape core T d D) :
    ∃ o, dualSlices x core = .ok o ∧ o.shape = [B, T, D, D] ∧ ∀ b < B, ∀ s < T, ∀ i < D, ∀ j < D, o.get [b, s, i, j] = inputEntry x core d b s i j := by
  unfold dualSlices
  cases x with
  | ints t =>
    obtain ⟨ht, hv⟩ := hx
    rw [assert_true _ (by simp [SeqInput.shape, ht])]
    rcases hc with hc | hc
    · rw [assert_true _ (by simp [Tensor.ndim, hc])]
      simp only [bind, Except.bind, SeqInput.shape, ht, hc]
      rw [if_pos (by
        intro b hb s hs
        rw [resolveIdx_nat _ _ (hv b hb s hs).1 (hv b hb s hs).2]; rfl)]
      refine ⟨_, rfl, rfl, fun b hb s hs i hi j hj => ?_⟩
      simp only
      rw [resolveIdx_nat _ _ (hv b hb s hs).1 (hv b hb s hs).2]
      simp [inputEntry, coreEntry, hc]
    · rw [assert_true _ (by simp [Tensor.ndim, hc])]
      simp only [bind, Except.bind, SeqInput.shape, ht, hc]
      rw [if_pos (by
        intro b hb s hs
        rw [resolveIdx_nat _ _ (hv b hb s hs).1 (hv b hb s hs).2]; exact ⟨hs, rfl⟩)]
      refine ⟨_, rfl, rfl, fun b hb s hs i hi j hj => ?_⟩
      simp only
      rw [resolveIdx_nat _ _ (hv b hb s hs).1 (hv b hb s hs).2, dualCindex_eq]
      simp [inputEntry, coreEntry, hc]
  | floats t =>
    have ht : t.shape = [B, T, d] := hx
    rw [assert_true _ (by simp [SeqInput.shape, ht])]
    rcases hc with hc | hc
    · rw [assert_true _ (by simp [Tensor.ndim, hc])]
      simp only [bind, Except.bind, SeqInput.shape, ht, hc]
      obtain ⟨o, h1, h2, h3⟩ := einsum_bti_ide t core B T d D D ht hc
      refine ⟨o, h1, h2, fun b hb s hs i hi j hj => ?_⟩
      rw [h3 b hb s hs i hi j hj]
      simp [inputEntry, coreEntry, hc]
    · rw [assert_true _ (by simp [Tensor.ndim, hc])]
      simp only [bind, Except.bind, SeqInput.shape, ht, hc]
      obtain ⟨o, h1, h2, h3⟩ := einsum_bti_tide t core B T d D D ht hc
      refine ⟨o, h1, h2, fun b hb s hs i hi j hj => ?_⟩
      rw [h3 b hb s hs i hi j hj]
      simp [inputEntry, coreEntry, hc]

theorem dualSlimSlice_ok (x : SeqInput (DualNumber K)) (core : Tensor (DualNumber K)) (B T d D s : ℕ) (hx : ValidInput x B T d) (hc : CoreShape core T d D) (hs : s < T) :
    ∃ o, dualSlimSlice x core s = .ok o ∧ ∀ b < B, ∀ i < D, ∀ j < D, o.get [b, i, j] = inputEntry x core d b s i j := by
  obtain ⟨coreS, hS, hSs, hSg⟩ : ∃ coreS : Tensor (DualNumber K), siteCore core s = coreS ∧ coreS.shape = [d, D, D] ∧ ∀ k i j, coreS.get [k, i, j] = coreEntry core s k i j := by
    rcases hc with hc | hc
    · refine ⟨core, by simp only [siteCore, hc], hc, ?_⟩
      intro k i j; simp [coreEntry, hc]
    · refine ⟨_, rfl, by simp only [siteCore, hc], ?_⟩
      intro k i j; simp [siteCore, coreEntry, hc]
  unfold dualSlimSlice
  simp only [hS]
  cases x with
  | ints t =>
    obtain ⟨ht, hv⟩ := hx
    simp only [SeqInput.shape, ht, hSs]
    rw [if_pos (by
      intro b hb
      rw [resolveIdx_nat _ _ (hv b hb s hs).1 (hv b hb s hs).2]; rfl)]
    simp only [bind, Except.bind, pure, Except.pure]
    rw [if_pos (by rfl)]
    refine ⟨_, rfl, fun b hb i hi j hj => ?_⟩
    simp only
    rw [resolveIdx_nat _ _ (hv b hb s hs).1 (hv b hb s hs).2]
    exact hSg _ i j
  | floats t =>
    have ht : t.shape = [B, T, d] := hx
    simp only [SeqInput.shape, ht, hSs]
    obtain ⟨o, h1, h2, h3⟩ := einsum_bi_ide (siteVecs t B d s) coreS B d D D rfl hSs
    rw [h1]
    simp only [bind, Except.bind, pure, Except.pure]
    rw [if_pos (by rfl)]
    refine ⟨o, rfl, fun b hb i hi j hj => ?_⟩
    rw [h3 b hb i hi j hj]
    simp only [inputEntry]
    refine Finset.sum_congr rfl fun k _ => ?_
    rw [hSg k i j]; rfl

/-! ### Curves -/

theorem coreEntry_follows {core : ℝ → Tensor K} {dcore : Tensor (DualNumber K)} {t₀ : ℝ} {n d D : ℕ} (h : TensorFollows core dcore t₀) (hc : CoreShape dcore n d D)
    (s k i j : ℕ) (hs : s < n) (hk : k < d) (hi : i < D) (hj : j < D) : Follows (fun t => coreEntry (core t) s k i j) (coreEntry dcore s k i j) t₀ := by
  unfold coreEntry
  simp only [h.1]
  rcases hc with hc | hc
  · rw [hc]
    exact h.2 [k, i, j] (by simp [hc, hk, hi, hj])
  · rw [hc]
    exact h.2 [s, k, i, j] (by simp [hc, hs, hk, hi, hj])

theorem inputEntry_follows {x : ℝ → SeqInput K} {dx : SeqInput (DualNumber K)} {core : ℝ → Tensor K} {dcore : Tensor (DualNumber K)} {t₀ : ℝ} {B n d D : ℕ}
    (hx : InputFollows x dx t₀) (hv : ValidInput dx B n d) (h : TensorFollows core dcore t₀) (hc : CoreShape dcore n d D) (b s i j : ℕ) (hb : b < B) (hs : s < n)
    (hi : i < D) (hj : j < D) : Follows (fun t => inputEntry (x t) (core t) d b s i j) (inputEntry dx dcore d b s i j) t₀ := by
  cases dx with
  | ints t =>
    have hx : ∀ s, x s = .ints t := hx
    simp only [hx, inputEntry]
    have := hv.2 b hb s hs
    exact coreEntry_follows h hc _ _ _ _ hs (by omega) hi hj
  | floats v =>
    obtain ⟨g, hg, hgf⟩ := hx
    simp only [hg, inputEntry]
    have hvs : v.shape = [B, n, d] := hv
    refine Spec.Follows.sum _ fun k hk => ?_
    have hk := Finset.mem_range.1 hk
    exact (hgf.2 [b, s, k] (by simp [hvs, hb, hs, hk])).mul (coreEntry_follows h hc _ _ _ _ hs hk hi hj)

theorem valid_of_follows {x : ℝ → SeqInput K} {dx : SeqInput (DualNumber K)} {t₀ : ℝ} {B n d : ℕ} (hx : InputFollows x dx t₀) (hv : ValidInput dx B n d) (t : ℝ) :
    ValidInput (x t) B n d := by
  cases dx with
  | ints v =>
    have hx : ∀ s, x s = .ints v := hx
    rw [hx]
    exact hv
  | floats v =>
    obtain ⟨g, hg, hgf⟩ := hx
    rw [hg]
    exact (hgf.1 t).trans hv

theorem optShape_of_follows {f : ℝ → Option (Tensor K)} {b : Option (Tensor (DualNumber K))} {t₀ : ℝ} (h : OptFollows f b t₀) (t : ℝ) :
    (f t).map Tensor.shape = b.map Tensor.shape := by
  cases b with
  | none => rw [h t]; rfl
  | some b =>
    obtain ⟨g, hg, hb⟩ := h
    rw [hg t]
    simp [hb.1 t]

theorem Spec.ModelFollows.valid {m : ℝ → ProbMPS K} {dm : ProbMPS (DualNumber K)} {t₀ : ℝ} {n d D : ℕ} (h : ModelFollows m dm t₀) (hv : ValidModel dm n d D) (t : ℝ) :
    ValidModel (m t) n d D where
  core := by rw [h.core.1 t, h.uniform t]; exact hv.core
  edge := by rw [h.edge.1 t]; exact hv.edge
  bias := by
    intro b hb
    have := optShape_of_follows h.bias t
    rw [Option.mem_def.1 hb] at this
    cases hd : dm.bias with
    | none => rw [hd] at this; simp at this
    | some c =>
      rw [hd] at this
      simp only [Option.map_some, Option.some.injEq] at this
      rw [this]
      exact hv.bias c (by rw [hd]; rfl)
  pos := hv.pos

theorem dualCoreShape {m : ProbMPS (DualNumber K)} {n d D : ℕ} (h : ValidModel m n d D) : CoreShape m.core n d D := by
  have := h.core
  unfold CoreShape
  cases hu : m.uniform
  · right; rw [hu] at this; simpa using this
  · left; rw [hu] at this; simpa using this

/-- adding the bias -/
theorem addBias_follows {f : ℝ → Tensor K} {df : Tensor (DualNumber K)} {b : ℝ → Option (Tensor K)} {db : Option (Tensor (DualNumber K))} {t₀ : ℝ} {D : ℕ} {pre : Shape}
    (h : TensorFollows f df t₀) (hs : df.shape = pre ++ [D, D]) (hb : OptFollows b db t₀) (hbs : ∀ c ∈ db, c.shape = [D, D]) :
    TensorFollows (fun t => addBias (f t) (b t)) (addBias df db) t₀ := by
  cases db with
  | none =>
    have hb : ∀ t, b t = none := hb
    simp only [hb, addBias]
    exact h
  | some db =>
    obtain ⟨g, hg, hgf⟩ := hb
    simp only [hg, addBias]
    refine ⟨fun t => h.1 t, fun idx hidx => ?_⟩
    have hidx : InRange idx df.shape := hidx
    have hn : ∀ t, (f t).ndim = df.ndim := fun t => by unfold Tensor.ndim; rw [h.1 t]
    simp only [hn]
    refine (h.2 idx hidx).add (hgf.2 _ ?_)
    rw [hbs db rfl]
    have e : df.ndim - 2 = pre.length := by unfold Tensor.ndim; rw [hs]; simp
    rw [e]
    rw [hs] at hidx
    exact List.forall₂_drop_append _ _ _ hidx

theorem rowOf_follows {f : ℝ → Tensor K} {df : Tensor (DualNumber K)} {t₀ : ℝ} {D : ℕ} (h : TensorFollows f df t₀) (hs : df.shape = [2, D]) (i : ℕ) (hi : i < 2) :
    TensorFollows (fun t => rowOf (f t) i) (rowOf df i) t₀ := by
  refine ⟨fun t => by simp [rowOf, h.1 t], fun idx hidx => ?_⟩
  refine h.2 (i :: idx) ?_
  rw [hs, inRange_cons]
  refine ⟨hi, ?_⟩
  simpa [rowOf, hs] using hidx

/-! ### The chain of factors -/

theorem chain_stack {R : Type} [CommSemiring R] (t l r : Tensor R) (B T D : ℕ) (ht : t.shape = [B, T, D, D]) (hl : l.shape = [D]) (hr : r.shape = [D]) (b : ℕ)
    (c : List ℕ) :
    chainAt (.single t) (some l) (some r) c = rowMat (fun i : Fin D => l.get [i]) :: ((List.range T).map (fun s => Mat.of D D (fun i j => t.get (sourceIndex [B] c ++ [s, i, j]))) ++
      [colMat (fun i : Fin D => r.get [i])]) ∧ (b < B → c = [b] → sourceIndex [B] c = [b]) := by
  have hbt : batchShape t 3 = [B] := by simp [batchShape, Tensor.ndim, ht]
  have hnt : nonBatchShape t 3 = [T, D, D] := by simp [nonBatchShape, Tensor.ndim, ht]
  have hbl : batchShape l 1 = [] := by simp [batchShape, Tensor.ndim, hl]
  have hbr : batchShape r 1 = [] := by simp [batchShape, Tensor.ndim, hr]
  have hrow : rowAt l c = rowMat (fun i : Fin D => l.get [i]) := by
    unfold rowAt rowMat
    rw [hbl, hl]
    exact mat_of_eq_ofMatrix _ _ (fun i j => by simp [sourceIndex]; rfl)
  have hcol : colAt r c = colMat (fun i : Fin D => r.get [i]) := by
    unfold colAt colMat
    rw [hbr, hr]
    exact mat_of_eq_ofMatrix _ _ (fun i j => by simp [sourceIndex]; rfl)
  refine ⟨by simp only [chainAt, Option.map_some, Option.toList_some, hrow, hcol, matsAt, hnt, hbt]; rfl, ?_⟩
  rintro hb rfl
  have : (if B = 1 then 0 else b) = b := by split <;> omega
  simp [sourceIndex, this]

theorem chainOK_stack {R : Type} [CommSemiring R] {D : ℕ} (r : Fin D → R) (L : List (Mat R)) : ∀ (x : Mat R), x.c = D → (∀ y ∈ L, y.r = D ∧ y.c = D) → ChainOK (x :: (L ++ [colMat r])) := by
  induction L with
  | nil => intro x hx _; exact ⟨hx, trivial⟩
  | cons y L ih =>
    intro x hx h
    exact ⟨hx.trans (h y (by simp)).1.symm, ih y (h y (by simp)).2 (fun z hz => h z (by simp [hz]))⟩

theorem prodEntry_amplitude {R : Type} [CommSemiring R] {D : ℕ} (l r : Fin D → R) (Ms : List (Matrix (Fin D) (Fin D) R)) :
    prodEntry (rowMat l :: (Ms.map ofMatrix ++ [colMat r])) 0 0 = amplitude l r Ms := by
  rw [← matProd_amplitude]
  show (matProd (rowMat l) (Ms.map ofMatrix ++ [colMat r])).e 0 0 = _
  rw [matProd_append]
  rfl

theorem follows_psi_matrix (m : ProbMPS K) (x : SeqInput K) (n d D b : ℕ) (o : Tensor K) (B : ℕ) (hs : o.shape = [B, n, D, D]) (hm : ValidModel m n d D) (hb : b < B)
    (ho : ∀ s < n, ∀ i < D, ∀ j < D, o.get [b, s, i, j] = inputEntry x m.core d b s i j) :
    prodEntry (chainAt (.single (addBias o m.bias)) (some (rowOf m.edge 0)) (some (rowOf m.edge 1)) [b]) 0 0 = psi m x n d D b := by
  obtain ⟨h1, h2⟩ := chain_stack (addBias o m.bias) (rowOf m.edge 0) (rowOf m.edge 1) B n D (by rw [addBias_shape, hs]) (by simp [rowOf, hm.edge])
    (by simp [rowOf, hm.edge]) b [b]
  rw [h1, h2 hb rfl]
  unfold psi
  rw [← prodEntry_amplitude, transMats, List.map_map]
  have : ((List.range n).map fun s => Mat.of D D fun i j => (addBias o m.bias).get ([b] ++ [s, i, j])) =
      (List.range n).map (ofMatrix ∘ fun s => inputMat x m.core d D b s + biasMat m D) := by
    refine List.map_congr_left fun s hs' => ?_
    have hs' := List.mem_range.1 hs'
    refine mat_of_eq_ofMatrix _ _ (fun i j => ?_)
    have hij := ho s hs' i i.2 j j.2
    show _ = (inputMat x m.core d D b s + biasMat m D) i j
    rw [Matrix.add_apply, inputMat_entry]
    cases hbias : m.bias with
    | none => simp [addBias, biasMat, hbias, hij]
    | some bt => simp [addBias, biasMat, hbias, hij, Tensor.ndim, hs]
  rw [this]
  rfl

/-! ### `slim_eval_fun` -/

theorem slimFold_none {R S : Type} (D : ℕ) (ops : Arith R S) (ms : List (Mat R)) : ms.foldl (ops.slimStep D) none = none := by
  induction ms with
  | nil => rfl
  | cons m ms ih => exact ih

theorem slimFold_exact {R S : Type} [CommSemiring R] [Zero S] {ops : Arith R S} {ex sc : S → R} (h : ExactArith ops ex sc) (D : ℕ) (ms : List (Mat R)) :
    ∀ (p : Mat R) (l : S) (P : Mat R) (l' : S), ms.foldl (ops.slimStep D) (some (p, l)) = some (P, l') → P.smul (ex l') = (matProd p ms).smul (ex l) := by
  induction ms with
  | nil =>
    intro p l P l' he
    simp only [List.foldl_nil, Option.some.injEq, Prod.mk.injEq] at he
    obtain ⟨rfl, rfl⟩ := he
    rfl
  | cons m ms ih =>
    intro p l P l' he
    rw [List.foldl_cons] at he
    simp only [Arith.slimStep] at he
    split at he
    · rw [slimFold_none] at he; cases he
    · rename_i hz
      have := ih _ _ _ _ he
      rw [this, h.logAdd _ _ (by
        intro r hr
        rw [List.mem_singleton] at hr
        exact hr ▸ ⟨hz, _, _, Nat.cast_nonneg D, rfl⟩), List.map_cons, List.map_nil, List.prod_singleton, matProd_cons, ← h.mm,
        ← Mat.smul_smul _ (ex l), ← matProd_smul, h.div _ _ hz]

/-- the fold only fails when the values of the product vanish -/
theorem slimFold_fails (dAbs : Mat (DualNumber K) → ℝ) (D : ℕ) (hD : D ≠ 0) (ms : List (Mat (DualNumber K))) : ∀ (p : Mat (DualNumber K)) (l : DualNumber ℝ),
    ms.foldl ((dualOps dAbs).slimStep D) (some (p, l)) = none → IsZero (matProd p ms).primal := by
  induction ms with
  | nil => intro p l h; cases h
  | cons m ms ih =>
    intro p l h
    rw [List.foldl_cons] at h
    simp only [Arith.slimStep] at h
    split at h
    · rename_i hz
      have hz : (p.mul m).primal.absSum / (D : ℝ) = 0 := hz
      have hD' : (D : ℝ) ≠ 0 := by exact_mod_cast hD
      have hz := (Mat.absSum_eq_zero_iff _).1 ((div_eq_zero_iff.1 hz).resolve_right hD')
      rw [matProd_cons, matProd_primal]
      exact hz.matProd _
    · rename_i hz
      have := ih _ _ h
      rw [matProd_cons]
      have e := (dualOps_exact dAbs).div ((dualOps dAbs).mm p m) _ hz
      rw [show p.mul m = (dualOps dAbs).mm p m from rfl, ← e, matProd_smul]
      intro i hi j hj
      have := this i hi j hj
      show ((_ : DualNumber K) * _).fst = 0
      rw [TrivSqZeroExt.fst_mul]
      have this : ((matProd ((dualOps dAbs).div ((dualOps dAbs).mm p m) ((dualOps dAbs).scale (D : ℝ) ((dualOps dAbs).mm p m))) ms).e i j).fst = 0 := this
      rw [this, mul_zero]

theorem dualSlim_checks (dAbs : Mat (DualNumber K) → ℝ) (x : SeqInput (DualNumber K)) (core bound : Tensor (DualNumber K)) (B T d D : ℕ)
    (hx : ValidInput x B T d) (hc : CoreShape core T d D) (hb : bound.shape = [2, D]) :
    dualSlimEval dAbs x core bound = (do
      let mats ← (List.range T).mapM (dualSlimSlice x core)
      assert (0 < T ∨ B = 1)
      return ⟨⟨[B], fun idx => (dualSlimValue dAbs mats bound D (idx.getD 0 0)).map Prod.fst⟩,
        ⟨[B], fun idx => (dualSlimValue dAbs mats bound D (idx.getD 0 0)).map Prod.snd⟩⟩) := by
  unfold dualSlimEval
  cases x with
  | ints t =>
    obtain ⟨ht, -⟩ := hx
    rcases hc with hc | hc <;>
      simp [SeqInput.shape, ht, hc, hb, Tensor.ndim, assert, bind, Except.bind, pure, Except.pure]
  | floats t =>
    have ht : t.shape = [B, T, d] := hx
    rcases hc with hc | hc <;>
      simp [SeqInput.shape, ht, hc, hb, Tensor.ndim, assert, bind, Except.bind, pure, Except.pure]

/-- the factors of the slim evaluation, over any ring -/
def slimChain {R : Type} [CommSemiring R] (x : SeqInput R) (core bound : Tensor R) (T d D b : ℕ) : List (Mat R) :=
  (List.range T).map (fun s => Mat.of D D (fun i j => inputEntry x core d b s i j)) ++ [Mat.of D 1 (fun i _ => bound.get [1, i])]

theorem dualSlim_val (dAbs : Mat (DualNumber K) → ℝ) (x : SeqInput (DualNumber K)) (core bound : Tensor (DualNumber K)) (B T d D : ℕ)
    (hx : ValidInput x B T d) (hc : CoreShape core T d D) (hb : bound.shape = [2, D]) (hT : 0 < T ∨ B = 1) :
    ∃ out, dualSlimEval dAbs x core bound = .ok out ∧ out.product.shape = [B] ∧ out.logScale.shape = [B] ∧
      ∀ b < B, ∃ val : Option (DualNumber K × DualNumber ℝ), out.product.get [b] = val.map Prod.fst ∧ out.logScale.get [b] = val.map Prod.snd ∧
        val = (((List.range T).map (fun s => Mat.of D D (fun i j => inputEntry x core d b s i j))).foldl ((dualOps dAbs).slimStep D)
          (some (Mat.of 1 D (fun _ i => bound.get [0, i]), 0))).map (fun p => ((p.1.mul (Mat.of D 1 (fun i _ => bound.get [1, i]))).e 0 0, p.2)) := by
  obtain ⟨mats, hm1, hm2⟩ := mapM_except_ok (dualSlimSlice x core) (List.range T)
    (fun s (m : Tensor (DualNumber K)) => ∀ b < B, ∀ i < D, ∀ j < D, m.get [b, i, j] = inputEntry x core d b s i j)
    (fun s hs => dualSlimSlice_ok x core B T d D s hx hc (List.mem_range.1 hs))
  have hmats : ∀ b < B, mats.map (fun m => Mat.of D D (fun i j => m.get [b, i, j])) = (List.range T).map (fun s => Mat.of D D (fun i j => inputEntry x core d b s i j)) := by
    intro b hb'
    clear hm1
    generalize List.range T = L at hm2
    induction hm2 with
    | nil => rfl
    | cons h _ ih =>
      simp only [List.map_cons, ih]
      congr 1
      unfold Mat.of
      congr 1
      funext i j
      split
      · rename_i hij
        exact h b hb' i hij.1 j hij.2
      · rfl
  rw [dualSlim_checks dAbs x core bound B T d D hx hc hb, hm1]
  simp only [bind, Except.bind, pure, Except.pure]
  rw [assert_true _ hT]
  refine ⟨_, rfl, rfl, rfl, ?_⟩
  intro b hbB
  refine ⟨_, rfl, rfl, ?_⟩
  simp only [List.getD_cons_zero, dualSlimValue]
  rw [hmats b hbB]

theorem slimChain_psi (m : ProbMPS K) (x : SeqInput K) (n d D b : ℕ) (hbias : m.bias = none) :
    prodEntry (Mat.of 1 D (fun _ i => m.edge.get [0, i]) :: slimChain x m.core m.edge n d D b) 0 0 = psi m x n d D b := by
  unfold psi slimChain
  rw [← prodEntry_amplitude, transMats, List.map_map]
  have h1 : Mat.of 1 D (fun _ i => m.edge.get [0, i]) = rowMat (boundVec m.edge D 0) := by
    unfold Mat.of rowMat ofMatrix boundVec
    congr 1
  have h2 : Mat.of D 1 (fun i _ => m.edge.get [1, i]) = colMat (boundVec m.edge D 1) := by
    unfold Mat.of colMat ofMatrix boundVec
    congr 1
  rw [h1, h2]
  congr 3
  refine List.map_congr_left fun s _ => ?_
  refine mat_of_eq_ofMatrix _ _ (fun i j => ?_)
  show _ = (inputMat x m.core d D b s + biasMat m D) i j
  rw [Matrix.add_apply, inputMat_entry]
  simp [biasMat, hbias]

/-- amplitudes and their derivatives -/
theorem dualEvalPsi_spec (dAbs : Mat (DualNumber K) → ℝ) (m : ℝ → ProbMPS K) (dm : ProbMPS (DualNumber K)) (x : ℝ → SeqInput K) (dx : SeqInput (DualNumber K)) (t₀ : ℝ)
    (n d D B : ℕ) (hn : n ≠ 0) (hmf : ModelFollows m dm t₀) (hxf : InputFollows x dx t₀) (hm : ValidModel dm n d D) (hx : ValidInput dx B n d) (slim par : Bool)
    (hs : SlimOK dm slim B n) (hψ : ∀ b < B, psi (m t₀) (x t₀) n d D b ≠ 0) :
    ∃ out, dualEvalPsi dAbs dm dx slim par = .ok out ∧ out.product.shape = [B] ∧ out.logScale.shape = [B] ∧
      ∀ b < B, ∃ p l, out.product.get [b] = some p ∧ out.logScale.get [b] = some l ∧ Follows (fun t => psi (m t) (x t) n d D b) (dualExpMul l p) t₀ := by
  have hcore := dualCoreShape hm
  have hedge : ∀ k < 2, ∀ i < D, Follows (fun t => (m t).edge.get [k, i]) (dm.edge.get [k, i]) t₀ := fun k hk i hi => hmf.edge.2 [k, i] (by simp [hm.edge, hk, hi])
  have hent : ∀ b < B, ∀ s < n, ∀ i < D, ∀ j < D, Follows (fun t => inputEntry (x t) (m t).core d b s i j) (inputEntry dx dm.core d b s i j) t₀ :=
    fun b hb s hs i hi j hj => inputEntry_follows hxf hx hmf.core hcore b s i j hb hs hi hj
  cases slim with
  | true =>
    obtain ⟨hbias, hT⟩ := hs rfl
    have hbias' : ∀ t, (m t).bias = none := by
      have := hmf.bias
      rw [hbias] at this
      exact this
    obtain ⟨out, h1, h2, h3, h4⟩ := dualSlim_val dAbs dx dm.core dm.edge B n d D hx hcore hm.edge hT
    refine ⟨out, by simp [dualEvalPsi, hbias, h1], h2, h3, fun b hb => ?_⟩
    obtain ⟨val, k1, k2, k3⟩ := h4 b hb
    -- the curves of the factors
    let fr : ℝ → Mat K := fun t => Mat.of 1 D (fun _ i => (m t).edge.get [0, i])
    let fs : List (ℝ → Mat K) := (List.range n).map (fun s t => Mat.of D D (fun i j => inputEntry (x t) (m t).core d b s i j))
    let fc : ℝ → Mat K := fun t => Mat.of D 1 (fun i _ => (m t).edge.get [1, i])
    have hall : List.Forall₂ (fun f A => MatJet f A t₀) (fr :: (fs ++ [fc])) (Mat.of 1 D (fun _ i => dm.edge.get [0, i]) :: slimChain dx dm.core dm.edge n d D b) := by
      refine List.Forall₂.cons (matJet_of _ _ _ _ _ fun _ _ i hi => hedge 0 (by omega) i hi) ?_
      refine List.rel_append ?_ (List.Forall₂.cons (matJet_of _ _ _ _ _ fun i hi _ _ => hedge 1 (by omega) i hi) List.Forall₂.nil)
      show List.Forall₂ _ ((List.range n).map _) _
      rw [List.forall₂_map_left_iff, List.forall₂_map_right_iff, List.forall₂_same]
      intro s hs
      exact matJet_of _ _ _ _ _ fun i hi j hj => hent b hb s (List.mem_range.1 hs) i hi j hj
    have hchain : ChainOK (Mat.of 1 D (fun _ i => dm.edge.get [0, i]) :: slimChain dx dm.core dm.edge n d D b) := by
      have e : Mat.of D 1 (fun i _ => dm.edge.get [1, i]) = colMat (boundVec dm.edge D 1) := by
        unfold Mat.of colMat ofMatrix boundVec
        congr 1
      unfold slimChain
      rw [e]
      refine chainOK_stack _ _ _ rfl ?_
      intro y hy
      simp only [List.mem_map] at hy
      obtain ⟨k, -, rfl⟩ := hy
      exact ⟨rfl, rfl⟩
    have hdims : (matProd (Mat.of 1 D (fun _ i => dm.edge.get [0, i])) (slimChain dx dm.core dm.edge n d D b)).r = 1 ∧
        (matProd (Mat.of 1 D (fun _ i => dm.edge.get [0, i])) (slimChain dx dm.core dm.edge n d D b)).c = 1 := by
      refine ⟨matProd_r _ _, ?_⟩
      unfold slimChain
      rw [matProd_append]
      rfl
    have hfol := chain_follows hall hchain 0 0 (by rw [hdims.1]; norm_num) (by rw [hdims.2]; norm_num)
    have hfun : (fun t => prodEntry ((fr :: (fs ++ [fc])).map (· t)) 0 0) = fun t => psi (m t) (x t) n d D b := by
      funext t
      rw [← slimChain_psi (m t) (x t) n d D b (hbias' t)]
      simp only [List.map_cons, List.map_append, List.map_nil, fs, List.map_map]
      rfl
    rw [hfun] at hfol
    have hsplit : matProd (Mat.of 1 D (fun _ i => dm.edge.get [0, i])) (slimChain dx dm.core dm.edge n d D b) =
        (matProd (Mat.of 1 D (fun _ i => dm.edge.get [0, i])) ((List.range n).map (fun s => Mat.of D D (fun i j => inputEntry dx dm.core d b s i j)))).mul
          (Mat.of D 1 (fun i _ => dm.edge.get [1, i])) := by
      unfold slimChain
      rw [matProd_append]
      rfl
    cases hf : ((List.range n).map (fun s => Mat.of D D (fun i j => inputEntry dx dm.core d b s i j))).foldl ((dualOps dAbs).slimStep D)
          (some (Mat.of 1 D (fun _ i => dm.edge.get [0, i]), 0)) with
    | none =>
      exfalso
      have hz := slimFold_fails dAbs D hm.pos _ _ _ hf
      refine hψ b hb ?_
      have e0 : psi (m t₀) (x t₀) n d D b = _ := hfol.1
      rw [e0, hsplit]
      have : ((matProd (Mat.of 1 D (fun _ i => dm.edge.get [0, i])) ((List.range n).map (fun s => Mat.of D D (fun i j => inputEntry dx dm.core d b s i j)))).mul
          (Mat.of D 1 (fun i _ => dm.edge.get [1, i]))).primal.e 0 0 = 0 := by
        rw [mul_primal]
        refine hz.mul_left _ 0 ?_ 0 ?_
        · show 0 < (matProd (Mat.of 1 D (fun _ i => dm.edge.get [0, i])) ((List.range n).map (fun s => Mat.of D D (fun i j => inputEntry dx dm.core d b s i j)))).r
          rw [matProd_r]
          exact Nat.one_pos
        · exact Nat.one_pos
      exact this
    | some q =>
      obtain ⟨P, l⟩ := q
      rw [hf] at k3
      refine ⟨(P.mul (Mat.of D 1 (fun i _ => dm.edge.get [1, i]))).e 0 0, l, by rw [k1, k3]; rfl, by rw [k2, k3]; rfl, ?_⟩
      have he := slimFold_exact (dualOps_exact dAbs) D _ _ _ _ _ hf
      rw [(dualOps_exact (K := K) dAbs).zero, one_smul_mat] at he
      rw [← dualExp_mul]
      rw [hsplit, ← he, Mat.smul_mul] at hfol
      exact hfol
  | false =>
    obtain ⟨o, h1, h2, h3⟩ := dualSlices_ok dx dm.core B n d D hx hcore
    have hsl : ∀ t, ∃ g, getMatSlices (x t) (m t).core = .ok g ∧ g.shape = [B, n, D, D] ∧ ∀ b < B, ∀ s < n, ∀ i < D, ∀ j < D, g.get [b, s, i, j] =
        inputEntry (x t) (m t).core d b s i j := by
      intro t
      obtain ⟨g, g1, g2, g3⟩ := getMatSlices_ok (x t) (m t).core B n d D (valid_of_follows hxf hx t) (hmf.valid hm t).coreShape
      refine ⟨g, g1, g2, fun b hb s hs i hi j hj => ?_⟩
      rw [g3 b hb s hs ⟨i, hi⟩ ⟨j, hj⟩, inputMat_entry]
    choose g g1 g2 g3 using hsl
    have hg : TensorFollows g o t₀ := by
      refine ⟨fun t => (g2 t).trans h2.symm, fun idx hidx => ?_⟩
      rw [h2] at hidx
      obtain _ | ⟨b, _ | ⟨s, _ | ⟨i, _ | ⟨j, _ | ⟨k, l⟩⟩⟩⟩⟩ := idx <;> simp at hidx
      obtain ⟨hb, hs, hi, hj⟩ := hidx
      simp only [fun t => g3 t b hb s hs i hi j hj, h3 b hb s hs i hi j hj]
      exact hent b hb s hs i hi j hj
    have hgb := addBias_follows hg (pre := [B, n]) h2 hmf.bias hm.bias
    have hos : (addBias o dm.bias).shape = [B, n, D, D] := by cases dm.bias <;> exact h2
    have hl : OptFollows (fun t => some (rowOf (m t).edge 0)) (some (rowOf dm.edge 0)) t₀ := ⟨_, fun t => rfl, rowOf_follows hmf.edge hm.edge 0 (by omega)⟩
    have hr : OptFollows (fun t => some (rowOf (m t).edge 1)) (some (rowOf dm.edge 1)) t₀ := ⟨_, fun t => rfl, rowOf_follows hmf.edge hm.edge 1 (by omega)⟩
    have hls : ∀ k, (rowOf dm.edge k).shape = [D] := fun k => by simp [rowOf, hm.edge]
    have hbt : batchShape (addBias o dm.bias) 3 = [B] := by simp [batchShape, Tensor.ndim, hos]
    have hbl : ∀ k, batchShape (rowOf dm.edge k) 1 = [] := fun k => by simp [batchShape, Tensor.ndim, hls k]
    have hnt : nonBatchShape (addBias o dm.bias) 3 = [n, D, D] := by simp [nonBatchShape, Tensor.ndim, hos]
    have hw : WellRanked (.single (addBias o dm.bias)) (some (rowOf dm.edge 0)) (some (rowOf dm.edge 1)) := by
      simp [WellRanked, Tensor.ndim, hos, hls]
    have hBr : IsBroadcast (batchShapes (.single (addBias o dm.bias)) (some (rowOf dm.edge 0)) (some (rowOf dm.edge 1))) [B] := by
      simp only [batchShapes, hbt, hbl, Option.toList_some, List.map_cons, List.map_nil, List.cons_append, List.nil_append]
      refine ⟨by simp, ⟨[B], by simp, rfl⟩, ?_, fun i => ⟨[B], by simp, rfl⟩⟩
      intro i s hs
      simp only [List.mem_cons, List.not_mem_nil, or_false] at hs
      rcases hs with rfl | rfl | rfl
      · exact Or.inr rfl
      · left; simp [sizeAt]
      · left; simp [sizeAt]
    obtain ⟨c1, -⟩ := chain_stack (addBias o dm.bias) (rowOf dm.edge 0) (rowOf dm.edge 1) B n D hos (hls 0) (hls 1) 0 []
    have hne : matsAt (.single (addBias o dm.bias)) [] ≠ [] := by
      rw [matsAt_single _ hnt]
      simpa using hn
    obtain ⟨out, out₀, e1, e2, e3, e4, e5, e6, e7⟩ := C84_contract dAbs t₀ (fun t => .single (addBias (g t) (m t).bias)) (fun t => some (rowOf (m t).edge 0))
      (fun t => some (rowOf (m t).edge 1)) (.single (addBias o dm.bias)) (some (rowOf dm.edge 0)) (some (rowOf dm.edge 1)) par [B]
      ⟨_, fun t => rfl, hgb⟩ hl hr hw hBr _ _ c1 (chainOK_stack _ _ _ rfl (by
        intro y hy
        simp only [List.mem_map] at hy
        obtain ⟨k, -, rfl⟩ := hy
        exact ⟨rfl, rfl⟩)) hne
    refine ⟨out, by simp [dualEvalPsi, h1, e1, bind, Except.bind], by simpa using e3, by simpa using e4, fun b hb => ?_⟩
    have := e7 [b] (by simp [hb]) 0 (by simp [rowMat, ofMatrix]) 0 (by simp [colMat, ofMatrix])
    simp only [outIndex, Option.isNone_some, Bool.false_eq_true, if_false, List.append_nil] at this
    obtain ⟨q1, q2, q3⟩ := this
    -- the values are not NaN
    obtain ⟨out', p1, -, -, p4⟩ := evalPsi_spec (m t₀) n d D (hmf.valid hm t₀) (x t₀) B (valid_of_follows hxf hx t₀) false par (by simp [SlimOK])
    have : out' = out₀ := by
      simp only [ProbMPS.evalPsi, Bool.false_eq_true, if_false, g1, bind, Except.bind] at p1
      rw [e2] at p1
      exact (Except.ok.inj p1).symm
    subst this
    obtain ⟨val, v1, v2, v3, -⟩ := p4 b hb
    have hval : val ≠ none := fun h => hψ b hb (psi_of_not_accepts (m t₀) (x t₀) n d D false par b (v3.1 h))
    obtain ⟨⟨c, s⟩, rfl⟩ := Option.ne_none_iff_exists'.1 hval
    rw [v1] at q1
    cases hp : out.product.get [b] with
    | none => rw [hp] at q1; simp at q1
    | some p =>
      cases hq : out.logScale.get [b] with
      | none => rw [hp, hq] at q3; exact absurd q3 (by simp)
      | some l =>
        rw [hp, hq] at q3
        refine ⟨p, l, rfl, rfl, ?_⟩
        simp only at q3
        have : (fun t => prodEntry (chainAt (.single (addBias (g t) (m t).bias)) (some (rowOf (m t).edge 0)) (some (rowOf (m t).edge 1)) [b]) 0 0) =
            fun t => psi (m t) (x t) n d D b := by
          funext t
          exact follows_psi_matrix (m t) (x t) n d D b (g t) B (g2 t) (hmf.valid hm t) hb (fun s hs i hi j hj => g3 t b hb s hs i hi j hj)
        rw [this] at q3
        exact q3

end TorchMPS
