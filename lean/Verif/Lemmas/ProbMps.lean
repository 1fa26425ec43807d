import Verif.Spec.ProbMps
import Verif.Props.Slim
import Verif.Props.LogNorm
import Verif.Props.Contract
/-
Evaluation of probabilistic MPS.
-/
namespace TorchMPS
open Spec
variable {K : Type}

theorem matProd_ofMatrix [CommSemiring K] {D : ℕ} (A : Matrix (Fin D) (Fin D) K)
    (Ms : List (Matrix (Fin D) (Fin D) K)) :
    matProd (ofMatrix A) (Ms.map ofMatrix) = ofMatrix (A * Ms.prod) := by
  induction Ms generalizing A with
  | nil => simp [matProd]
  | cons B Ms ih => rw [List.map_cons, matProd_cons, ofMatrix_mul, ih, List.prod_cons, Matrix.mul_assoc]

theorem isZero_ofMatrix [Semiring K] {n m : ℕ} (A : Matrix (Fin n) (Fin m) K) : IsZero (ofMatrix A) ↔ A = 0 := by
  constructor
  · intro h
    ext i j
    have := h i i.2 j j.2
    simpa [ofMatrix] using this
  · rintro rfl i hi j hj
    simp [ofMatrix]

theorem mat_of_eq_ofMatrix [Zero K] {D E : ℕ} (f : ℕ → ℕ → K) (A : Matrix (Fin D) (Fin E) K)
    (h : ∀ (i : Fin D) (j : Fin E), f i j = A i j) : Mat.of D E f = ofMatrix A := by
  unfold Mat.of ofMatrix
  congr 1
  funext i j
  by_cases hij : i < D ∧ j < E
  · rw [if_pos hij, dif_pos hij]; exact h ⟨i, hij.1⟩ ⟨j, hij.2⟩
  · rw [if_neg hij, dif_neg hij]

/-- `contract_matseq` on a batch of sequences of square matrices with unbatched boundary vectors -/
theorem contract_stack [RCLike K] (t l r : Tensor K) (B T D : ℕ) (ht : t.shape = [B, T, D, D])
    (hl : l.shape = [D]) (hr : r.shape = [D]) (par : Bool)
    (M : ℕ → ℕ → Matrix (Fin D) (Fin D) K)
    (hM : ∀ b < B, ∀ s < T, ∀ i j : Fin D, t.get [b, s, i, j] = M b s i j) :
    ∃ out, contractMatseq (.single t) (some l) (some r) par = .ok out ∧ out.product.shape = [B] ∧
      out.logScale.shape = [B] ∧
      ∀ b < B, ∃ val : Option (K × ℝ), out.product.get [b] = val.map Prod.fst ∧
        out.logScale.get [b] = val.map Prod.snd ∧
        (val = none ↔ if par then 2 ≤ T ∧ ((List.range T).map (M b)).prod = 0
          else amplitude (fun i : Fin D => l.get [i]) (fun i => r.get [i]) ((List.range T).map (M b)) = 0) ∧
        ∀ c s, val = some (c, s) → c * (Real.exp s : K) =
          amplitude (fun i : Fin D => l.get [i]) (fun i => r.get [i]) ((List.range T).map (M b)) := by
  have hbt : batchShape t 3 = [B] := by simp [batchShape, Tensor.ndim, ht]
  have hnt : nonBatchShape t 3 = [T, D, D] := by simp [nonBatchShape, Tensor.ndim, ht]
  have hbl : batchShape l 1 = [] := by simp [batchShape, Tensor.ndim, hl]
  have hbr : batchShape r 1 = [] := by simp [batchShape, Tensor.ndim, hr]
  have hw : WellRanked (.single t) (some l) (some r) := by
    simp [WellRanked, Tensor.ndim, ht, hl, hr]
  have hBr : IsBroadcast (batchShapes (.single t) (some l) (some r)) [B] := by
    simp only [batchShapes, hbt, hbl, hbr, Option.toList_some, List.map_cons, List.map_nil, List.cons_append,
      List.nil_append]
    refine ⟨by simp, ⟨[B], by simp, rfl⟩, ?_, fun i => ⟨[B], by simp, rfl⟩⟩
    intro i s hs
    simp only [List.mem_cons, List.not_mem_nil, or_false] at hs
    rcases hs with rfl | rfl | rfl
    · exact Or.inr rfl
    · left; simp [sizeAt]
    · left; simp [sizeAt]
  have hmats : ∀ b, matsAt (.single t) b = (List.range T).map (fun k =>
      Mat.of D D (fun i j => t.get (sourceIndex [B] b ++ [k, i, j]))) := by
    intro b; simp only [matsAt, hnt, hbt]
  have hrow : ∀ b, rowAt l b = rowMat (fun i : Fin D => l.get [i]) := by
    intro b
    unfold rowAt rowMat
    rw [hbl, hl]
    exact mat_of_eq_ofMatrix _ _ (fun i j => by simp [sourceIndex]; rfl)
  have hcol : ∀ b, colAt r b = colMat (fun i : Fin D => r.get [i]) := by
    intro b
    unfold colAt colMat
    rw [hbr, hr]
    exact mat_of_eq_ofMatrix _ _ (fun i j => by simp [sourceIndex]; rfl)
  have hchainat : ∀ b, chainAt (.single t) (some l) (some r) b = rowMat (fun i : Fin D => l.get [i]) ::
      (matsAt (.single t) b ++ [colMat (fun i : Fin D => r.get [i])]) := by
    intro b; simp [chainAt, hrow, hcol]
  have hchain : ∀ b, ChainOK (rowMat (fun i : Fin D => l.get [i]) ::
      (matsAt (.single t) b ++ [colMat (fun i : Fin D => r.get [i])])) := by
    intro b
    rw [hmats]
    have : ∀ (L : List (Mat K)) (x : Mat K), x.c = D → (∀ y ∈ L, y.r = D ∧ y.c = D) →
        ChainOK (x :: (L ++ [colMat (fun i : Fin D => r.get [i])])) := by
      intro L
      induction L with
      | nil => intro x hx _; exact ⟨hx, trivial⟩
      | cons y L ih =>
        intro x hx h
        exact ⟨hx.trans (h y (by simp)).1.symm, ih y (h y (by simp)).2 (fun z hz => h z (by simp [hz]))⟩
    refine this _ _ rfl ?_
    intro y hy
    simp only [List.mem_map] at hy
    obtain ⟨k, -, rfl⟩ := hy
    exact ⟨rfl, rfl⟩
  have hempty : EmptyFits (.single t) (some l) (some r) := by
    simp [EmptyFits, hl, hr, ht]
  obtain ⟨out, h1, h2, h3, h4⟩ := contractMatseq_spec (.single t) (some l) (some r) par [B] hw hBr _ _
    (hchainat []) (hchain []) hempty
  refine ⟨out, h1, by simpa using h2, by simpa using h3, ?_⟩
  intro b hb
  obtain ⟨m, rest, val, k1, -, -, -, k5, k6, k7, -, k8, k9⟩ := h4 [b] (by simp [hb])
  have hmb : matsAt (.single t) [b] = ((List.range T).map (M b)).map ofMatrix := by
    rw [hmats, List.map_map]
    refine List.map_congr_left fun s hs => ?_
    refine mat_of_eq_ofMatrix _ _ (fun i j => ?_)
    have hsrc : sourceIndex [B] [b] = [b] := by
      have : (if B = 1 then 0 else b) = b := by split <;> omega
      simp [sourceIndex, this]
    rw [hsrc]
    exact hM b hb s (List.mem_range.1 hs) i j
  rw [hchainat] at k1
  simp only [List.cons.injEq] at k1
  obtain ⟨rfl, rfl⟩ := k1
  rw [hmb] at k7 k8 k9
  have hprod : matProd (rowMat (fun i : Fin D => l.get [i])) (((List.range T).map (M b)).map ofMatrix ++
      [colMat (fun i : Fin D => r.get [i])]) =
      (matProd (rowMat (fun i : Fin D => l.get [i])) (((List.range T).map (M b)).map ofMatrix)).mul
        (colMat (fun i : Fin D => r.get [i])) := by
    rw [matProd_append]; rfl
  rw [hprod] at k7 k9
  have hamp := matProd_amplitude (fun i : Fin D => l.get [i]) (fun i => r.get [i]) ((List.range T).map (M b))
  refine ⟨val.map (fun p => (p.1.e 0 0, p.2)), ?_, ?_, ?_, ?_⟩
  · rw [Option.map_map]
    have := k5 0 0 (fun _ => rfl) (fun _ => rfl)
    simp only [outIndex, Option.isNone_some, Bool.false_eq_true, if_false, List.append_nil] at this
    rw [this]; rfl
  · rw [Option.map_map]
    have := k6 0 0
    simp only [outIndex, Option.isNone_some, Bool.false_eq_true, if_false, List.append_nil] at this
    rw [this]; rfl
  · rw [Option.map_eq_none_iff]
    cases par with
    | true =>
      rw [if_pos rfl, k8 (by simp [UsesParallel])]
      constructor
      · rintro ⟨y, z, L, e1, e2⟩
        rcases hMs : (List.range T).map (M b) with _ | ⟨A, _ | ⟨A', As⟩⟩
        · rw [hMs] at e1; simp at e1
        · rw [hMs] at e1; simp at e1
        · rw [hMs] at e1
          simp only [List.map_cons, List.cons.injEq] at e1
          obtain ⟨rfl, rfl, rfl⟩ := e1
          refine ⟨?_, ?_⟩
          · have := congrArg List.length hMs
            simp at this; omega
          · rw [← List.map_cons, matProd_ofMatrix, isZero_ofMatrix] at e2
            exact e2
      · rintro ⟨hT, hz⟩
        rcases hMs : (List.range T).map (M b) with _ | ⟨A, _ | ⟨A', As⟩⟩
        · have := congrArg List.length hMs; simp at this; omega
        · have := congrArg List.length hMs; simp at this; omega
        · refine ⟨_, _, _, rfl, ?_⟩
          rw [← List.map_cons, matProd_ofMatrix, isZero_ofMatrix]
          rw [hMs] at hz; exact hz
    | false =>
      rw [if_neg (by simp), k9 (by simp [UsesParallel])]
      constructor
      · rintro ⟨-, hz⟩
        rw [← hamp]
        exact hz 0 (by simp [Mat.mul, matProd_rowMat, rowMat, ofMatrix]) 0 (by simp [Mat.mul, colMat, ofMatrix])
      · intro hz
        refine ⟨by simp, ?_⟩
        intro i hi j hj
        have hi0 : i = 0 := by
          rw [matProd_rowMat] at hi
          simpa [Mat.mul, rowMat, ofMatrix] using hi
        have hj0 : j = 0 := by simpa [Mat.mul, colMat, ofMatrix] using hj
        rw [hi0, hj0, hamp, hz]
  · intro c s hcs
    rw [Option.map_eq_some_iff] at hcs
    obtain ⟨⟨P, s'⟩, rfl, h⟩ := hcs
    simp only [Prod.mk.injEq] at h
    obtain ⟨rfl, rfl⟩ := h
    have := k7 P s' rfl
    rw [← hamp, ← this, mul_comm]
    rfl

theorem Spec.ValidModel.coreShape {m : ProbMPS K} {n d D : ℕ} (h : ValidModel m n d D) : CoreShape m.core n d D := by
  have := h.core
  unfold CoreShape
  cases hu : m.uniform
  · right; rw [hu] at this; simpa using this
  · left; rw [hu] at this; simpa using this

/-- `get_mat_slices` on valid inputs -/
theorem getMatSlices_ok [RCLike K] (x : SeqInput K) (core : Tensor K) (B T d D : ℕ)
    (hx : ValidInput x B T d) (hc : CoreShape core T d D) :
    ∃ o, getMatSlices x core = .ok o ∧ o.shape = [B, T, D, D] ∧
      ∀ b < B, ∀ s < T, ∀ i j : Fin D, o.get [b, s, i, j] = inputMat x core d D b s i j := by
  cases x with
  | ints t =>
    obtain ⟨ht, hv⟩ := hx
    rcases hc with hc | hc
    · obtain ⟨o, h1, h2, h3⟩ := C14_index_uniform t core B T d D D ht hc hv
      refine ⟨o, h1, h2, fun b hb s hs i j => ?_⟩
      rw [h3 b hb s hs i i.2 j j.2]
      simp [inputMat, coreMat, hc]
    · obtain ⟨o, h1, h2, h3⟩ := C14_index_sites t core B T d D D ht hc hv
      refine ⟨o, h1, h2, fun b hb s hs i j => ?_⟩
      rw [h3 b hb s hs i i.2 j j.2]
      simp [inputMat, coreMat, hc]
  | floats t =>
    have ht : t.shape = [B, T, d] := hx
    rcases hc with hc | hc
    · obtain ⟨o, h1, h2, h3⟩ := C14_vector_uniform t core B T d D D ht hc
      refine ⟨o, h1, h2, fun b hb s hs i j => ?_⟩
      rw [h3 b hb s hs i i.2 j j.2]
      simp [inputMat, featMat, coreMat, hc, Matrix.sum_apply]
    · obtain ⟨o, h1, h2, h3⟩ := C14_vector_sites t core B T d D D ht hc
      refine ⟨o, h1, h2, fun b hb s hs i j => ?_⟩
      rw [h3 b hb s hs i i.2 j j.2]
      simp [inputMat, featMat, coreMat, hc, Matrix.sum_apply]

theorem addBias_shape [Add K] (t : Tensor K) (b : Option (Tensor K)) : (addBias t b).shape = t.shape := by
  cases b <;> rfl

theorem evalPsi_spec [RCLike K] (m : ProbMPS K) (n d D : ℕ) (hm : ValidModel m n d D) (x : SeqInput K) (B : ℕ)
    (hx : ValidInput x B n d) (slim par : Bool) (hslim : SlimOK m slim B n) :
    ∃ out, m.evalPsi x slim par = .ok out ∧ out.product.shape = [B] ∧ out.logScale.shape = [B] ∧
      ∀ b < B, ∃ val : Option (K × ℝ), out.product.get [b] = val.map Prod.fst ∧
        out.logScale.get [b] = val.map Prod.snd ∧ (val = none ↔ ¬ Accepts m x n d D slim par b) ∧
        ∀ c s, val = some (c, s) → c * (Real.exp s : K) = psi m x n d D b := by
  cases slim with
  | true =>
    obtain ⟨hb, hT⟩ := hslim rfl
    obtain ⟨out, h1, h2, h3, h4⟩ := slimEvalFun_spec x m.core m.edge B n d D hx hm.coreShape hm.edge hT
    have htm : ∀ b, transMats m x n d D b = inputMats x m.core n d D b := by
      intro b; simp [transMats, inputMats, biasMat, hb]
    refine ⟨out, by simp [ProbMPS.evalPsi, hb, h1, bind, Except.bind, pure, Except.pure], h2, h3, ?_⟩
    intro b hbB
    obtain ⟨val, k1, k2, k3, k4⟩ := h4 b hbB
    refine ⟨val, k1, k2, ?_, ?_⟩
    · rw [k3 hm.pos, Accepts, if_pos rfl, htm]
      push Not
      rfl
    · intro c s h
      rw [k4 c s h hm.pos, psi, htm]
  | false =>
    obtain ⟨o, h1, h2, h3⟩ := getMatSlices_ok x m.core B n d D hx hm.coreShape
    have hs : (addBias o m.bias).shape = [B, n, D, D] := by rw [addBias_shape, h2]
    have hget : ∀ b < B, ∀ s < n, ∀ i j : Fin D, (addBias o m.bias).get [b, s, i, j] =
        (inputMat x m.core d D b s + biasMat m D) i j := by
      intro b hb s hs i j
      cases hbias : m.bias with
      | none => simp [addBias, biasMat, hbias, h3 b hb s hs i j]
      | some bt => simp [addBias, biasMat, hbias, h3 b hb s hs i j, Tensor.ndim, h2]
    obtain ⟨out, k1, k2, k3, k4⟩ := contract_stack (addBias o m.bias) (rowOf m.edge 0) (rowOf m.edge 1) B n D hs
      (by simp [rowOf, hm.edge]) (by simp [rowOf, hm.edge]) par
      (fun b s => inputMat x m.core d D b s + biasMat m D) hget
    refine ⟨out, by simp [ProbMPS.evalPsi, h1, k1, bind, Except.bind], k2, k3, ?_⟩
    intro b hb
    obtain ⟨val, e1, e2, e3, e4⟩ := k4 b hb
    refine ⟨val, e1, e2, ?_, e4⟩
    rw [e3]
    cases par
    · simp only [Accepts, Bool.false_eq_true, if_false, not_not]
      rfl
    · simp only [Accepts, Bool.false_eq_true, if_false, if_true]
      push Not
      simp only [transMats]
      constructor
      · rintro ⟨a, b⟩; exact ⟨by omega, b⟩
      · rintro ⟨a, b⟩; exact ⟨by omega, b⟩

theorem evalPsi_slim_bias [RCLike K] (m : ProbMPS K) (h : m.bias ≠ none) (x : SeqInput K) (par : Bool) :
    m.evalPsi x true par = .error .value := by
  obtain ⟨b, hb⟩ := Option.ne_none_iff_exists'.1 h
  simp [ProbMPS.evalPsi, hb, bind, Except.bind, throw, throwThe, MonadExceptOf.throw]

theorem psi_of_not_accepts [RCLike K] (m : ProbMPS K) (x : SeqInput K) (n d D : ℕ) (slim par : Bool) (b : ℕ)
    (h : ¬ Accepts m x n d D slim par b) : psi m x n d D b = 0 := by
  unfold Accepts at h
  split at h
  · push Not at h
    rw [psi, amplitude, Matrix.dotProduct_mulVec, h.2, zero_dotProduct]
  · split at h
    · push Not at h
      rw [psi, amplitude, h.2, Matrix.zero_mulVec, dotProduct_zero]
    · push Not at h; exact h

theorem logProb_eq [RCLike K] (c p : K) (s Z : ℝ) (hZ : 0 < Z) (h : c * (Real.exp s : K) = p) :
    logProb (some c) (some s) ((Real.log Z : ℝ) : EReal) = some (bornLog p Z) := by
  have hexp : ((Real.exp s : ℝ) : K) ≠ 0 := by exact_mod_cast (Real.exp_pos s).ne'
  unfold logProb bornLog
  simp only [bind, Option.bind, pure, torchLog]
  by_cases hc : c = 0
  · have hp : p = 0 := by rw [← h, hc, zero_mul]
    simp only [hc, norm_zero, lt_irrefl, if_false, if_true, hp]
    rw [EReal.bot_add, EReal.mul_bot_of_pos (by norm_num), sub_eq_add_neg, EReal.bot_add]
  · have hp : p ≠ 0 := by rw [← h]; exact mul_ne_zero hc hexp
    have hn : 0 < ‖c‖ := norm_pos_iff.2 hc
    rw [if_pos hn, if_neg hp]
    simp only
    have hnp : ‖p‖ = ‖c‖ * Real.exp s := by
      rw [← h, norm_mul, RCLike.norm_ofReal, abs_of_pos (Real.exp_pos s)]
    rw [hnp, Real.log_div (by positivity) hZ.ne', Real.log_pow, Real.log_mul hn.ne' (Real.exp_pos s).ne',
      Real.log_exp]
    push_cast
    rfl

/-- the value of `forward` once the normalisation is known -/
theorem body_spec [RCLike K] (m : ProbMPS K) (n d D : ℕ) (hm : ValidModel m n d D) (x : SeqInput K) (B : ℕ)
    (hx : ValidInput x B n d) (slim par : Bool) (hslim : SlimOK m slim B n) (Z : ℝ) (hZ : 0 < Z)
    (hln : m.logNorm n = .ok (some ((Real.log Z : ℝ) : EReal))) :
    ((∀ b < B, Accepts m x n d D slim par b) → ∃ out, m.body x B n slim par = .ok out ∧ out.shape = [B] ∧
      ∀ b < B, out.get [b] = some (bornLog (psi m x n d D b) Z)) ∧
    (¬ (∀ b < B, Accepts m x n d D slim par b) → m.body x B n slim par = .error .assertion) := by
  classical
  obtain ⟨out, h1, h2, h3, h4⟩ := evalPsi_spec m n d D hm x B hx slim par hslim
  have hfin : finite? (some ((Real.log Z : ℝ) : EReal)) := ⟨_, rfl⟩
  have hbody : m.body x B n slim par = m.finish B out (some ((Real.log Z : ℝ) : EReal)) := by
    simp [ProbMPS.body, h1, hln, bind, Except.bind]
  have hall : (∀ idx, InRange idx out.product.shape → (out.product.get idx).isSome) ↔
      ∀ b < B, Accepts m x n d D slim par b := by
    rw [h2]
    have key : ∀ b < B, (out.product.get [b]).isSome ↔ Accepts m x n d D slim par b := by
      intro b hb
      obtain ⟨val, k1, k2, k3, k4⟩ := h4 b hb
      rw [k1]
      cases hv : val with
      | none => simp [k3.1 hv]
      | some v =>
        have : Accepts m x n d D slim par b := by
          by_contra h
          rw [k3.2 h] at hv; cases hv
        simp [this]
    constructor
    · intro h b hb
      exact (key b hb).1 (h [b] (by simp [hb]))
    · intro h idx hidx
      obtain _ | ⟨b, _ | ⟨_, _⟩⟩ := idx <;> simp at hidx
      exact (key b hidx).2 (h b hidx)
  refine ⟨fun hacc => ?_, fun hacc => ?_⟩
  · rw [hbody]
    unfold ProbMPS.finish
    rw [assert_true _ hfin, assert_true _ (hall.2 hacc)]
    refine ⟨⟨out.product.shape, fun idx => logProb (out.product.get idx) (out.logScale.get idx)
      ((some ((Real.log Z : ℝ) : EReal)).getD 0)⟩, ?_, h2, ?_⟩
    · cases m.uniform
      · rfl
      · rw [assert_true _ h2]; rfl
    · intro b hb
      obtain ⟨val, k1, k2, k3, k4⟩ := h4 b hb
      have hv : val ≠ none := fun h => (k3.1 h) (hacc b hb)
      obtain ⟨⟨c, s⟩, rfl⟩ := Option.ne_none_iff_exists'.1 hv
      simp only [k1, k2, Option.map_some, Option.getD_some]
      exact logProb_eq c _ s Z hZ (k4 c s rfl)
  · rw [hbody]
    unfold ProbMPS.finish
    rw [assert_true _ hfin, assert_false _ (fun h => hacc (hall.1 h))]
    rfl

end TorchMPS
