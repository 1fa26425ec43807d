import Verif.Props.Fresh
import Verif.Props.Gauge
import Verif.Props.TrainAdaptive
/-
C82: the outputs of newly constructed adaptive models, and the loss at the start of training.
-/
namespace TorchMPS
open Spec

attribute [local instance] Matrix.linftyOpNormedRing

theorem chainValue_plain (D F O n k : ℕ) (per : Bool) (a : Cores ℝ) (e : Tensor ℝ) (b o : ℕ) :
    chainValue D F k n per a e b o = mpsValue D F n k false per (plainParams D F O n k a.A a.C) e b o := by
  have h1 : ∀ i, pixelMat D F k false (plainParams D F O n k a.A a.C) e b i = coreMatAt D F a e b i := by
    intro i
    have e1 : (plainParams D F O n k a.A a.C).core k i = a.A i := by
      funext l r f
      rw [plain_core]
    have e2 : (plainParams D F O n k a.A a.C).bias false k i = fun _ _ => 0 := by
      funext l r
      rfl
    unfold pixelMat coreMatAt
    rw [e1, e2]
  have h2 : mpsMats D F n k false (plainParams D F O n k a.A a.C) e b o = fineMats D F k n a e b o := by
    unfold mpsMats pixelMats fineMats
    rw [funext h1]
    rfl
  unfold chainValue mpsValue
  rw [h2]
  cases orderedProd (fineMats D F k n a e b o) <;> rfl

/-- C82: a newly constructed adaptive MPS, on inputs whose feature vectors sum to 1 (as those of the default embedding do), gives nearly the same
outputs for all inputs and all classes: 1 with open boundaries, `min(output_dim, bond_dim)` with periodic ones. -/
theorem C82_adaptive (svd : Mat ℝ → SVD) (pop : List Char → Char) (d : Draws) (a : MpsArgs) (cutoff : ℝ) (threshold k : ℕ) (hl : IsLabel a k)
    (hn : 2 ≤ a.inputDim) (m : AdMps) (hm : AdMps.init d a cutoff threshold = .ok m) (ht : 1 ≤ threshold) (hD : a.periodic = true ∨ 1 ≤ a.bondDim)
    (Z X : ℝ) (hZ : DrawsBounded d a.inputDim k a.outputDim a.bondDim a.featureDim Z) (x e : Tensor ℝ) (he : Embedded m.mps x e)
    (hX : FeaturesBounded e a.inputDim a.featureDim X) (h1 : FeaturesSumOne e a.inputDim a.featureDim) (g : Option ℕ) :
    ∃ y, (m.forward svd pop x g).1 = .ok y ∧ y.shape = [e.shape.getD 0 0, a.outputDim] ∧ ∀ b < e.shape.getD 0 0, ∀ o < a.outputDim,
      |y.get [b, o] - (if a.periodic then ((min a.outputDim a.bondDim : ℕ) : ℝ) else 1)| ≤
        (if a.periodic then (a.bondDim : ℝ) else 1) * ((1 + |a.initStd| * a.bondDim * Z * max 1 X) ^ (a.inputDim + 1) - 1) := by
  have hpath : ∃ path, checkPath a.path a.inputDim = .ok path := by
    have h := hm
    unfold AdMps.init at h
    obtain ⟨k', _, h⟩ := bind_ok_inv h
    obtain ⟨ms, _, h⟩ := bind_ok_inv h
    obtain ⟨_, _, h⟩ := bind_ok_inv h
    obtain ⟨_, _, h⟩ := bind_ok_inv h
    obtain ⟨path, hp, _⟩ := bind_ok_inv h
    exact ⟨path, hp⟩
  obtain ⟨path, hp⟩ := hpath
  obtain ⟨m', q1, q2, q3, q4, q5, q6, q7, -, -, -, q8, q9, q10, -, q11, -⟩ := C59_construction d a cutoff threshold k hl.1 hn hl.2 path hp
  rw [q1] at hm
  cases hm
  have hh : HoldsCores k (initCores d k a.outputDim a.initStd) m := by
    unfold HoldsCores
    rw [q8, q3, q4, q5, q6]
    exact q11
  obtain ⟨y, y1, y2, y3⟩ := C59_forward svd pop k _ m q2 hh (by rw [q9, q10]; omega) (by rw [q7, q5]; exact hD) x e he g (Or.inr q8)
  refine ⟨y, y1, by rw [y2, q4], ?_⟩
  intro b hb o ho
  rw [y3 b hb o (by rw [q4]; exact ho), q3, q5, q6, q7, chainValue_plain _ _ a.outputDim, mpsValue_readOff _ _ _ hl.1 _ _ hD]
  set p := plainParams a.bondDim a.featureDim a.outputDim a.inputDim k (initCores d k a.outputDim a.initStd).A (initCores d k a.outputDim a.initStd).C with hpdef
  have hkn := hl.1
  have hX0 : 0 ≤ max 1 X := le_trans (by norm_num) (le_max_left _ _)
  have hsZ : 0 ≤ |a.initStd| * Z := mul_nonneg (abs_nonneg _) hZ.nonneg
  -- the projection to the first `output_dim` bond indices
  let P : Matrix (Fin a.bondDim) (Fin a.bondDim) ℝ := Matrix.diagonal (fun i => if (i : ℕ) < a.outputDim then 1 else 0)
  have hPe : ∀ q r : Fin a.bondDim, P q r = if (q : ℕ) = r ∧ (q : ℕ) < a.outputDim then 1 else 0 := by
    intro q r
    simp only [P, Matrix.diagonal_apply, Fin.ext_iff]
    by_cases h : (q : ℕ) = r <;> simp [h]
  have hPP : P * P = P := by
    simp only [P, Matrix.diagonal_mul_diagonal]
    congr 1
    funext i
    split_ifs <;> simp
  have hP1 : ‖P‖ ≤ 1 := by
    refine linfty_le _ _ (by norm_num) ?_
    intro i
    rw [Finset.sum_eq_single i]
    · rw [hPe]
      split_ifs <;> simp
    · intro j _ hj
      rw [hPe, if_neg (fun h => hj (Fin.ext h.1.symm)), abs_zero]
    · intro h
      exact absurd (Finset.mem_univ _) h
  have key : ‖chainMatrix a.bondDim a.featureDim a.inputDim k false p e b o - P‖ ≤
      (1 + |a.initStd| * a.bondDim * Z * max 1 X) ^ (a.inputDim + 1) - 1 := by
    unfold chainMatrix
    refine seqProd_near P hPP hP1 _ _ _ ?_
    intro j hj
    have hpixn : ∀ i < a.inputDim, ‖toMatrix a.bondDim a.bondDim (pixelMat a.bondDim a.featureDim k false p e b i) - P‖ ≤
        |a.initStd| * a.bondDim * Z * max 1 X := by
      intro i hi
      refine (linfty_entries _ (|a.initStd| * Z * max 1 X) (mul_nonneg hsZ hX0) ?_).trans (le_of_eq (by ring))
      intro q r
      have hpix : (toMatrix a.bondDim a.bondDim (pixelMat a.bondDim a.featureDim k false p e b i) - P) q r =
          ∑ f ∈ Finset.range a.featureDim, (a.initStd * (if i < k then d.left [i, q, r, f] else d.right [i - k, q, r, f])) * e.get [b, i, f] := by
        have hs := h1 b hb i hi
        have hcore : ∀ f, p.core k i q r f = (if (q : ℕ) = r ∧ (q : ℕ) < a.outputDim then 1 else 0) +
            a.initStd * (if i < k then d.left [i, q, r, f] else d.right [i - k, q, r, f]) := by
          intro f
          rw [hpdef, plain_core]
          rfl
        simp only [Matrix.sub_apply, toMatrix, pixelMat, affMat, Mat.of, Params.bias, Bool.false_eq_true, if_false, add_zero, hPe, hcore,
          if_pos (show (q : ℕ) < a.bondDim ∧ (r : ℕ) < a.bondDim from ⟨q.2, r.2⟩), add_mul, Finset.sum_add_distrib, ← Finset.mul_sum]
        rw [hs]
        ring
      rw [hpix]
      refine contracted_le a.bondDim a.featureDim
        (fun l r f => a.initStd * (if i < k then d.left [i, l, r, f] else d.right [i - k, l, r, f])) (fun f => e.get [b, i, f]) _ _ hsZ
        (fun l hl r hr f hf => ?_) ((hX b hb i hi).trans (le_max_right _ _)) q r q.2 r.2
      rw [abs_mul]
      refine mul_le_mul_of_nonneg_left ?_ (abs_nonneg _)
      split_ifs with hik
      · exact hZ.left i hik l hl r hr f hf
      · exact hZ.right (i - k) (by omega) l hl r hr f hf
    have hout : ‖toMatrix a.bondDim a.bondDim (outMat a.bondDim p o) - P‖ ≤ |a.initStd| * a.bondDim * Z * max 1 X := by
      refine (linfty_entries _ (|a.initStd| * Z * max 1 X) (mul_nonneg hsZ hX0) ?_).trans (le_of_eq (by ring))
      intro q r
      have : (toMatrix a.bondDim a.bondDim (outMat a.bondDim p o) - P) q r = a.initStd * d.out [o, q, r] := by
        have ho : p.out.get [o, q, r] = (if (q : ℕ) = r ∧ (q : ℕ) < a.outputDim then 1 else 0) + a.initStd * d.out [o, q, r] := rfl
        simp only [Matrix.sub_apply, toMatrix, outMat, Mat.of, ho, hPe, if_pos (show (q : ℕ) < a.bondDim ∧ (r : ℕ) < a.bondDim from ⟨q.2, r.2⟩)]
        ring
      rw [this, abs_mul]
      calc |a.initStd| * |d.out [o, q, r]| ≤ |a.initStd| * Z := mul_le_mul_of_nonneg_left (hZ.out o ho q q.2 r r.2) (abs_nonneg _)
        _ ≤ |a.initStd| * Z * max 1 X := le_mul_of_one_le_right hsZ (le_max_left _ _)
    unfold posMat
    split_ifs with g1 g2
    · exact hpixn j (by omega)
    · exact hout
    · exact hpixn (j - 1) (by omega)
  have hc : (if a.periodic then ((min a.outputDim a.bondDim : ℕ) : ℝ) else 1) = readOff a.periodic P := by
    unfold readOff
    split_ifs with q1 q2
    · simp only [P, Matrix.trace_diagonal]
      rw [Finset.sum_fin_eq_sum_range, Finset.sum_congr (g := fun i => if i < a.outputDim then (1 : ℝ) else 0) rfl
        (fun i hi => dif_pos (Finset.mem_range.1 hi)), Finset.sum_ite, Finset.sum_const_zero, add_zero,
        Finset.sum_const, nsmul_eq_mul, mul_one]
      congr 1
      rw [show (Finset.range a.bondDim).filter (fun i => i < a.outputDim) = Finset.range (min a.outputDim a.bondDim) by
        ext i; simp only [Finset.mem_filter, Finset.mem_range]; omega, Finset.card_range]
    · rw [hPe]
      simp only [true_and]
      rw [if_pos (by omega)]
    · exact absurd (hD.resolve_left (by simp [q1])) (by omega)
  conv_lhs => rw [hc, readOff_sub]
  exact (readOff_le _ _).trans (mul_le_mul_of_nonneg_left key (readNum_nonneg _ _))

theorem sampleLoss_near (row : List ℝ) (y : ℕ) (c δ : ℝ) (hy : y < row.length) (h : ∀ v ∈ row, |v - c| ≤ δ) :
    |sampleLoss row y - Real.log row.length| ≤ 2 * δ := by
  have hpos : (0 : ℝ) < row.length := by exact_mod_cast Nat.lt_of_le_of_lt (Nat.zero_le _) hy
  have hu : (row.map Real.exp).sum ≤ row.length * Real.exp (c + δ) := by
    refine (List.sum_le_card_nsmul _ (Real.exp (c + δ)) ?_).trans (le_of_eq ?_)
    · intro v hv
      obtain ⟨w, hw, rfl⟩ := List.mem_map.1 hv
      have := abs_le.1 (h w hw)
      exact Real.exp_le_exp.2 (by linarith)
    · simp [nsmul_eq_mul]
  have hlo : row.length * Real.exp (c - δ) ≤ (row.map Real.exp).sum := by
    refine le_trans (le_of_eq ?_) (List.card_nsmul_le_sum _ (Real.exp (c - δ)) ?_)
    · simp [nsmul_eq_mul]
    · intro v hv
      obtain ⟨w, hw, rfl⟩ := List.mem_map.1 hv
      have := abs_le.1 (h w hw)
      exact Real.exp_le_exp.2 (by linarith)
  have hs : 0 < (row.map Real.exp).sum := lt_of_lt_of_le (by positivity) hlo
  have l1 := Real.log_le_log hs hu
  have l2 := Real.log_le_log (by positivity) hlo
  rw [Real.log_mul hpos.ne' (Real.exp_pos _).ne', Real.log_exp] at l1 l2
  have hg : row.getD y 0 ∈ row := by
    rw [List.getD_eq_getElem _ _ hy]
    exact List.getElem_mem _
  have := abs_le.1 (h _ hg)
  unfold sampleLoss
  rw [abs_le]
  constructor <;> linarith

/-- C82: if all scores are within `δ` of one number, the loss which the training script computes is within `2 δ` of `log(output_dim)`. -/
theorem C82_initial_loss (scores : Tensor ℝ) (labels : List ℕ) (B O : ℕ) (hs : scores.shape = [B, O]) (hB : labels.length = B) (hB0 : B ≠ 0)
    (hO : ∀ y ∈ labels, y < O) (c δ : ℝ) (h : ∀ b < B, ∀ o < O, |scores.get [b, o] - c| ≤ δ) :
    ∃ l, crossEntropy scores labels = .ok l ∧ |l - Real.log O| ≤ 2 * δ := by
  unfold crossEntropy
  have e0 : scores.shape.getD 0 0 = B := by rw [hs]; rfl
  have e1 : scores.shape.getD 1 0 = O := by rw [hs]; rfl
  rw [e0, e1, if_neg (by omega), if_neg (by rintro ⟨y, h1, h2⟩; exact absurd (hO y h1) (by omega))]
  refine ⟨_, rfl, ?_⟩
  have hBr : (0 : ℝ) < labels.length := by
    rw [hB]
    exact_mod_cast Nat.pos_of_ne_zero hB0
  have hsum : ∀ L : List (ℕ × ℕ), (∀ p ∈ L, p.2 < B ∧ p.1 < O) →
      |(L.map (fun p => sampleLoss (scoreRow scores p.2) p.1)).sum - L.length * Real.log O| ≤ L.length * (2 * δ) := by
    intro L
    induction L with
    | nil => intro _; simp
    | cons p L ih =>
      intro hL
      have ih := ih (fun q hq => hL q (List.mem_cons_of_mem _ hq))
      obtain ⟨p1, p2⟩ := hL p (List.mem_cons_self ..)
      have hlen : (scoreRow scores p.2).length = O := by
        unfold scoreRow
        rw [e1]
        simp
      have hp := sampleLoss_near (scoreRow scores p.2) p.1 c δ (by rw [hlen]; exact p2) (by
        intro v hv
        unfold scoreRow at hv
        rw [e1] at hv
        obtain ⟨o, ho, rfl⟩ := List.mem_map.1 hv
        exact h p.2 p1 o (List.mem_range.1 ho))
      rw [hlen] at hp
      rw [abs_le] at hp ih ⊢
      simp only [List.map_cons, List.sum_cons, List.length_cons]
      push_cast
      constructor <;> linarith
  have hz := hsum labels.zipIdx (by
    intro p hp
    obtain ⟨-, h2, h3⟩ := List.mem_zipIdx hp
    refine ⟨by omega, ?_⟩
    rw [h3]
    exact hO _ (List.getElem_mem _))
  rw [List.length_zipIdx] at hz
  rw [show (labels.zipIdx.map (fun p => sampleLoss (scoreRow scores p.2) p.1)).sum / labels.length - Real.log O =
    ((labels.zipIdx.map (fun p => sampleLoss (scoreRow scores p.2) p.1)).sum - labels.length * Real.log O) / labels.length by field_simp,
    abs_div, abs_of_pos hBr, div_le_iff₀ hBr]
  linarith

/-- pixels between 0 and 1 under the default embedding -/
theorem unit_features (x : Tensor ℝ) (B n : ℕ) (hx : x.shape = [B, n]) (h01 : ∀ b < B, ∀ i < n, 0 ≤ x.get [b, i] ∧ x.get [b, i] ≤ 1) :
    FeaturesBounded (embedLinear x) n 2 1 ∧ FeaturesSumOne (embedLinear x) n 2 := by
  have hB : (embedLinear x).shape.getD 0 0 = B := by
    unfold embedLinear
    rw [hx]
    rfl
  refine ⟨?_, ?_⟩
  · intro b hb i hi
    rw [hB] at hb
    obtain ⟨h0, h1⟩ := h01 b hb i hi
    simp only [Finset.sum_range_succ, Finset.sum_range_zero, zero_add, embedLinear, List.getD_cons_succ, List.getD_cons_zero, List.take_succ_cons,
      List.take_zero, if_true, one_ne_zero, if_false]
    rw [abs_of_nonneg h0, abs_of_nonneg (by linarith)]
    linarith
  · intro b hb i hi
    simp [Finset.sum_range_succ, embedLinear]

theorem script_pow : ((1 : ℝ) + 2e-7) ^ 785 ≤ 1 + 1 / 5000 := by
  have b1 := one_add_mul_le_pow (a := (-2e-7 : ℝ)) (by norm_num) 785
  have b2 : ((1 : ℝ) + 2e-7) ^ 785 * (1 + -2e-7) ^ 785 ≤ 1 := by
    rw [← mul_pow]
    exact pow_le_one₀ (by norm_num) (by norm_num)
  have b3 : (0 : ℝ) < (1 + 2e-7) ^ 785 := by positivity
  generalize ((1 : ℝ) + 2e-7) ^ 785 = P at b2 b3 ⊢
  generalize ((1 : ℝ) + -2e-7) ^ 785 = Q at b1 b2
  have b4 := mul_le_mul_of_nonneg_left b1 b3.le
  norm_num at b4 ⊢
  linarith

/-- C82 for the model of the training script (784 pixels, bond dimension 20, `init_std = 1e-9`): if no draw exceeds 10 in absolute value and the pixels
are between 0 and 1, then all scores are within 1/5000 of 1 before the first optimiser step, and the loss within 1/2500 of `log 10`. -/
theorem C82_script (d : Draws) (hZ : DrawsBounded d 784 392 10 20 2 10) (B : ℕ) (hB : B ≠ 0) (x : Tensor ℝ) (hx : x.shape = [B, 784])
    (h01 : ∀ b < B, ∀ i < 784, 0 ≤ x.get [b, i] ∧ x.get [b, i] ≤ 1) (g : Option ℕ) :
    ∃ m y, MPS.init d scriptArgs = .ok m ∧ (m.forward x g).1 = .ok y ∧ y.shape = [B, 10] ∧ (∀ b < B, ∀ o < 10, |y.get [b, o] - 1| ≤ 1 / 5000) ∧
      ∀ labels : List ℕ, labels.length = B → (∀ c ∈ labels, c < 10) → ∃ l, crossEntropy y labels = .ok l ∧ |l - Real.log 10| ≤ 1 / 2500 := by
  obtain ⟨m, h1, h2⟩ := script_model d
  obtain ⟨f1, f2⟩ := unit_features x B 784 hx h01
  obtain ⟨-, -, i1, -, i3, i4, i5⟩ := h2
  have he : Embedded m x (embedLinear x) := by
    refine ⟨x, by rw [i4]; rfl, ?_⟩
    unfold MPS.embedInput
    rw [assert_true _ (by simp [Tensor.ndim, hx]), assert_true _ (by rw [i1, hx]; rfl)]
    simp [Tensor.ndim, hx, i3, i5]
    rfl
  have e0 : (embedLinear x).shape.getD 0 0 = B := by
    unfold embedLinear
    rw [hx]
    rfl
  have hdim : scriptArgs.inputDim = 784 := by simp [scriptArgs]
  obtain ⟨y, y1, y2, y3⟩ := C82_near_constant d scriptArgs 392 ⟨by rw [hdim]; norm_num, Or.inr ⟨rfl, by rw [hdim]⟩⟩ rfl m h1
    (Or.inr (by simp [scriptArgs])) (by rw [hdim]; exact ⟨by norm_num, by norm_num⟩) 10 1 (by rw [hdim]; exact hZ) x _ he (by rw [hdim]; exact f1) g
    (Or.inl (by norm_num))
  rw [e0] at y2 y3
  have hnear : ∀ b < B, ∀ o < 10, |y.get [b, o] - 1| ≤ 1 / 5000 := by
    intro b hb o ho
    refine (y3 b hb o ho).trans ?_
    rw [hdim]
    have h3 : (|scriptArgs.initStd| : ℝ) = 1e-9 := by
      simp only [scriptArgs]
      exact abs_of_pos (by norm_num)
    rw [h3]
    simp only [scriptArgs, Bool.false_eq_true, if_false, max_self]
    have hbase : (1 : ℝ) + 1e-9 * (20 : ℕ) * 10 * 1 = 1 + 2e-7 := by norm_num
    have hpow := script_pow
    rw [hbase, one_mul, show 784 + 1 = 785 from rfl]
    linarith
  refine ⟨m, y, h1, y1, y2, hnear, ?_⟩
  intro labels hl hc
  obtain ⟨l, l1, l2⟩ := C82_initial_loss y labels B 10 y2 hl hB hc 1 (1 / 5000) hnear
  exact ⟨l, l1, by norm_num at l2 ⊢; exact l2⟩

/-- The hypotheses of C82_script are met by the draws `1, -1` on white images. -/
example : DrawsBounded ⟨fun idx => if idx.sum % 2 = 0 then 1 else -1, fun _ => 1, fun _ => -1⟩ 784 392 10 20 2 10 := by
  refine ⟨by norm_num, ?_, ?_, ?_⟩
  · intro i _ l _ r _ f _
    simp only
    split_ifs <;> norm_num
  · intros
    norm_num
  · intros
    norm_num

/-- The hypotheses of C82_vanishing are met: the script's model with `use_bias=False`. -/
example (d : Draws) (x : Tensor ℝ) (hx : x.shape = [7, 784]) : ∃ m, MPS.init d { scriptArgs with useBias := false } = .ok m ∧
    IsLabel { scriptArgs with useBias := false } 392 ∧ NoShortRegion 784 392 ∧ Embedded m x (embedLinear x) ∧ BatchKnown 392 7 none := by
  obtain ⟨m, p, h1, h2, h3, h4, h5, h6, h7, h8, h9, h10⟩ := C55_construction d { scriptArgs with useBias := false } 392 (by simp [scriptArgs])
    (Or.inr ⟨rfl, by simp [scriptArgs]⟩) none rfl
  refine ⟨m, h1, ⟨by simp [scriptArgs], Or.inr ⟨rfl, by simp [scriptArgs]⟩⟩, ⟨by norm_num, by norm_num⟩, ⟨x, by rw [h9]; rfl, ?_⟩, Or.inl (by norm_num)⟩
  have e : m.inputDim = 784 := by rw [h3]; simp [scriptArgs]
  unfold MPS.embedInput
  rw [assert_true _ (by simp [Tensor.ndim, hx]), assert_true _ (by rw [e, hx]; rfl)]
  simp [Tensor.ndim, hx, h6, h10, scriptArgs]
  rfl

/-- The hypotheses of C82_adaptive are met: the script's model with `adaptive_mode=True`. -/
example (d : Draws) (x : Tensor ℝ) (hx : x.shape = [7, 784]) (h01 : ∀ b < 7, ∀ i < 784, 0 ≤ x.get [b, i] ∧ x.get [b, i] ≤ 1) :
    ∃ m, AdMps.init d { scriptArgs with useBias := false } 1e-10 2000 = .ok m ∧ Embedded m.mps x (embedLinear x) ∧
      FeaturesBounded (embedLinear x) 784 2 1 ∧ FeaturesSumOne (embedLinear x) 784 2 := by
  obtain ⟨m, q1, q2, q3, q4, q5, q6, q7, -, q8, q9, -⟩ := C59_construction d { scriptArgs with useBias := false } 1e-10 2000 392 (by simp [scriptArgs])
    (by simp [scriptArgs]) (Or.inr ⟨rfl, by simp [scriptArgs]⟩) none rfl
  obtain ⟨f1, f2⟩ := unit_features x 7 784 hx h01
  refine ⟨m, q1, ⟨x, by rw [q8]; rfl, ?_⟩, f1, f2⟩
  have e : m.mps.inputDim = 784 := by rw [q3]; simp [scriptArgs]
  unfold MPS.embedInput
  rw [assert_true _ (by simp [Tensor.ndim, hx]), assert_true _ (by rw [e, hx]; rfl)]
  simp [Tensor.ndim, hx, q6, q9, scriptArgs]
  rfl

end TorchMPS
