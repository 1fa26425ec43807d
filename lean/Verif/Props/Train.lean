import Verif.Lemmas.Train
import Mathlib.Analysis.SpecialFunctions.Log.Basic
/-
C77: runs of the training script.
-/
namespace TorchMPS
open Spec
variable {S : Type}

theorem samplerOrder_length {N : ℕ} {perm : List ℕ} (h : SamplerOrder N perm) : perm.length = N := by
  rw [h.length_eq, List.length_range]

theorem samplerOrder_lt {N : ℕ} {perm : List ℕ} (h : SamplerOrder N perm) (i : ℕ) (hi : i ∈ perm) : i < N :=
  List.mem_range.1 (h.mem_iff.1 hi)

theorem loader_valid {N : ℕ} {perm : List ℕ} (h : SamplerOrder N perm) (B : ℕ) :
    ∀ l ∈ loaderBatches B perm, l.length = B ∧ ∀ i ∈ l, i < N := fun l hl =>
  ⟨(loaderBatches_mem B perm l hl).1, fun i hi => samplerOrder_lt h i ((loaderBatches_mem B perm l hl).2 i hi)⟩

theorem exists_scores (n O : ℕ) (m : MPS ℝ) (hm : ScriptMps n O m) (ds : DataSet) (N : ℕ) (sh : Shape) (hsh : sh.prod = n)
    (hd : ValidData ds N O sh) : ∃ row : ℕ → List ℝ, ∀ i < N, ScoresAlone m (ds.image i) (row i) := by
  have : ∀ i, ∃ r, i < N → ScoresAlone m (ds.image i) r := by
    intro i
    by_cases hi : i < N
    · have h5 : m.inputDim = n := hm.2.2.1
      have h6 : m.outputDim = O := hm.2.2.2.1
      have hv : (ds.image i).view [1, n] =
          .ok ⟨[1, n], fun idx => (ds.image i).get (unravel (ds.image i).shape (ravel [1, n] idx))⟩ := by
        unfold Tensor.view
        rw [if_pos (by rw [(hd i hi).1, hsh]; simp)]
      obtain ⟨y, y1, y2, -⟩ := script_call n O m hm none _ 1 (rfl : (⟨[1, n], fun idx => (ds.image i).get (unravel (ds.image i).shape (ravel [1, n] idx))⟩ :
        Tensor ℝ).shape = [1, n])
      exact ⟨_, fun _ => ⟨_, y, by rw [h5]; exact hv, y1, by rw [h6]; exact y2, rfl⟩⟩
    · exact ⟨[], fun h => absurd h hi⟩
  choose row h using this
  exact ⟨row, h⟩

/-- C77. The evaluation at the end of an epoch succeeds, leaves the MPS as it is, and reports the fraction of correct predictions among the
first `(num_test // batch_size) * batch_size` images in the order drawn by the sampler; each prediction is the one the model makes for the
image alone, in a fresh process. -/
theorem C77_test_accuracy (cfg : TrainCfg) (O : ℕ) (hO : O ≠ 0) (m : MPS ℝ) (hm : ScriptMps cfg.inputDim O m) (g : Option ℕ) (ds : DataSet)
    (sh : Shape) (hsh : sh.prod = cfg.inputDim) (hd : ValidData ds cfg.numTest O sh) (argmax : List ℝ → ℕ) (perm : List ℕ)
    (hp : SamplerOrder cfg.numTest perm) (hB : 1 ≤ cfg.batchSize) (hN : cfg.batchSize ≤ cfg.numTest) :
    ∃ g' acc row, testPass cfg argmax mpsNet ds perm (m, g) = .ok ((m, g'), acc) ∧ (∀ i < cfg.numTest, ScoresAlone m (ds.image i) (row i)) ∧
      acc = correctAmong argmax ds row (perm.take (cfg.numTest / cfg.batchSize * cfg.batchSize)) /
        (cfg.numTest / cfg.batchSize * cfg.batchSize : ℕ) := by
  obtain ⟨row, hrow⟩ := exists_scores cfg.inputDim O m hm ds cfg.numTest sh hsh hd
  obtain ⟨g', h1⟩ := test_fold cfg.inputDim O hO m hm ds cfg.numTest sh hsh hd cfg (by omega) rfl row hrow argmax
    (loaderBatches cfg.batchSize perm) (loader_valid hp _) g 0
  have hq : cfg.numTest / cfg.batchSize ≠ 0 := by
    have := Nat.div_pos hN hB
    omega
  refine ⟨g', _, row, ?_, hrow, rfl⟩
  unfold testPass
  rw [h1]
  simp only [bind, Except.bind, pure, Except.pure, perBatch, if_neg hq]
  rw [loaderBatches_flatten, samplerOrder_length hp]
  congr 2
  have : ((cfg.batchSize : ℕ) : ℝ) ≠ 0 := by exact_mod_cast (by omega : cfg.batchSize ≠ 0)
  have : ((cfg.numTest / cfg.batchSize : ℕ) : ℝ) ≠ 0 := by exact_mod_cast hq
  push_cast
  rw [zero_add, div_div]
  congr 1
  rw [mul_comm]

/-- C77. When the batch size divides the number of test images, the reported test accuracy is the fraction of all test images which the model
classifies correctly one by one: it does not depend on the order drawn by the sampler, on the grouping into batches, nor on earlier calls. -/
theorem C77_test_accuracy_exact (cfg : TrainCfg) (O : ℕ) (hO : O ≠ 0) (m : MPS ℝ) (hm : ScriptMps cfg.inputDim O m) (g : Option ℕ) (ds : DataSet)
    (sh : Shape) (hsh : sh.prod = cfg.inputDim) (hd : ValidData ds cfg.numTest O sh) (argmax : List ℝ → ℕ) (perm : List ℕ)
    (hp : SamplerOrder cfg.numTest perm) (hB : 1 ≤ cfg.batchSize) (hN : cfg.numTest ≠ 0) (hdvd : cfg.batchSize ∣ cfg.numTest) :
    ∃ g' acc row, testPass cfg argmax mpsNet ds perm (m, g) = .ok ((m, g'), acc) ∧ (∀ i < cfg.numTest, ScoresAlone m (ds.image i) (row i)) ∧
      acc = correctAmong argmax ds row (List.range cfg.numTest) / cfg.numTest := by
  obtain ⟨g', acc, row, h1, h2, h3⟩ := C77_test_accuracy cfg O hO m hm g ds sh hsh hd argmax perm hp hB
    (Nat.le_of_dvd (by omega) hdvd)
  refine ⟨g', acc, row, h1, h2, ?_⟩
  rw [h3, Nat.div_mul_cancel hdvd, ← samplerOrder_length hp, List.take_length, samplerOrder_length hp]
  congr 2
  exact hp.countP_eq _

theorem sampleLoss_nonneg (row : List ℝ) (y : ℕ) (h : y < row.length) : 0 ≤ sampleLoss row y := by
  unfold sampleLoss
  have h1 : Real.exp (row.getD y 0) ≤ (row.map Real.exp).sum := by
    have hm : row.getD y 0 ∈ row := by
      rw [List.getD_eq_getElem?_getD, List.getElem?_eq_getElem h]
      exact List.getElem_mem _
    exact List.single_le_sum (by
      intro x hx
      obtain ⟨a, -, rfl⟩ := List.mem_map.1 hx
      exact (Real.exp_pos a).le) _ (List.mem_map.2 ⟨_, hm, rfl⟩)
  have := Real.log_le_log (Real.exp_pos _) h1
  rw [Real.log_exp] at this
  linarith

theorem crossEntropy_nonneg (scores : Tensor ℝ) (labels : List ℕ) (l : ℝ) (h : crossEntropy scores labels = .ok l) : 0 ≤ l := by
  unfold crossEntropy at h
  split at h
  · cases h
  split at h
  · cases h
  rename_i h1
  injection h with h
  rw [← h]
  refine div_nonneg (List.sum_nonneg ?_) (Nat.cast_nonneg _)
  intro x hx
  obtain ⟨⟨y, b⟩, hp, rfl⟩ := List.mem_map.1 hx
  refine sampleLoss_nonneg _ _ ?_
  have hy : y ∈ labels := (List.mem_zipIdx hp).2.2 ▸ List.getElem_mem _
  simp only [scoreRow, List.length_map, List.length_range]
  by_contra hc
  exact h1 ⟨y, hy, by omega⟩

theorem numCorrect_le (preds labels : List ℕ) (c : ℕ) (h : numCorrect preds labels = .ok c) : c ≤ labels.length := by
  unfold numCorrect at h
  split at h
  swap
  · cases h
  injection h with h
  rw [← h]
  clear h
  induction preds generalizing labels with
  | nil => simp
  | cons p ps ih =>
    cases labels with
    | nil => simp
    | cons y ys =>
      simp only [List.zipWith_cons_cons, List.sum_cons, List.length_cons]
      have := ih ys (by simpa using ‹(p :: ps).length = (y :: ys).length›)
      split <;> omega

theorem collate_labels (ds : DataSet) (idxs : List ℕ) (t : Tensor ℝ) (ys : List ℕ) (h : collateImages ds idxs = .ok (t, ys)) : ys = idxs.map ds.label := by
  unfold collateImages at h
  split at h
  · cases h
  · split at h
    · injection h with h
      rw [Prod.mk.injEq] at h
      exact h.2.symm
    · cases h

theorem testBatch_inv (cfg : TrainCfg) (argmax : List ℝ → ℕ) (call : Net S) (ds : DataSet) (st st' : S × ℝ) (idxs : List ℕ)
    (h : testBatch cfg argmax call ds st idxs = .ok st') :
    ∃ (x y : Tensor ℝ) (c : ℕ), x.shape = [cfg.batchSize, cfg.inputDim] ∧ (call st.1 x).1 = .ok y ∧ c ≤ idxs.length ∧
      st' = ((call st.1 x).2, st.2 + c / cfg.batchSize) := by
  unfold testBatch at h
  obtain ⟨⟨t, ys⟩, h1, h⟩ := bind_ok_inv h
  obtain ⟨x, h2, h⟩ := bind_ok_inv h
  obtain ⟨y, h3, h⟩ := bind_ok_inv h
  obtain ⟨ps, h4, h⟩ := bind_ok_inv h
  obtain ⟨c, h5, h⟩ := bind_ok_inv h
  simp only [pure, Except.pure, Except.ok.injEq] at h
  have hs : x.shape = [cfg.batchSize, cfg.inputDim] := by
    unfold Tensor.view at h2
    split at h2
    · injection h2 with h2; rw [← h2]
    · cases h2
  have := numCorrect_le _ _ _ h5
  rw [collate_labels _ _ _ _ h1, List.length_map] at this
  exact ⟨x, y, c, hs, h3, this, h.symm⟩

theorem trainBatch_inv (cfg : TrainCfg) (argmax : List ℝ → ℕ) (call : Net S) (opt : S → Tensor ℝ → List ℕ → S) (ds : DataSet)
    (st st' : TrainState S) (idxs : List ℕ) (h : trainBatch cfg argmax call opt ds st idxs = .ok st') :
    ∃ (x y : Tensor ℝ) (c : ℕ) (l : ℝ), x.shape = [cfg.batchSize, cfg.inputDim] ∧ (call st.net x).1 = .ok y ∧ c ≤ idxs.length ∧ 0 ≤ l ∧
      st' = ⟨opt (call st.net x).2 x (idxs.map ds.label), st.loss + l, st.acc + c / cfg.batchSize⟩ := by
  unfold trainBatch at h
  obtain ⟨⟨t, ys⟩, h1, h⟩ := bind_ok_inv h
  obtain ⟨x, h2, h⟩ := bind_ok_inv h
  obtain ⟨y, h3, h⟩ := bind_ok_inv h
  obtain ⟨ps, h4, h⟩ := bind_ok_inv h
  obtain ⟨l, h6, h⟩ := bind_ok_inv h
  obtain ⟨c, h5, h⟩ := bind_ok_inv h
  simp only [pure, Except.pure, Except.ok.injEq] at h
  have hs : x.shape = [cfg.batchSize, cfg.inputDim] := by
    unfold Tensor.view at h2
    split at h2
    · injection h2 with h2; rw [← h2]
    · cases h2
  have := numCorrect_le _ _ _ h5
  rw [collate_labels _ _ _ _ h1, List.length_map] at this
  rw [collate_labels _ _ _ _ h1] at h
  exact ⟨x, y, c, l, hs, h3, this, crossEntropy_nonneg _ _ _ h6, h.symm⟩

theorem perBatch_inv (N B : ℕ) (a r : ℝ) (h : perBatch N B a = .ok r) : N / B ≠ 0 ∧ r = a / (N / B : ℕ) := by
  unfold perBatch at h
  split at h
  · cases h
  · injection h with h
    exact ⟨by assumption, h.symm⟩

theorem div_batch_le (c B : ℕ) (h : c ≤ B) : 0 ≤ (c : ℝ) / B ∧ (c : ℝ) / B ≤ 1 :=
  ⟨by positivity, div_le_one_of_le₀ (by exact_mod_cast h) (by positivity)⟩

theorem test_fold_range (cfg : TrainCfg) (argmax : List ℝ → ℕ) (call : Net S) (ds : DataSet) (bs : List (List ℕ))
    (hbs : ∀ l ∈ bs, l.length = cfg.batchSize) : ∀ st st', bs.foldlM (testBatch cfg argmax call ds) st = .ok st' →
    st.2 ≤ st'.2 ∧ st'.2 ≤ st.2 + bs.length := by
  induction bs with
  | nil => intro st st' h; cases h; simp
  | cons l bs ih =>
    intro st st' h
    rw [List.foldlM_cons] at h
    obtain ⟨st1, h1, h2⟩ := bind_ok_inv h
    obtain ⟨x, y, c, -, -, h4, rfl⟩ := testBatch_inv cfg argmax call ds st st1 l h1
    obtain ⟨k1, k2⟩ := ih (fun l hl => hbs l (by simp [hl])) _ st' h2
    rw [hbs l (by simp)] at h4
    obtain ⟨j1, j2⟩ := div_batch_le c _ h4
    simp only at k1 k2
    refine ⟨by linarith, ?_⟩
    rw [List.length_cons]
    push_cast
    linarith

theorem train_fold_range (cfg : TrainCfg) (argmax : List ℝ → ℕ) (call : Net S) (opt : S → Tensor ℝ → List ℕ → S) (ds : DataSet)
    (bs : List (List ℕ)) (hbs : ∀ l ∈ bs, l.length = cfg.batchSize) : ∀ st st', bs.foldlM (trainBatch cfg argmax call opt ds) st = .ok st' →
    st.loss ≤ st'.loss ∧ st.acc ≤ st'.acc ∧ st'.acc ≤ st.acc + bs.length := by
  induction bs with
  | nil => intro st st' h; cases h; simp
  | cons l bs ih =>
    intro st st' h
    rw [List.foldlM_cons] at h
    obtain ⟨st1, h1, h2⟩ := bind_ok_inv h
    obtain ⟨x, y, c, ls, -, -, h4, h5, rfl⟩ := trainBatch_inv cfg argmax call opt ds st st1 l h1
    obtain ⟨k0, k1, k2⟩ := ih (fun l hl => hbs l (by simp [hl])) _ st' h2
    rw [hbs l (by simp)] at h4
    obtain ⟨j1, j2⟩ := div_batch_le c _ h4
    simp only at k0 k1 k2
    refine ⟨by linarith, by linarith, ?_⟩
    rw [List.length_cons]
    push_cast
    linarith

theorem acc_range (N B : ℕ) (a r : ℝ) (h : perBatch N B a = .ok r) (h0 : 0 ≤ a) (h1 : a ≤ (N / B : ℕ)) : 0 ≤ r ∧ r ≤ 1 := by
  obtain ⟨h2, rfl⟩ := perBatch_inv N B a r h
  exact ⟨div_nonneg h0 (Nat.cast_nonneg _), div_le_one_of_le₀ h1 (Nat.cast_nonneg _)⟩

theorem epoch_range (cfg : TrainCfg) (argmax : List ℝ → ℕ) (call : Net S) (opt : S → Tensor ℝ → List ℕ → S) (train test : DataSet)
    (pt pe : List ℕ) (ht : SamplerOrder cfg.numTrain pt) (he : SamplerOrder cfg.numTest pe) (s s' : S) (r : EpochReport)
    (h : trainEpoch cfg argmax call opt train test pt pe s = .ok (s', r)) :
    0 ≤ r.loss ∧ (0 ≤ r.trainAcc ∧ r.trainAcc ≤ 1) ∧ 0 ≤ r.testAcc ∧ r.testAcc ≤ 1 := by
  unfold trainEpoch at h
  obtain ⟨st, h1, h⟩ := bind_ok_inv h
  obtain ⟨l, h2, h⟩ := bind_ok_inv h
  obtain ⟨ta, h3, h⟩ := bind_ok_inv h
  obtain ⟨⟨s2, te⟩, h4, h⟩ := bind_ok_inv h
  simp only [pure, Except.pure, Except.ok.injEq, Prod.mk.injEq] at h
  obtain ⟨-, rfl⟩ := h
  obtain ⟨a1, a2, a3⟩ := train_fold_range cfg argmax call opt train _ (fun l hl => (loader_valid ht _ l hl).1) _ _ h1
  rw [loaderBatches_length, samplerOrder_length ht, zero_add] at a3
  unfold testPass at h4
  obtain ⟨⟨s3, a⟩, h5, h4⟩ := bind_ok_inv h4
  obtain ⟨b, h6, h4⟩ := bind_ok_inv h4
  simp only [pure, Except.pure, Except.ok.injEq, Prod.mk.injEq] at h4
  obtain ⟨-, rfl⟩ := h4
  obtain ⟨b1, b2⟩ := test_fold_range cfg argmax call test _ (fun l hl => (loader_valid he _ l hl).1) _ _ h5
  rw [loaderBatches_length, samplerOrder_length he, zero_add] at b2
  refine ⟨?_, acc_range _ _ _ _ h3 a2 a3, acc_range _ _ _ _ h6 b1 b2⟩
  obtain ⟨-, rfl⟩ := perBatch_inv _ _ _ _ h2
  exact div_nonneg a1 (Nat.cast_nonneg _)

theorem trainFrom_range (cfg : TrainCfg) (argmax : List ℝ → ℕ) (call : Net S) (opt : S → Tensor ℝ → List ℕ → S) (train test : DataSet)
    (pt pe : ℕ → List ℕ) (ht : ∀ e, SamplerOrder cfg.numTrain (pt e)) (he : ∀ e, SamplerOrder cfg.numTest (pe e)) (k : ℕ) :
    ∀ (e : ℕ) (s s' : S) (rs : List EpochReport), trainFrom cfg argmax call opt train test pt pe e k s = .ok (s', rs) →
    rs.length = k ∧ ∀ r ∈ rs, 0 ≤ r.loss ∧ (0 ≤ r.trainAcc ∧ r.trainAcc ≤ 1) ∧ 0 ≤ r.testAcc ∧ r.testAcc ≤ 1 := by
  induction k with
  | zero => intro e s s' rs h; simp only [trainFrom, Except.ok.injEq, Prod.mk.injEq] at h; rw [← h.2]; simp
  | succ k ih =>
    intro e s s' rs h
    simp only [trainFrom] at h
    obtain ⟨⟨s1, r⟩, h1, h⟩ := bind_ok_inv h
    obtain ⟨⟨s2, rs'⟩, h2, h⟩ := bind_ok_inv h
    simp only [pure, Except.pure, Except.ok.injEq, Prod.mk.injEq] at h
    obtain ⟨-, rfl⟩ := h
    obtain ⟨k1, k2⟩ := ih _ _ _ _ h2
    refine ⟨by simp [k1], fun r' hr' => ?_⟩
    rcases List.mem_cons.1 hr' with rfl | hr'
    · exact epoch_range cfg argmax call opt train test _ _ (ht e) (he e) s s1 _ h1
    · exact k2 r' hr'

/-- C77. Whatever the network, the optimiser, the data and the orders of the samplers: a run which ends prints one report per epoch, with
non-negative losses and accuracies between 0 and 1. -/
theorem C77_reports (cfg : TrainCfg) (argmax : List ℝ → ℕ) (call : Net S) (opt : S → Tensor ℝ → List ℕ → S) (train test : DataSet)
    (pt pe : ℕ → List ℕ) (ht : ∀ e, SamplerOrder cfg.numTrain (pt e)) (he : ∀ e, SamplerOrder cfg.numTest (pe e)) (s s' : S)
    (rs : List EpochReport) (h : trainScript cfg argmax call opt train test pt pe s = .ok (s', rs)) :
    rs.length = cfg.numEpochs ∧ ∀ r ∈ rs, 0 ≤ r.loss ∧ (0 ≤ r.trainAcc ∧ r.trainAcc ≤ 1) ∧ 0 ≤ r.testAcc ∧ r.testAcc ≤ 1 := by
  unfold trainScript at h
  split at h
  · cases h
  · exact trainFrom_range cfg argmax call opt train test pt pe ht he _ _ _ _ _ h

theorem crossEnt_eq (row : List ℝ) (y : ℕ) (h : y < row.length) : crossEnt row y = sampleLoss row y := by
  have hm : row.getD y 0 ∈ row := by
    rw [List.getD_eq_getElem?_getD, List.getElem?_eq_getElem h]
    exact List.getElem_mem _
  have h1 : 0 < (row.map Real.exp).sum := by
    refine lt_of_lt_of_le (Real.exp_pos (row.getD y 0)) (List.single_le_sum (by
      intro x hx
      obtain ⟨a, -, rfl⟩ := List.mem_map.1 hx
      exact (Real.exp_pos a).le) _ (List.mem_map.2 ⟨_, hm, rfl⟩))
  unfold crossEnt sampleLoss
  rw [Real.log_div (Real.exp_pos _).ne' h1.ne', Real.log_exp]
  ring

theorem zipIdx_sum (f : ℕ → ℕ → ℝ) (g : ℕ → ℕ) (l : List ℕ) (k : ℕ) :
    (((l.map g).zipIdx k).map (fun p => f p.2 p.1)).sum = ((List.range l.length).map (fun b => f (k + b) (g (l.getD b 0)))).sum := by
  induction l generalizing k with
  | nil => simp
  | cons a l ih =>
    simp only [List.map_cons, List.zipIdx_cons, List.sum_cons, List.length_cons, List.range_succ_eq_map, List.map_map, ih]
    congr 1
    congr 1
    refine List.map_congr_left fun b _ => ?_
    simp only [Function.comp, List.getD_cons_succ]
    congr 1
    omega

theorem range_getD_sum (f : ℕ → ℝ) (l : List ℕ) : ((List.range l.length).map (fun b => f (l.getD b 0))).sum = (l.map f).sum := by
  congr 1
  refine List.ext_getElem (by simp) ?_
  intro b h1 h2
  simp only [List.length_map] at h2
  simp only [List.getElem_map, List.getElem_range]
  rw [getD_of_lt _ _ h2]

theorem train_fold (n O : ℕ) (hO : O ≠ 0) (ds : DataSet) (N : ℕ) (sh : Shape) (hsh : sh.prod = n)
    (hd : ValidData ds N O sh) (cfg : TrainCfg) (hB : cfg.batchSize ≠ 0) (hn : cfg.inputDim = n)
    (opt : MPS ℝ × Option ℕ → Tensor ℝ → List ℕ → MPS ℝ × Option ℕ)
    (hopt : ∀ m g x ys, ScriptMps n O m → ScriptMps n O (opt (m, g) x ys).1) (argmax : List ℝ → ℕ) (bs : List (List ℕ))
    (hbs : ∀ l ∈ bs, l.length = cfg.batchSize ∧ ∀ i ∈ l, i < N) : ∀ (s : MPS ℝ × Option ℕ) (l a : ℝ), ScriptMps n O s.1 →
    ∃ s' c L, bs.foldlM (trainBatch cfg argmax mpsNet opt ds) ⟨s, l, a⟩ = .ok ⟨s', l + L / cfg.batchSize, a + (c : ℕ) / cfg.batchSize⟩ ∧
      ScriptMps n O s'.1 ∧ TrainRun opt ds sh argmax bs s c L s' := by
  induction bs with
  | nil => intro s l a hm; exact ⟨s, 0, 0, by simp [pure, Except.pure], hm, .nil s⟩
  | cons idxs bs ih =>
    rintro ⟨m, g⟩ l a hm
    obtain ⟨hl1, hl2⟩ := hbs idxs (by simp)
    obtain ⟨row, hrow⟩ := exists_scores n O m hm ds N sh hsh hd
    obtain ⟨t, x, y, b1, b2, b3, b4, b5, b6⟩ := script_batch n O hO m hm g ds N sh hsh hd cfg.batchSize hB idxs hl1 hl2 row hrow argmax
    have hO' : m.outputDim = O := hm.2.2.2.1
    have hlen : ∀ i ∈ idxs, ds.label i < (row i).length := by
      intro i hi
      obtain ⟨_, _, _, _, _, r4⟩ := hrow i (hl2 i hi)
      rw [r4, List.length_map, List.length_range, hO']
      exact (hd i (hl2 i hi)).2
    have hce : crossEntropy y (idxs.map ds.label) =
        .ok ((idxs.map (fun i => crossEnt (row i) (ds.label i))).sum / cfg.batchSize) := by
      unfold crossEntropy
      rw [if_neg (by simp [b4, hl1]), if_neg]
      · congr 1
        rw [List.length_map, hl1]
        congr 1
        rw [zipIdx_sum (fun b y' => sampleLoss (scoreRow y b) y') ds.label idxs 0]
        rw [← range_getD_sum (fun i => crossEnt (row i) (ds.label i))]
        congr 1
        refine List.map_congr_left fun b hb => ?_
        have hb' := List.mem_range.1 hb
        simp only [Nat.zero_add]
        rw [b6 b (by omega), crossEnt_eq]
        rw [getD_of_lt _ _ hb']
        exact hlen _ (List.getElem_mem _)
      · rintro ⟨z, hz, hz'⟩
        obtain ⟨i, hi, rfl⟩ := List.mem_map.1 hz
        rw [b4] at hz'
        have := (hd i (hl2 i hi)).2
        simp at hz'
        omega
    have hstep : trainBatch cfg argmax mpsNet opt ds ⟨(m, g), l, a⟩ idxs =
        .ok ⟨opt (m, (m.forward x g).2) x (idxs.map ds.label), l + (idxs.map (fun i => crossEnt (row i) (ds.label i))).sum / cfg.batchSize,
          a + (correctAmong argmax ds row idxs : ℕ) / cfg.batchSize⟩ := by
      unfold trainBatch
      simp only [b1, hn, b2, mpsNet, b3, b5, hce, numCorrect_eq, bind, Except.bind, pure, Except.pure]
    obtain ⟨s', c, L, h1, h2, h3⟩ := ih (fun l hl => hbs l (by simp [hl])) (opt (m, (m.forward x g).2) x (idxs.map ds.label))
      (l + (idxs.map (fun i => crossEnt (row i) (ds.label i))).sum / cfg.batchSize)
      (a + (correctAmong argmax ds row idxs : ℕ) / cfg.batchSize) (hopt m _ x _ hm)
    refine ⟨s', correctAmong argmax ds row idxs + c, (idxs.map (fun i => crossEnt (row i) (ds.label i))).sum + L, ?_, h2, ?_⟩
    · rw [List.foldlM_cons, hstep]
      show List.foldlM _ _ _ = _
      rw [h1]
      congr 2
      · ring
      · push_cast; ring
    · refine .cons (g' := (m.forward x g).2) (x := x) (row := row) ?_ (fun i hi => hrow i (hl2 i hi)) h3
      obtain ⟨t', x', c1, c2, c3, c4⟩ := collate_view ds idxs cfg.batchSize n sh hl1 hB hsh (fun i hi => (hd i (hl2 i hi)).1)
      rw [b1] at c1
      injection c1 with c1
      rw [Prod.mk.injEq] at c1
      rw [← c1.1, b2] at c2
      injection c2 with c2
      rw [← c2] at c3 c4
      unfold FlatBatch
      rw [hl1, hsh]
      exact ⟨c3, c4⟩

/-- C77. One epoch with an MPS, for any optimiser which keeps the structure of the model: it completes. The training part goes through
`num_train // batch_size` batches of `batch_size` images, which together are the first images in the order drawn by the sampler, no image twice; the
reported loss and training accuracy are the means over these images of the cross entropy and of the correctness of the predictions of the model in
force when the batch is processed; the reported test accuracy is that of the model at the end, which the evaluation does not change. -/
theorem C77_epoch (cfg : TrainCfg) (O : ℕ) (hO : O ≠ 0) (m : MPS ℝ) (hm : ScriptMps cfg.inputDim O m) (g : Option ℕ) (train test : DataSet)
    (sh : Shape) (hsh : sh.prod = cfg.inputDim) (hd : ValidData train cfg.numTrain O sh) (hd' : ValidData test cfg.numTest O sh)
    (argmax : List ℝ → ℕ) (opt : MPS ℝ × Option ℕ → Tensor ℝ → List ℕ → MPS ℝ × Option ℕ)
    (hopt : ∀ m g x ys, ScriptMps cfg.inputDim O m → ScriptMps cfg.inputDim O (opt (m, g) x ys).1) (pt pe : List ℕ)
    (ht : SamplerOrder cfg.numTrain pt) (he : SamplerOrder cfg.numTest pe)
    (hB : 1 ≤ cfg.batchSize) (hN : cfg.batchSize ≤ cfg.numTrain) (hN' : cfg.batchSize ≤ cfg.numTest) :
    ∃ m' g' r, trainEpoch cfg argmax mpsNet opt train test pt pe (m, g) = .ok ((m', g'), r) ∧
      EpochOf cfg opt train test sh argmax pt pe (m, g) r (m', g') ∧ ScriptMps cfg.inputDim O m' := by
  obtain ⟨⟨m', g'⟩, c, L, h1, h2, h3⟩ := train_fold cfg.inputDim O hO train cfg.numTrain sh hsh hd cfg (by omega) rfl opt hopt argmax
    (loaderBatches cfg.batchSize pt) (loader_valid ht _) (m, g) 0 0 hm
  obtain ⟨g'', acc, row, k1, k2, k3⟩ := C77_test_accuracy cfg O hO m' h2 g' test sh hsh hd' argmax pe he hB hN'
  have hq : cfg.numTrain / cfg.batchSize ≠ 0 := by
    have := Nat.div_pos hN hB
    omega
  have hflat : (loaderBatches cfg.batchSize pt).flatten = pt.take (cfg.numTrain / cfg.batchSize * cfg.batchSize) := by
    rw [loaderBatches_flatten, samplerOrder_length ht]
  refine ⟨m', g'',
    ⟨L / cfg.batchSize / (cfg.numTrain / cfg.batchSize : ℕ), c / cfg.batchSize / (cfg.numTrain / cfg.batchSize : ℕ), acc⟩, ?_,
    ⟨loaderBatches cfg.batchSize pt, c, L, g', row,
      by rw [loaderBatches_length, samplerOrder_length ht], fun l hl => (loader_valid ht _ l hl).1, hflat, ?_, h3, ?_, ?_, k2, k3⟩, h2⟩
  · unfold trainEpoch
    rw [h1]
    simp only [bind, Except.bind, pure, Except.pure, perBatch, if_neg hq, k1, zero_add]
  · rw [hflat]
    exact List.Nodup.sublist (List.take_sublist _ _) (ht.nodup_iff.2 List.nodup_range)
  · push_cast
    rw [div_div, mul_comm]
  · push_cast
    rw [div_div, mul_comm]

/-- C77. The whole run with an MPS completes: `num_epochs` epochs one after the other, each as described, and leaves an MPS of the same
structure. -/
theorem C77_completes (cfg : TrainCfg) (O : ℕ) (hO : O ≠ 0) (m : MPS ℝ) (hm : ScriptMps cfg.inputDim O m) (g : Option ℕ) (train test : DataSet)
    (sh : Shape) (hsh : sh.prod = cfg.inputDim) (hd : ValidData train cfg.numTrain O sh) (hd' : ValidData test cfg.numTest O sh)
    (argmax : List ℝ → ℕ) (opt : MPS ℝ × Option ℕ → Tensor ℝ → List ℕ → MPS ℝ × Option ℕ)
    (hopt : ∀ m g x ys, ScriptMps cfg.inputDim O m → ScriptMps cfg.inputDim O (opt (m, g) x ys).1) (pt pe : ℕ → List ℕ)
    (ht : ∀ e, SamplerOrder cfg.numTrain (pt e)) (he : ∀ e, SamplerOrder cfg.numTest (pe e))
    (hB : 1 ≤ cfg.batchSize) (hN : cfg.batchSize ≤ cfg.numTrain) (hN' : cfg.batchSize ≤ cfg.numTest) :
    ∃ s' rs, trainScript cfg argmax mpsNet opt train test pt pe (m, g) = .ok (s', rs) ∧ rs.length = cfg.numEpochs ∧
      EpochsOf cfg opt train test sh argmax pt pe 1 (m, g) rs s' ∧ ScriptMps cfg.inputDim O s'.1 := by
  have key : ∀ k e (s : MPS ℝ × Option ℕ), ScriptMps cfg.inputDim O s.1 →
      ∃ s' rs, trainFrom cfg argmax mpsNet opt train test pt pe e k s = .ok (s', rs) ∧ rs.length = k ∧
        EpochsOf cfg opt train test sh argmax pt pe e s rs s' ∧ ScriptMps cfg.inputDim O s'.1 := by
    intro k
    induction k with
    | zero => intro e s hs; exact ⟨s, [], by simp [trainFrom], rfl, .nil e s, hs⟩
    | succ k ih =>
      rintro e ⟨m, g⟩ hs
      obtain ⟨m', g', r, h1, h0, h2⟩ := C77_epoch cfg O hO m hs g train test sh hsh hd hd' argmax opt hopt
        (pt e) (pe e) (ht e) (he e) hB hN hN'
      obtain ⟨s', rs, k1, k2, k4, k3⟩ := ih (e + 1) (m', g') h2
      refine ⟨s', r :: rs, ?_, by simp [k2], .cons h0 k4, k3⟩
      simp only [trainFrom, h1, bind_ok_except, k1, pure, Except.pure]
  unfold trainScript
  rw [if_neg (by omega)]
  exact key cfg.numEpochs 1 (m, g) hm

/-- C77. Fewer training images than a batch: the first epoch ends in ZeroDivisionError. -/
theorem C77_too_few_training_images (cfg : TrainCfg) (argmax : List ℝ → ℕ) (call : Net S) (opt : S → Tensor ℝ → List ℕ → S) (train test : DataSet)
    (pt pe : ℕ → List ℕ) (ht : ∀ e, SamplerOrder cfg.numTrain (pt e)) (s : S) (hN : cfg.numTrain < cfg.batchSize) (hE : 1 ≤ cfg.numEpochs) :
    trainScript cfg argmax call opt train test pt pe s = .error .zeroDivision := by
  unfold trainScript
  rw [if_neg (by omega)]
  obtain ⟨k, hk⟩ : ∃ k, cfg.numEpochs = k + 1 := ⟨cfg.numEpochs - 1, by omega⟩
  have hq : cfg.numTrain / cfg.batchSize = 0 := Nat.div_eq_of_lt hN
  have hb : loaderBatches cfg.batchSize (pt 1) = [] := by
    rw [← List.length_eq_zero_iff, loaderBatches_length, samplerOrder_length (ht 1), hq]
  rw [hk]
  simp only [trainFrom, trainEpoch, hb, List.foldlM_nil, pure_bind, perBatch, hq, if_true]
  rfl

/-- C77. Fewer test images than a batch: the first epoch trains, then ends in ZeroDivisionError when the test accuracy is to be printed. -/
theorem C77_too_few_test_images (cfg : TrainCfg) (O : ℕ) (hO : O ≠ 0) (m : MPS ℝ) (hm : ScriptMps cfg.inputDim O m) (g : Option ℕ) (train test : DataSet)
    (sh : Shape) (hsh : sh.prod = cfg.inputDim) (hd : ValidData train cfg.numTrain O sh)
    (argmax : List ℝ → ℕ) (opt : MPS ℝ × Option ℕ → Tensor ℝ → List ℕ → MPS ℝ × Option ℕ)
    (hopt : ∀ m g x ys, ScriptMps cfg.inputDim O m → ScriptMps cfg.inputDim O (opt (m, g) x ys).1) (pt pe : ℕ → List ℕ)
    (ht : ∀ e, SamplerOrder cfg.numTrain (pt e)) (he : ∀ e, SamplerOrder cfg.numTest (pe e))
    (hB : 1 ≤ cfg.batchSize) (hN' : cfg.numTest < cfg.batchSize) (hE : 1 ≤ cfg.numEpochs) :
    trainScript cfg argmax mpsNet opt train test pt pe (m, g) = .error .zeroDivision := by
  by_cases hN : cfg.numTrain < cfg.batchSize
  · exact C77_too_few_training_images cfg argmax mpsNet opt train test pt pe ht (m, g) hN hE
  obtain ⟨s', c, L, h1, -⟩ := train_fold cfg.inputDim O hO train cfg.numTrain sh hsh hd cfg (by omega) rfl opt hopt argmax
    (loaderBatches cfg.batchSize (pt 1)) (loader_valid (ht 1) _) (m, g) 0 0 hm
  have hq : cfg.numTrain / cfg.batchSize ≠ 0 := by
    have := Nat.div_pos (Nat.le_of_not_lt hN) hB
    omega
  have hq' : cfg.numTest / cfg.batchSize = 0 := Nat.div_eq_of_lt hN'
  have hb : loaderBatches cfg.batchSize (pe 1) = [] := by
    rw [← List.length_eq_zero_iff, loaderBatches_length, samplerOrder_length (he 1), hq']
  unfold trainScript
  rw [if_neg (by omega)]
  obtain ⟨k, hk⟩ : ∃ k, cfg.numEpochs = k + 1 := ⟨cfg.numEpochs - 1, by omega⟩
  rw [hk]
  simp only [trainFrom, trainEpoch, h1, testPass, hb, List.foldlM_nil, perBatch, hq', if_true, if_neg hq, bind, Except.bind, pure, Except.pure]

end TorchMPS
