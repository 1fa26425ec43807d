import Verif.Props.Train
import Verif.Props.Adaptive
import Verif.Props.AdaptiveExact
import Verif.Props.Witness
/-
C77: the training script in adaptive mode.
-/
namespace TorchMPS
open Spec

/-- the network of the script with `adaptive_mode = True` -/
noncomputable def adNet (svd : Mat ℝ → SVD) (pop : List Char → Char) : Net (AdMps × Option ℕ) :=
  fun s x => (s.1.forward svd pop x s.2)

theorem adForward_ok (svd : Mat ℝ → SVD) (pop : List Char → Char) (m : AdMps) (x y : Tensor ℝ) (g : Option ℕ) (hp : m.mps.path = none)
    (B n : ℕ) (hx : x.shape = [B, n]) (h : (m.forward svd pop x g).1 = .ok y) :
    ∃ e m' g', Embedded m.mps x e ∧ m.forward svd pop x g = (.ok y, m', g') ∧ e.shape.getD 0 0 = B ∧ m'.mps.path = none := by
  unfold AdMps.forward at h ⊢
  cases he : (followPath m.mps.path x >>= m.mps.embedInput) with
  | error er => rw [he] at h; cases h
  | ok e =>
    rw [he] at h
    simp only at h ⊢
    obtain ⟨x', h1, h2⟩ := bind_ok_inv he
    have hxx : x' = x := by
      rw [hp] at h1
      simp only [followPath, Except.ok.injEq] at h1
      exact h1.symm
    have hs := embed_shape m.mps x' e h2
    rcases hf : m.region.maybeFlip svd pop with ⟨_ | nb, r⟩
    · rw [hf] at h; cases h
    rw [hf] at h
    simp only at h ⊢
    rcases hl : linearForward _ m.mps.periodic m.mps.parallel e g with ⟨_ | y', g'⟩
    · rw [hl] at h; cases h
    rw [hl] at h
    simp only at h ⊢
    have hB : e.shape.getD 0 0 = B := by rw [hs, hxx, hx]; rfl
    cases nb with
    | none =>
      simp only [Except.ok.injEq] at h ⊢
      subst h
      exact ⟨e, _, _, ⟨x', h1, h2⟩, rfl, hB, hp⟩
    | some nb =>
      simp only at h ⊢
      split at h
      · rename_i hlen
        rw [if_pos hlen]
        simp only [Except.ok.injEq] at h
        subst h
        exact ⟨e, _, _, ⟨x', h1, h2⟩, rfl, hB, hp⟩
      · cases h

variable (svd : Mat ℝ → SVD) (pop : List Char → Char)

theorem ad_test_fold (cfg : TrainCfg) (argmax : List ℝ → ℕ) (ds : DataSet) (bs : List (List ℕ)) :
    ∀ (m : AdMps) (g : Option ℕ) (a : ℝ) (st : (AdMps × Option ℕ) × ℝ), m.mps.path = none →
    bs.foldlM (testBatch cfg argmax (adNet svd pop) ds) ((m, g), a) = .ok st →
    st.1.1.mps.path = none ∧ ∀ Bs fs m'' g'', History svd pop st.1.1 st.1.2 Bs fs m'' g'' →
      ∃ fs', History svd pop m g (List.replicate bs.length cfg.batchSize ++ Bs) fs' m'' g'' := by
  induction bs with
  | nil => intro m g a st hp h; cases h; exact ⟨hp, fun Bs fs m'' g'' hh => ⟨fs, hh⟩⟩
  | cons l bs ih =>
    intro m g a st hp h
    rw [List.foldlM_cons] at h
    obtain ⟨st1, h1, h2⟩ := bind_ok_inv h
    obtain ⟨x, y, c, hx, h3, -, h5⟩ := testBatch_inv cfg argmax (adNet svd pop) ds _ st1 l h1
    obtain ⟨e, m', g', k1, k2, k3, k4⟩ := adForward_ok svd pop m x y g hp _ _ hx h3
    have hst : st1 = ((m', g'), a + c / cfg.batchSize) := by
      rw [h5]
      simp only [adNet, k2]
    rw [hst] at h2
    obtain ⟨i1, i2⟩ := ih m' g' _ st k4 h2
    refine ⟨i1, fun Bs fs m'' g'' hh => ?_⟩
    obtain ⟨fs', hh'⟩ := i2 Bs fs m'' g'' hh
    have hc := History.call k1 k2 hh'
    rw [k3] at hc
    exact ⟨_, hc⟩

theorem ad_train_fold (cfg : TrainCfg) (argmax : List ℝ → ℕ) (ds : DataSet) (opt : AdMps × Option ℕ → Tensor ℝ → List ℕ → AdMps × Option ℕ)
    (hopt : ∀ m g x ys, Trained m (opt (m, g) x ys).1) (bs : List (List ℕ)) :
    ∀ (st st' : TrainState (AdMps × Option ℕ)), st.net.1.mps.path = none →
    bs.foldlM (trainBatch cfg argmax (adNet svd pop) opt ds) st = .ok st' →
    st'.net.1.mps.path = none ∧ ∀ Bs fs m'' g'', History svd pop st'.net.1 st'.net.2 Bs fs m'' g'' →
      ∃ fs', History svd pop st.net.1 st.net.2 (List.replicate bs.length cfg.batchSize ++ Bs) fs' m'' g'' := by
  induction bs with
  | nil => intro st st' hp h; cases h; exact ⟨hp, fun Bs fs m'' g'' hh => ⟨fs, hh⟩⟩
  | cons l bs ih =>
    rintro ⟨⟨m, g⟩, a, a'⟩ st' hp h
    rw [List.foldlM_cons] at h
    obtain ⟨st1, h1, h2⟩ := bind_ok_inv h
    obtain ⟨x, y, c, ls, hx, h3, -, -, h5⟩ := trainBatch_inv cfg argmax (adNet svd pop) opt ds _ st1 l h1
    obtain ⟨e, m', g', k1, k2, k3, k4⟩ := adForward_ok svd pop m x y g hp _ _ hx h3
    have hst : st1 = ⟨opt (m', g') x (l.map ds.label), a + ls, a' + c / cfg.batchSize⟩ := by
      rw [h5]
      simp only [adNet, k2]
    have htr := hopt m' g' x (l.map ds.label)
    have hp1 : st1.net.1.mps.path = none := by
      rw [hst]
      obtain ⟨l0, l1, e1, -⟩ := htr
      simp only [e1]
      exact k4
    obtain ⟨i1, i2⟩ := ih st1 st' hp1 h2
    refine ⟨i1, fun Bs fs m'' g'' hh => ?_⟩
    obtain ⟨fs', hh'⟩ := i2 Bs fs m'' g'' hh
    rw [hst] at hh'
    have hc := History.call k1 k2 (History.other (g' := (opt (m', g') x (l.map ds.label)).2) (History.train htr hh'))
    rw [k3] at hc
    exact ⟨_, hc⟩

theorem history_trans {svd : Mat ℝ → SVD} {pop : List Char → Char} {m m' m'' : AdMps} {g g' g'' : Option ℕ} {Bs Bs' : List ℕ} {fs fs' : List Bool}
    (h : History svd pop m g Bs fs m' g') (h' : History svd pop m' g' Bs' fs' m'' g'') :
    History svd pop m g (Bs ++ Bs') (fs ++ fs') m'' g'' := by
  induction h with
  | nil => exact h'
  | call a b _ ih => exact .call a b (ih h')
  | failed a b c _ ih => exact .failed a b c (ih h')
  | rejected a b _ ih => exact .rejected a b (ih h')
  | train a _ ih => exact .train a (ih h')
  | other _ ih => exact .other (ih h')
  | register a _ ih => exact .register a (ih h')

/-- a call of an adaptive model of the kind the script builds -/
theorem ad_call_ok (hsvd : ∀ A, IsSVD A (svd A)) (hpop : ∀ x xs, pop (x :: xs) ∈ x :: xs)
    (n O k : ℕ) (m : AdMps) (h : ScriptAd n O k m) (hflip : m.region.threshold ≤ m.region.counter → FlipGood svd k m) (g : Option ℕ)
    (x : Tensor ℝ) (B : ℕ) (hx : x.shape = [B, n]) :
    ∃ y m' g', m.forward svd pop x g = (.ok y, m', g') ∧ y.shape = [B, O] ∧ m'.mps = m.mps ∧ Embedded m.mps x (embedLinear x) ∧
      (embedLinear x).shape.getD 0 0 = B := by
  obtain ⟨h0, hk, hD, hcut, hn, hO, hF, hpa, hfm⟩ := h
  have he : Embedded m.mps x (embedLinear x) := by
    refine ⟨x, by rw [hpa]; rfl, ?_⟩
    unfold MPS.embedInput
    have e1 : x.ndim = 2 := by simp [Tensor.ndim, hx]
    rw [assert_true _ (Or.inl e1), assert_true _ (by rw [hx, hn]; rfl), hfm]
    simp [e1, hF, bind, Except.bind]
  have hB : (embedLinear x).shape.getD 0 0 = B := by simp [embedLinear, hx]
  have hg : BatchKnown k ((embedLinear x).shape.getD 0 0) g := Or.inl hk
  suffices hh : ∃ y m' g', m.forward svd pop x g = (.ok y, m', g') ∧ y.shape = [B, O] ∧ m'.mps = m.mps by
    obtain ⟨y, m', g', a, b, c⟩ := hh
    exact ⟨y, m', g', a, b, c, he, hB⟩
  by_cases hdue : m.region.threshold ≤ m.region.counter
  · obtain ⟨f1, f2, f3, f4⟩ := hflip hdue
    have hns : ¬ Stuck m.region.offset k m.mps.inputDim := by
      rintro (⟨a, b⟩ | ⟨a, b⟩)
      · exact f1 ⟨b, a⟩
      · exact f2 ⟨b, a.symm⟩
    rcases flip_call svd hsvd pop hpop k m h0 hD hdue hns x _ he g with (⟨z, z1⟩ | ⟨z, z1, z2⟩) | ⟨l, bs, a, c1, cb, c2, c3, c4, c5, c6, c7⟩
    · exact absurd z1 f3
    · obtain ⟨u, u1, u2⟩ := z2 hcut
      exact absurd u2 (f4 u u1)
    · obtain ⟨y, g3, y1, y2, _⟩ := c6 (Or.inl hg)
      exact ⟨y, _, g3, y1, by rw [y2, hB, hO], rfl⟩
  · have hoff := h0.offset
    obtain ⟨y, g3, y1, y2, _⟩ := merged_eval m.mps.bondDim m.mps.featureDim m.mps.outputDim m.region.offset k m.mps.inputDim _ hoff h0.label
      (by have := h0.size; omega) _ (listAt_shape k m h0 _ hoff) m.mps.periodic m.mps.parallel (Or.inr hD) _ (embedded_shape _ x _ he) g
      (hg.elim (fun h => Or.inr (by omega)) Or.inl)
    refine ⟨y, { m with region := { m.region with counter := m.region.counter + (embedLinear x).shape.getD 0 0 } }, g3, ?_, by rw [y2, hB, hO], ?_⟩
    · unfold AdMps.forward
      rw [ad_forward_eq svd pop m x _ he]
      simp only [AdRegion.maybeFlip]
      rw [if_neg hdue]
      simp only
      have : AdRegion.active { m.region with counter := m.region.counter + (embedLinear x).shape.getD 0 0 } = m.region.listAt m.region.offset := by
        unfold AdRegion.active
        simp only [h0.stray]
        rfl
      rw [this, y1]
    · rfl


theorem numCorrect_ok (ps ys : List ℕ) (h : ps.length = ys.length) : ∃ c, numCorrect ps ys = .ok c := ⟨_, by unfold numCorrect; rw [if_pos h]⟩

theorem scores_ok (argmax : List ℝ → ℕ) (ds : DataSet) (idxs : List ℕ) (B O : ℕ) (hO : O ≠ 0) (hl : idxs.length = B) (hy : ∀ i ∈ idxs, ds.label i < O)
    (y : Tensor ℝ) (hs : y.shape = [B, O]) : ∃ ps c l, predictions argmax y = .ok ps ∧ numCorrect ps (idxs.map ds.label) = .ok c ∧
      crossEntropy y (idxs.map ds.label) = .ok l := by
  have h1 : predictions argmax y = .ok ((List.range B).map (fun b => argmax (scoreRow y b))) := by
    unfold predictions
    rw [if_neg (by simp [hs, hO]), hs]
    rfl
  obtain ⟨c, h2⟩ := numCorrect_ok ((List.range B).map (fun b => argmax (scoreRow y b))) (idxs.map ds.label) (by simp [hl])
  have h3 : ∃ l, crossEntropy y (idxs.map ds.label) = .ok l := by
    unfold crossEntropy
    rw [if_neg (by simp [hs, hl]), if_neg]
    · exact ⟨_, rfl⟩
    rintro ⟨z, hz, hz'⟩
    obtain ⟨i, hi, rfl⟩ := List.mem_map.1 hz
    have := hy i hi
    rw [hs] at hz'
    simp at hz'
    omega
  obtain ⟨l, h3⟩ := h3
  exact ⟨_, c, l, h1, h2, h3⟩

/-- the models reached from `m` by `t` images -/
def AdReached (svd : Mat ℝ → SVD) (pop : List Char → Char) (m : AdMps) (g : Option ℕ) (n O k t : ℕ) (s : AdMps × Option ℕ) : Prop :=
  ScriptAd n O k s.1 ∧ s.1.mps = m.mps ∧ ∃ Bs fs, History svd pop m g Bs fs s.1 s.2 ∧ Bs.sum = t

theorem ad_reached_step (hsvd : ∀ A, IsSVD A (svd A)) (hpop : ∀ x xs, pop (x :: xs) ∈ x :: xs) (n O k : ℕ) (m : AdMps) (g : Option ℕ)
    (hm : ScriptAd n O k m) (T : ℕ) (hflip : ∀ Bs fs m' g', History svd pop m g Bs fs m' g' → Bs.sum < T →
      m'.region.threshold ≤ m'.region.counter → FlipGood svd k m') (t : ℕ) (s : AdMps × Option ℕ) (hs : AdReached svd pop m g n O k t s) (ht : t < T)
    (x : Tensor ℝ) (B : ℕ) (hx : x.shape = [B, n]) :
    ∃ y s', adNet svd pop s x = (.ok y, s') ∧ y.shape = [B, O] ∧ AdReached svd pop m g n O k (t + B) s' := by
  obtain ⟨m1, g1⟩ := s
  obtain ⟨h1, h2, Bs, fs, h3, h4⟩ := hs
  obtain ⟨y, m', g', a1, a2, a3, a4, a5⟩ := ad_call_ok svd pop hsvd hpop n O k m1 h1 (fun hd => hflip Bs fs m1 g1 h3 (by omega) hd) g1 x B hx
  have hh : History svd pop m g (Bs ++ [(embedLinear x).shape.getD 0 0]) _ m' g' := history_trans h3 (.call a4 a1 (.nil m' g'))
  refine ⟨y, (m', g'), a1, a2, ?_, a3.trans h2, _, _, hh, by rw [List.sum_append, h4, a5]; simp⟩
  have hst := C61_structure svd hsvd pop hpop k m m' g g' _ _ hm.1 hm.2.2.1 hh
  obtain ⟨b1, b2, b3, b4, b5, b6, b7, b8, b9⟩ := h1
  refine ⟨hst.1, b2, ?_⟩
  simp only at a3 b3 b5 b6 b7 b8 b9 ⊢
  rw [a3]
  exact ⟨b3, by rw [hst.2.2.1]; exact hm.2.2.2.1, b5, b6, b7, b8, b9⟩

theorem ad_reached_train (hsvd : ∀ A, IsSVD A (svd A)) (hpop : ∀ x xs, pop (x :: xs) ∈ x :: xs) (n O k t : ℕ) (m : AdMps) (g : Option ℕ)
    (hm : ScriptAd n O k m) (s s' : AdMps × Option ℕ) (hs : AdReached svd pop m g n O k t s) (htr : Trained s.1 s'.1) :
    AdReached svd pop m g n O k t s' := by
  obtain ⟨m1, g1⟩ := s
  obtain ⟨m2, g2⟩ := s'
  obtain ⟨h1, h2, Bs, fs, h3, h4⟩ := hs
  have hh : History svd pop m g (Bs ++ []) (fs ++ []) m2 g2 := history_trans h3 (.other (.train htr (.nil m2 g2)))
  have hst := C61_structure svd hsvd pop hpop k m m2 g g2 _ _ hm.1 hm.2.2.1 hh
  have hmp : m2.mps = m1.mps := by
    obtain ⟨l0, l1, e1, -⟩ := htr
    simp only at e1
    rw [e1]
  obtain ⟨b1, b2, b3, b4, b5, b6, b7, b8, b9⟩ := h1
  refine ⟨⟨hst.1, b2, ?_⟩, hmp.trans h2, _, _, hh, by simpa using h4⟩
  simp only at hmp b3 b5 b6 b7 b8 b9 ⊢
  rw [hmp]
  exact ⟨b3, by rw [hst.2.2.1]; exact hm.2.2.2.1, b5, b6, b7, b8, b9⟩

theorem ad_test_ok (hsvd : ∀ A, IsSVD A (svd A)) (hpop : ∀ x xs, pop (x :: xs) ∈ x :: xs) (cfg : TrainCfg) (O k : ℕ) (hO : O ≠ 0) (m : AdMps) (g : Option ℕ)
    (hm : ScriptAd cfg.inputDim O k m) (T : ℕ) (hflip : ∀ Bs fs m' g', History svd pop m g Bs fs m' g' → Bs.sum < T →
      m'.region.threshold ≤ m'.region.counter → FlipGood svd k m') (ds : DataSet) (N : ℕ) (sh : Shape) (hsh : sh.prod = cfg.inputDim)
    (hd : ValidData ds N O sh) (hB : cfg.batchSize ≠ 0) (argmax : List ℝ → ℕ) (bs : List (List ℕ))
    (hbs : ∀ l ∈ bs, l.length = cfg.batchSize ∧ ∀ i ∈ l, i < N) : ∀ (t : ℕ) (s : AdMps × Option ℕ) (a : ℝ),
    AdReached svd pop m g cfg.inputDim O k t s → t + bs.length * cfg.batchSize ≤ T →
    ∃ s' a', bs.foldlM (testBatch cfg argmax (adNet svd pop) ds) (s, a) = .ok (s', a') ∧
      AdReached svd pop m g cfg.inputDim O k (t + bs.length * cfg.batchSize) s' := by
  induction bs with
  | nil => intro t s a h _; exact ⟨s, a, rfl, by simpa using h⟩
  | cons l bs ih =>
    intro t s a h hT
    obtain ⟨hl1, hl2⟩ := hbs l (by simp)
    have hmul : (l :: bs).length * cfg.batchSize = cfg.batchSize + bs.length * cfg.batchSize := by
      rw [List.length_cons]; ring
    obtain ⟨z, x, c1, c2, c3, -⟩ := collate_view ds l cfg.batchSize cfg.inputDim sh hl1 hB hsh (fun i hi => (hd i (hl2 i hi)).1)
    obtain ⟨y, s', d1, d2, d3⟩ := ad_reached_step svd pop hsvd hpop _ O k m g hm T hflip t s h (by omega) x _ c3
    obtain ⟨ps, c, ls, e1, e2, e3⟩ := scores_ok argmax ds l cfg.batchSize O hO hl1 (fun i hi => (hd i (hl2 i hi)).2) y d2
    have hstep : testBatch cfg argmax (adNet svd pop) ds (s, a) l = .ok (s', a + c / cfg.batchSize) := by
      unfold testBatch
      simp only [c1, c2, d1, e1, e2, bind, Except.bind, pure, Except.pure]
    obtain ⟨s2, a2, f1, f2⟩ := ih (fun l hl => hbs l (by simp [hl])) (t + cfg.batchSize) s' (a + c / cfg.batchSize) d3 (by omega)
    refine ⟨s2, a2, ?_, by rw [hmul, ← Nat.add_assoc]; exact f2⟩
    rw [List.foldlM_cons, hstep]
    exact f1

theorem ad_train_ok (hsvd : ∀ A, IsSVD A (svd A)) (hpop : ∀ x xs, pop (x :: xs) ∈ x :: xs) (cfg : TrainCfg) (O k : ℕ) (hO : O ≠ 0) (m : AdMps) (g : Option ℕ)
    (hm : ScriptAd cfg.inputDim O k m) (T : ℕ) (hflip : ∀ Bs fs m' g', History svd pop m g Bs fs m' g' → Bs.sum < T →
      m'.region.threshold ≤ m'.region.counter → FlipGood svd k m') (ds : DataSet) (N : ℕ) (sh : Shape) (hsh : sh.prod = cfg.inputDim)
    (hd : ValidData ds N O sh) (hB : cfg.batchSize ≠ 0) (argmax : List ℝ → ℕ)
    (opt : AdMps × Option ℕ → Tensor ℝ → List ℕ → AdMps × Option ℕ) (hopt : ∀ m g x ys, Trained m (opt (m, g) x ys).1) (bs : List (List ℕ))
    (hbs : ∀ l ∈ bs, l.length = cfg.batchSize ∧ ∀ i ∈ l, i < N) : ∀ (t : ℕ) (st : TrainState (AdMps × Option ℕ)),
    AdReached svd pop m g cfg.inputDim O k t st.net → t + bs.length * cfg.batchSize ≤ T →
    ∃ st', bs.foldlM (trainBatch cfg argmax (adNet svd pop) opt ds) st = .ok st' ∧
      AdReached svd pop m g cfg.inputDim O k (t + bs.length * cfg.batchSize) st'.net := by
  induction bs with
  | nil => intro t st h _; exact ⟨st, rfl, by simpa using h⟩
  | cons l bs ih =>
    intro t st h hT
    obtain ⟨hl1, hl2⟩ := hbs l (by simp)
    have hmul : (l :: bs).length * cfg.batchSize = cfg.batchSize + bs.length * cfg.batchSize := by
      rw [List.length_cons]; ring
    obtain ⟨z, x, c1, c2, c3, -⟩ := collate_view ds l cfg.batchSize cfg.inputDim sh hl1 hB hsh (fun i hi => (hd i (hl2 i hi)).1)
    obtain ⟨y, s', d1, d2, d3⟩ := ad_reached_step svd pop hsvd hpop _ O k m g hm T hflip t st.net h (by omega) x _ c3
    obtain ⟨ps, c, ls, e1, e2, e3⟩ := scores_ok argmax ds l cfg.batchSize O hO hl1 (fun i hi => (hd i (hl2 i hi)).2) y d2
    have hstep : trainBatch cfg argmax (adNet svd pop) opt ds st l =
        .ok ⟨opt s' x (l.map ds.label), st.loss + ls, st.acc + c / cfg.batchSize⟩ := by
      unfold trainBatch
      simp only [c1, c2, d1, e1, e2, e3, bind, Except.bind, pure, Except.pure]
    obtain ⟨s2, f1, f2⟩ := ih (fun l hl => hbs l (by simp [hl])) (t + cfg.batchSize) ⟨opt s' x (l.map ds.label), st.loss + ls, st.acc + c / cfg.batchSize⟩
      (ad_reached_train svd pop hsvd hpop _ O k _ m g hm s' _ d3 (hopt s'.1 s'.2 x _)) (by omega)
    refine ⟨s2, ?_, by rw [hmul, ← Nat.add_assoc]; exact f2⟩
    rw [List.foldlM_cons, hstep]
    exact f1

/-- C77, adaptive mode. The run completes if every change of the merge state which becomes due in it can be made: after any history of fewer images
than the run uses. -/
theorem C77_adaptive_completes (hsvd : ∀ A, IsSVD A (svd A)) (hpop : ∀ x xs, pop (x :: xs) ∈ x :: xs) (cfg : TrainCfg) (O k : ℕ) (hO : O ≠ 0)
    (m : AdMps) (g : Option ℕ) (hm : ScriptAd cfg.inputDim O k m)
    (hflip : ∀ Bs fs m' g', History svd pop m g Bs fs m' g' →
      Bs.sum < cfg.numEpochs * (cfg.numTrain / cfg.batchSize + cfg.numTest / cfg.batchSize) * cfg.batchSize →
      m'.region.threshold ≤ m'.region.counter → FlipGood svd k m')
    (train test : DataSet) (sh : Shape) (hsh : sh.prod = cfg.inputDim) (hd : ValidData train cfg.numTrain O sh) (hd' : ValidData test cfg.numTest O sh)
    (argmax : List ℝ → ℕ) (opt : AdMps × Option ℕ → Tensor ℝ → List ℕ → AdMps × Option ℕ) (hopt : ∀ m g x ys, Trained m (opt (m, g) x ys).1)
    (pt pe : ℕ → List ℕ) (ht : ∀ e, SamplerOrder cfg.numTrain (pt e)) (he : ∀ e, SamplerOrder cfg.numTest (pe e))
    (hB : 1 ≤ cfg.batchSize) (hN : cfg.batchSize ≤ cfg.numTrain) (hN' : cfg.batchSize ≤ cfg.numTest) :
    ∃ m' g' rs, trainScript cfg argmax (adNet svd pop) opt train test pt pe (m, g) = .ok ((m', g'), rs) ∧ rs.length = cfg.numEpochs ∧
      ScriptAd cfg.inputDim O k m' := by
  set P := (cfg.numTrain / cfg.batchSize + cfg.numTest / cfg.batchSize) * cfg.batchSize with hP
  have hq : cfg.numTrain / cfg.batchSize ≠ 0 := by have := Nat.div_pos hN hB; omega
  have hq' : cfg.numTest / cfg.batchSize ≠ 0 := by have := Nat.div_pos hN' hB; omega
  have hT : cfg.numEpochs * (cfg.numTrain / cfg.batchSize + cfg.numTest / cfg.batchSize) * cfg.batchSize = cfg.numEpochs * P := by
    rw [hP, Nat.mul_assoc]
  rw [hT] at hflip
  have key : ∀ j e t (s : AdMps × Option ℕ), AdReached svd pop m g cfg.inputDim O k t s → t + j * P ≤ cfg.numEpochs * P →
      ∃ s' rs, trainFrom cfg argmax (adNet svd pop) opt train test pt pe e j s = .ok (s', rs) ∧ rs.length = j ∧ ScriptAd cfg.inputDim O k s'.1 := by
    intro j
    induction j with
    | zero => intro e t s hs _; exact ⟨s, [], by simp [trainFrom], rfl, hs.1⟩
    | succ j ih =>
      intro e t s hs hle
      have hsplit : (j + 1) * P = P + j * P := by ring
      have hPsplit : P = cfg.numTrain / cfg.batchSize * cfg.batchSize + cfg.numTest / cfg.batchSize * cfg.batchSize := by rw [hP]; ring
      obtain ⟨st, a1, a2⟩ := ad_train_ok svd pop hsvd hpop cfg O k hO m g hm _ hflip train cfg.numTrain sh hsh hd (by omega) argmax opt hopt
        (loaderBatches cfg.batchSize (pt e)) (loader_valid (ht e) _) t ⟨s, 0, 0⟩ hs
        (by rw [loaderBatches_length, samplerOrder_length (ht e)]; omega)
      rw [loaderBatches_length, samplerOrder_length (ht e)] at a2
      obtain ⟨s1, acc, b1, b2⟩ := ad_test_ok svd pop hsvd hpop cfg O k hO m g hm _ hflip test cfg.numTest sh hsh hd' (by omega) argmax
        (loaderBatches cfg.batchSize (pe e)) (loader_valid (he e) _) _ st.net 0 a2
        (by rw [loaderBatches_length, samplerOrder_length (he e)]; omega)
      rw [loaderBatches_length, samplerOrder_length (he e)] at b2
      obtain ⟨s', rs, c1, c2, c3⟩ := ih (e + 1) _ s1 b2 (by omega)
      refine ⟨s', ⟨st.loss / (cfg.numTrain / cfg.batchSize : ℕ), st.acc / (cfg.numTrain / cfg.batchSize : ℕ),
        acc / (cfg.numTest / cfg.batchSize : ℕ)⟩ :: rs, ?_, by simp [c2], c3⟩
      have h1 : trainEpoch cfg argmax (adNet svd pop) opt train test (pt e) (pe e) s = .ok (s1, ⟨st.loss / (cfg.numTrain / cfg.batchSize : ℕ),
          st.acc / (cfg.numTrain / cfg.batchSize : ℕ), acc / (cfg.numTest / cfg.batchSize : ℕ)⟩) := by
        unfold trainEpoch testPass
        rw [a1]
        simp only [bind, Except.bind, pure, Except.pure, perBatch, if_neg hq, if_neg hq', b1]
      simp only [trainFrom, h1, bind_ok_except, c1, pure, Except.pure]
  obtain ⟨⟨m', g'⟩, rs, h1, h2, h3⟩ := key cfg.numEpochs 1 0 (m, g) ⟨hm, rfl, [], [], .nil m g, rfl⟩ (by omega)
  refine ⟨m', g', rs, ?_, h2, h3⟩
  unfold trainScript
  rw [if_neg (by omega)]
  exact h1

/-- C77, adaptive mode. In a run which ends, the merge state is flipped as if the images of the evaluations were training images: all of
them count towards the merge threshold, so the evaluation of the test set changes the model. -/
theorem C77_adaptive (cfg : TrainCfg) (argmax : List ℝ → ℕ) (train test : DataSet)
    (opt : AdMps × Option ℕ → Tensor ℝ → List ℕ → AdMps × Option ℕ) (hopt : ∀ m g x ys, Trained m (opt (m, g) x ys).1)
    (pt pe : ℕ → List ℕ) (ht : ∀ e, SamplerOrder cfg.numTrain (pt e)) (he : ∀ e, SamplerOrder cfg.numTest (pe e))
    (m m' : AdMps) (g g' : Option ℕ) (rs : List EpochReport) (hp : m.mps.path = none) (hm : m.region.offset ≤ 1)
    (h : trainScript cfg argmax (adNet svd pop) opt train test pt pe (m, g) = .ok ((m', g'), rs)) :
    ∃ flips, m'.region.counter + m.region.threshold * flips = m.region.counter +
        cfg.numEpochs * (cfg.numTrain / cfg.batchSize + cfg.numTest / cfg.batchSize) * cfg.batchSize ∧
      m'.region.offset = (m.region.offset + flips) % 2 := by
  have key : ∀ k e (m : AdMps) (g : Option ℕ) (st : (AdMps × Option ℕ) × List EpochReport), m.mps.path = none →
      trainFrom cfg argmax (adNet svd pop) opt train test pt pe e k (m, g) = .ok st →
      ∀ Bs fs m'' g'', History svd pop st.1.1 st.1.2 Bs fs m'' g'' → ∃ Bs' fs', History svd pop m g (Bs' ++ Bs) fs' m'' g'' ∧
        Bs'.sum = k * (cfg.numTrain / cfg.batchSize + cfg.numTest / cfg.batchSize) * cfg.batchSize := by
    intro k
    induction k with
    | zero =>
      intro e m g st hp h Bs fs m'' g'' hh
      simp only [trainFrom, Except.ok.injEq] at h
      rw [← h] at hh
      exact ⟨[], fs, hh, by simp⟩
    | succ k ih =>
      intro e m g st hp h Bs fs m'' g'' hh
      simp only [trainFrom] at h
      obtain ⟨⟨s1, r⟩, h1, h⟩ := bind_ok_inv h
      obtain ⟨⟨s2, rs'⟩, h2, h⟩ := bind_ok_inv h
      simp only [pure, Except.pure, Except.ok.injEq] at h
      rw [← h] at hh
      unfold trainEpoch at h1
      obtain ⟨st1, a1, h1⟩ := bind_ok_inv h1
      obtain ⟨l, -, h1⟩ := bind_ok_inv h1
      obtain ⟨ta, -, h1⟩ := bind_ok_inv h1
      obtain ⟨⟨s3, te⟩, a2, h1⟩ := bind_ok_inv h1
      simp only [pure, Except.pure, Except.ok.injEq, Prod.mk.injEq] at h1
      obtain ⟨h1, -⟩ := h1
      unfold testPass at a2
      obtain ⟨⟨s4, a⟩, a3, a2⟩ := bind_ok_inv a2
      obtain ⟨b, -, a2⟩ := bind_ok_inv a2
      simp only [pure, Except.pure, Except.ok.injEq, Prod.mk.injEq] at a2
      obtain ⟨a2, -⟩ := a2
      obtain ⟨t1, t2⟩ := ad_train_fold svd pop cfg argmax train opt hopt _ _ _ hp a1
      obtain ⟨u1, u2⟩ := ad_test_fold svd pop cfg argmax test _ st1.net.1 st1.net.2 0 (s4, a) t1 a3
      simp only at u1 u2
      rw [a2, h1] at u1 u2
      obtain ⟨Bs', fs', v1, v2⟩ := ih (e + 1) s1.1 s1.2 (s2, rs') u1 h2 Bs fs m'' g'' hh
      obtain ⟨fs2, w1⟩ := u2 _ _ _ _ v1
      obtain ⟨fs3, w2⟩ := t2 _ _ _ _ w1
      rw [← List.append_assoc, ← List.append_assoc] at w2
      refine ⟨_, fs3, w2, ?_⟩
      rw [List.sum_append, List.sum_append, List.sum_replicate, List.sum_replicate, loaderBatches_length, loaderBatches_length,
        samplerOrder_length (ht e), samplerOrder_length (he e), v2]
      simp only [smul_eq_mul]
      ring
  unfold trainScript at h
  split at h
  · cases h
  obtain ⟨Bs', fs', h1, h2⟩ := key cfg.numEpochs 1 m g ((m', g'), rs) hp h [] [] m' g' (History.nil m' g')
  rw [List.append_nil] at h1
  obtain ⟨c1, c2, c3, c4, -⟩ := C60_flips svd pop m m' g g' Bs' fs' hm h1
  exact ⟨_, by rw [c3, h2], c4⟩

/-! ### the script itself -/

/-- the arguments of the constructor in the script, train_script.py:12-30 -/
noncomputable def scriptArgs : MpsArgs := ⟨28 ^ 2, 10, 20, 2, false, false, none, .none, 1e-9, true⟩

/-- the constants of the script -/
def scriptCfg : TrainCfg := ⟨2000, 1000, 100, 20, 28 ^ 2⟩

/-- black images, all of class 3 -/
def black (sh : Shape) : DataSet := ⟨fun _ => ⟨sh, fun _ => 0⟩, fun _ => 3⟩

theorem black_valid (N O : ℕ) (h : 3 < O) (sh : Shape) : ValidData (black sh) N O sh := fun _ _ => ⟨rfl, h⟩

theorem script_model (d : Draws) : ∃ m, MPS.init d scriptArgs = .ok m ∧ ScriptMps scriptCfg.inputDim 10 m := by
  obtain ⟨m, p, h1, h2, h3, h4, h5, h6, h7, h8, h9, h10⟩ := C55_construction d scriptArgs 392 (by simp [scriptArgs]) (Or.inr ⟨rfl, by simp [scriptArgs]⟩) none rfl
  have e : m.inputDim = 784 := by rw [h3]; simp [scriptArgs]
  refine ⟨m, h1, ⟨392, _, p, h2, by norm_num, ?_⟩, Or.inr (by rw [h5]; simp [scriptArgs]), e, h4, h6, h9, h10⟩
  rw [e]
  exact ⟨by norm_num, by norm_num⟩

/-- C77_completes, C77_epoch, C77_test_accuracy (and C77_reports) for the model and the constants of the script; images of the shape of MNIST. -/
example (d : Draws) (argmax : List ℝ → ℕ) : ∃ m s' rs, MPS.init d scriptArgs = .ok m ∧
    trainScript scriptCfg argmax mpsNet (fun s _ _ => s) (black [1, 28, 28]) (black [1, 28, 28]) (fun _ => List.range 2000) (fun _ => List.range 1000)
      (m, none) = .ok (s', rs) ∧ rs.length = 20 ∧ ∀ r ∈ rs, 0 ≤ r.loss ∧ (0 ≤ r.trainAcc ∧ r.trainAcc ≤ 1) ∧ 0 ≤ r.testAcc ∧ r.testAcc ≤ 1 := by
  obtain ⟨m, h1, h2⟩ := script_model d
  obtain ⟨s', rs, k1, k2, -⟩ := C77_completes scriptCfg 10 (by norm_num) m h2 none (black [1, 28, 28]) (black [1, 28, 28]) [1, 28, 28] (by decide)
    (black_valid _ _ (by norm_num) _) (black_valid _ _ (by norm_num) _) argmax (fun s _ _ => s) (fun _ _ _ _ h => h) (fun _ => List.range 2000)
    (fun _ => List.range 1000) (fun _ => List.Perm.refl _) (fun _ => List.Perm.refl _) (by decide) (by decide) (by decide)
  exact ⟨m, s', rs, h1, k1, k2, (C77_reports scriptCfg argmax mpsNet _ _ _ _ _ (fun _ => List.Perm.refl _) (fun _ => List.Perm.refl _) _ _ _ k1).2⟩

/-- C77_test_accuracy_exact: an `argmax` which always answers 3 gets all black images right. -/
example (d : Draws) : ∃ m g', MPS.init d scriptArgs = .ok m ∧
    testPass scriptCfg (fun _ => 3) mpsNet (black [1, 28, 28]) (List.range 1000).reverse (m, none) = .ok ((m, g'), 1) := by
  obtain ⟨m, h1, h2⟩ := script_model d
  obtain ⟨g', acc, row, k1, -, k3⟩ := C77_test_accuracy_exact scriptCfg 10 (by norm_num) m h2 none (black [1, 28, 28]) [1, 28, 28] (by decide)
    (black_valid _ _ (by norm_num) _) (fun _ => 3) (List.range 1000).reverse (List.reverse_perm _) (by decide) (by decide) (by decide)
  refine ⟨m, g', h1, ?_⟩
  rw [k1, k3]
  have : correctAmong (fun _ => 3) (black [1, 28, 28]) row (List.range scriptCfg.numTest) = 1000 := by
    unfold correctAmong
    rw [List.countP_eq_length.2 (by simp [black])]
    simp [scriptCfg]
  rw [this]
  norm_num [scriptCfg]

/-- C77_too_few_training_images: 99 images, batches of 100 -/
example (s : ℕ) (call : Net ℕ) (ds : DataSet) : trainScript ⟨99, 1000, 100, 20, 784⟩ (fun _ => 0) call (fun s _ _ => s) ds ds (fun _ => List.range 99)
    (fun _ => List.range 1000) s = .error .zeroDivision :=
  C77_too_few_training_images _ _ _ _ _ _ _ _ (fun _ => List.Perm.refl _) s (by decide) (by decide)

/-- C77_too_few_test_images: 99 test images, batches of 100 -/
example (d : Draws) (argmax : List ℝ → ℕ) : ∃ m, MPS.init d scriptArgs = .ok m ∧
    trainScript ⟨2000, 99, 100, 20, 28 ^ 2⟩ argmax mpsNet (fun s _ _ => s) (black [1, 28, 28]) (black [1, 28, 28]) (fun _ => List.range 2000)
      (fun _ => List.range 99) (m, none) = .error .zeroDivision := by
  obtain ⟨m, h1, h2⟩ := script_model d
  exact ⟨m, h1, C77_too_few_test_images ⟨2000, 99, 100, 20, 28 ^ 2⟩ 10 (by norm_num) m h2 none (black [1, 28, 28]) (black [1, 28, 28]) [1, 28, 28] (by decide)
    (black_valid _ _ (by norm_num) _) argmax (fun s _ _ => s) (fun _ _ _ _ h => h) (fun _ => List.range 2000)
    (fun _ => List.range 99) (fun _ => List.Perm.refl _) (fun _ => List.Perm.refl _) (by decide) (by decide) (by decide)⟩

/-- C77_adaptive_completes and C77_adaptive: the script in adaptive mode, with a threshold of 70000 images instead of 2000, so that the merge state
does not change in the 60000 calls. -/
example (d : Draws) (argmax : List ℝ → ℕ) : ∃ m m' g' rs, AdMps.init d scriptArgs 1e-10 70000 = .ok m ∧
    trainScript scriptCfg argmax (adNet someSvd popHead) (fun s _ _ => s) (black [1, 28, 28]) (black [1, 28, 28]) (fun _ => List.range 2000)
      (fun _ => List.range 1000) (m, none) = .ok ((m', g'), rs) ∧ m'.region.counter = 60000 := by
  obtain ⟨m, h1, h2, h3, h4, h5, h6, h7, h8, h9, h10, h11, h12, h13, h14, h15, h16⟩ := C59_construction d scriptArgs 1e-10 70000 392
    (by simp [scriptArgs]) (by simp [scriptArgs]) (Or.inr ⟨rfl, by simp [scriptArgs]⟩) none rfl
  have hs : ScriptAd scriptCfg.inputDim 10 392 m :=
    ⟨h2, by norm_num, by rw [h5]; simp [scriptArgs], by rw [h14]; norm_num, h3, h4, h6, h9, h10⟩
  have htr : ∀ (m : AdMps) (g : Option ℕ) (x : Tensor ℝ) (ys : List ℕ), Trained m ((fun (s : AdMps × Option ℕ) (_ : Tensor ℝ) (_ : List ℕ) => s) (m, g) x ys).1 := by
    intro m g x ys
    have hr : ∀ l : List (Module ℝ), List.Forall₂ Retuned l l := fun l => List.forall₂_same.2 fun u _ => ⟨u.tensor, rfl, by cases u <;> rfl⟩
    exact ⟨_, _, rfl, hr _, hr _⟩
  obtain ⟨m', g', rs, k1, k2, k3⟩ := C77_adaptive_completes someSvd popHead someSvd_spec popHead_mem scriptCfg 10 392 (by norm_num) m none hs
    (by
      intro Bs fs m1 g1 hh hsum hdue
      obtain ⟨c1, -, c2, -⟩ := C60_flips someSvd popHead m m1 none g1 Bs fs h2.offset hh
      rw [c1, h13] at hdue
      rw [h12, h13] at c2
      have : scriptCfg.numEpochs * (scriptCfg.numTrain / scriptCfg.batchSize + scriptCfg.numTest / scriptCfg.batchSize) * scriptCfg.batchSize = 60000 := by
        decide
      omega)
    (black [1, 28, 28]) (black [1, 28, 28]) [1, 28, 28] (by decide) (black_valid _ _ (by norm_num) _) (black_valid _ _ (by norm_num) _) argmax
    (fun s _ _ => s) htr (fun _ => List.range 2000) (fun _ => List.range 1000) (fun _ => List.Perm.refl _) (fun _ => List.Perm.refl _)
    (by decide) (by decide) (by decide)
  obtain ⟨flips, f1, -⟩ := C77_adaptive someSvd popHead scriptCfg argmax (black [1, 28, 28]) (black [1, 28, 28]) (fun s _ _ => s) htr
    (fun _ => List.range 2000) (fun _ => List.range 1000) (fun _ => List.Perm.refl _) (fun _ => List.Perm.refl _) m m' none g' rs h9 h2.offset k1
  have e : scriptCfg.numEpochs * (scriptCfg.numTrain / scriptCfg.batchSize + scriptCfg.numTest / scriptCfg.batchSize) * scriptCfg.batchSize = 60000 := by
    decide
  rw [h12, h13, e] at f1
  refine ⟨m, m', g', rs, h1, k1, by omega⟩

/-- The evaluation changes an adaptive model: three training images, three test images, a threshold of 3 images. The merge state at the end is not the one
at the start, although no training image has been seen since the last step of the optimiser. -/
example (d : Draws) (argmax : List ℝ → ℕ) (img : ℕ → Tensor ℝ) (himg : ∀ i, (img i).shape = [2, 2]) (perm : List ℕ) (hp : SamplerOrder 3 perm) (g : Option ℕ) :
    ∃ m m1 m' g' acc, AdMps.init d exAdArgs (1 / 10) 3 = .ok m ∧ m1 = { m with region := { m.region with counter := 3 } } ∧
      testPass ⟨3, 3, 3, 1, 4⟩ argmax (adNet someSvd popHead) ⟨img, fun _ => 1⟩ perm (m1, g) = .ok ((m', g'), acc) ∧ m1.region.offset = 0 ∧
      m'.region.offset = 1 := by
  obtain ⟨m, h1, h2, h3, hper, h4, h5, h6, hfm, h7, h8, h9, h10, h11, h12, h13, h14⟩ := exAd_facts someSvd someSvd_spec d (1 / 10) (by norm_num) 3
  obtain ⟨m0, z1, _, _, z3, _, _, _, _, _, _, z2, _⟩ := C59_construction d exAdArgs (1 / 10) 3 1 (by decide) (by decide) (Or.inl rfl) none rfl
  rw [h1] at z1
  have z1 := Except.ok.inj z1
  subst z1
  obtain ⟨m1, hm1⟩ : ∃ m1 : AdMps, m1 = { m with region := { m.region with counter := 3 } } := ⟨_, rfl⟩
  have hs : ScriptAd 4 2 1 m1 := by
    rw [hm1]
    exact ⟨count_wf 1 m h2 _, le_rfl, h3.ge, by show 0 < m.region.cutoff; rw [h9]; norm_num, h4, z3, h6, h5, hfm⟩
  have hgood : FlipGood someSvd 1 m1 := by
    rw [hm1]
    refine ⟨by simp, ?_, h12, h13⟩
    show ¬ (m.mps.inputDim - 1 = 2 ∧ m.region.offset = 1 % 2)
    rw [h4]
    omega
  have hlen := samplerOrder_length hp
  have hb : loaderBatches 3 perm = [perm] := by
    unfold loaderBatches
    rw [hlen]
    simp [hlen, List.take_of_length_le]
  obtain ⟨t, x, c1, c2, c3, -⟩ := collate_view ⟨img, fun _ => 1⟩ perm 3 4 [2, 2] hlen (by norm_num) (by decide) (fun i _ => himg i)
  obtain ⟨y, m', g', a1, a2, a3, a4, a5⟩ := ad_call_ok someSvd popHead someSvd_spec popHead_mem 4 2 1 m1 hs (fun _ => hgood) g x 3 c3
  obtain ⟨ps, c, l, e1, e2, -⟩ := scores_ok argmax ⟨img, fun _ => 1⟩ perm 3 2 (by norm_num) hlen (by intro i _; show 1 < 2; norm_num) y a2
  have hoff : m'.region.offset = 1 := by
    have hh : History someSvd popHead m1 g [(embedLinear x).shape.getD 0 0] [decide (m'.region.offset ≠ m1.region.offset)] m' g' := .call a4 a1 (.nil _ _)
    obtain ⟨-, -, -, q2, q3⟩ := C60_flips someSvd popHead m1 m' g g' _ _ hs.1.offset hh
    have q4 := (q3 0 (by simp)).2 (by rw [hm1]; simp [h7])
    simp only [List.getD_cons_zero] at q4
    rw [q4] at q2
    rw [q2, hm1]
    show (m.region.offset + 1) % 2 = 1
    rw [z2]
  refine ⟨m, m1, m', g', 0 + c / (3 : ℕ), h1, hm1, ?_, by rw [hm1]; exact z2, hoff⟩
  unfold testPass
  simp only [hb, List.foldlM_cons, List.foldlM_nil, testBatch, c1, c2, adNet, a1, e1, e2, bind, Except.bind, pure, Except.pure, perBatch]
  simp

end TorchMPS
