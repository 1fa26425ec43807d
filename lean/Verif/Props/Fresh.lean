import Verif.Lemmas.Fresh
import Verif.Spec.Fresh
/-
C82: the outputs of newly constructed models.
-/
namespace TorchMPS
open Spec

attribute [local instance] Matrix.linftyOpNormedRing

/-- Everything known of a newly constructed model. -/
theorem mpsInit_inv (d : Draws) (a : MpsArgs) (k : ℕ) (hl : IsLabel a k) (m : MPS ℝ) (hm : MPS.init d a = .ok m) :
    ∃ p, IsMps k a.useBias p m ∧ m.inputDim = a.inputDim ∧ m.outputDim = a.outputDim ∧
      m.bondDim = a.bondDim ∧ m.featureDim = a.featureDim ∧ m.periodic = a.periodic ∧
      (∀ idx, p.left.get idx = a.initStd * d.left idx) ∧ (∀ idx, p.right.get idx = a.initStd * d.right idx) ∧
      (∀ o < a.outputDim, ∀ l < a.bondDim, ∀ r < a.bondDim, p.out.get [o, l, r] = (if l = r then 1 else 0) + a.initStd * d.out [o, l, r]) ∧
      (∀ l r, p.leftBias.get [0, l, r] = if l = r then 1 else 0) ∧ (∀ l r, p.rightBias.get [0, l, r] = if l = r then 1 else 0) := by
  have hpath : ∃ path, checkPath a.path a.inputDim = .ok path := by
    have h := hm
    unfold MPS.init at h
    obtain ⟨k', _, h⟩ := bind_ok_inv h
    obtain ⟨ms, _, h⟩ := bind_ok_inv h
    obtain ⟨_, _, h⟩ := bind_ok_inv h
    obtain ⟨path, hp, _⟩ := bind_ok_inv h
    exact ⟨path, hp⟩
  obtain ⟨path, hp⟩ := hpath
  obtain ⟨m', p, h1, h2, h3, h4, h5, h6, h7, h8, h9, h10, h11, h12, h13, h14, h15⟩ := init_params d a k hl.1 hl.2 path hp
  rw [h1] at hm
  cases hm
  exact ⟨p, h2, h3, h4, h5, h6, h7, h11, h12, h13, h14, h15⟩

theorem core_draw (d : Draws) (n k O D F : ℕ) (Z s : ℝ) (hd : DrawsBounded d n k O D F Z) (p : Params ℝ)
    (hL : ∀ idx, p.left.get idx = s * d.left idx) (hR : ∀ idx, p.right.get idx = s * d.right idx) (i : ℕ) (hi : i < n) (l r f : ℕ) (hl : l < D) (hr : r < D)
    (hf : f < F) : |p.core k i l r f| ≤ |s| * Z := by
  unfold Params.core
  split_ifs with h
  · rw [hL, abs_mul]
    exact mul_le_mul_of_nonneg_left (hd.left i h l hl r hr f hf) (abs_nonneg _)
  · rw [hR, abs_mul]
    exact mul_le_mul_of_nonneg_left (hd.right (i - k) (by omega) l hl r hr f hf) (abs_nonneg _)

/-- The contribution of the core to the matrix of a pixel. -/
theorem contracted_le (D F : ℕ) (A : ℕ → ℕ → ℕ → ℝ) (v : ℕ → ℝ) (S X : ℝ) (hS : 0 ≤ S) (hA : ∀ l < D, ∀ r < D, ∀ f < F, |A l r f| ≤ S)
    (hv : ∑ f ∈ Finset.range F, |v f| ≤ X) (l r : ℕ) (hl : l < D) (hr : r < D) : |∑ f ∈ Finset.range F, A l r f * v f| ≤ S * X := by
  refine (Finset.abs_sum_le_sum_abs _ _).trans ?_
  calc ∑ f ∈ Finset.range F, |A l r f * v f| ≤ ∑ f ∈ Finset.range F, S * |v f| := by
        refine Finset.sum_le_sum (fun f hf => ?_)
        rw [abs_mul]
        exact mul_le_mul_of_nonneg_right (hA l hl r hr f (Finset.mem_range.1 hf)) (abs_nonneg _)
    _ = S * ∑ f ∈ Finset.range F, |v f| := by rw [Finset.mul_sum]
    _ ≤ S * X := mul_le_mul_of_nonneg_left hv hS

/-- C82: a newly constructed MPS with bias matrices gives nearly the same outputs for all inputs and all classes: 1 with open boundaries, `bond_dim`
with periodic ones, up to `(1 + std * D * Z * max(1, X))^(n+1) - 1` (times `bond_dim` in the periodic case), where `Z` bounds the draws and `X` the
feature vectors. In particular exactly these numbers for `init_std = 0`. -/
theorem C82_near_constant (d : Draws) (a : MpsArgs) (k : ℕ) (hl : IsLabel a k) (hub : a.useBias = true) (m : MPS ℝ) (hm : MPS.init d a = .ok m)
    (hD : a.periodic = true ∨ 1 ≤ a.bondDim) (hs : NoShortRegion a.inputDim k) (Z X : ℝ)
    (hZ : DrawsBounded d a.inputDim k a.outputDim a.bondDim a.featureDim Z) (x e : Tensor ℝ) (he : Embedded m x e)
    (hX : FeaturesBounded e a.inputDim a.featureDim X) (g : Option ℕ) (hg : BatchKnown k (e.shape.getD 0 0) g) :
    ∃ y, (m.forward x g).1 = .ok y ∧ y.shape = [e.shape.getD 0 0, a.outputDim] ∧ ∀ b < e.shape.getD 0 0, ∀ o < a.outputDim,
      |y.get [b, o] - (if a.periodic then (a.bondDim : ℝ) else 1)| ≤
        (if a.periodic then (a.bondDim : ℝ) else 1) * ((1 + |a.initStd| * a.bondDim * Z * max 1 X) ^ (a.inputDim + 1) - 1) := by
  obtain ⟨p, h1, h2, h3, h4, h5, h6, h7, h8, h9, h10, h11⟩ := mpsInit_inv d a k hl m hm
  have hkn := hl.1
  rw [hub] at h1
  obtain ⟨y, g', y1, y2, y3⟩ := mps_forward k true p m h1 (by rw [h6, h4]; exact hD) (by rw [h2]; exact hs) x e he _ rfl g hg
  refine ⟨y, by rw [y1], by rw [y2, h3], ?_⟩
  intro b hb o ho
  rw [y3 b hb o (by rw [h3]; exact ho), h2, h4, h5, h6, mpsValue_readOff _ _ _ hl.1 _ _ hD]
  have hX0 : 0 ≤ max 1 X := le_trans (by norm_num) (le_max_left _ _)
  have hsZ : 0 ≤ |a.initStd| * Z := mul_nonneg (abs_nonneg _) hZ.nonneg
  have key : ‖chainMatrix a.bondDim a.featureDim a.inputDim k true p e b o - 1‖ ≤
      (1 + |a.initStd| * a.bondDim * Z * max 1 X) ^ (a.inputDim + 1) - 1 := by
    unfold chainMatrix
    refine seqProd_near 1 (one_mul 1) (linfty_le _ _ (by norm_num) ?_) _ _ _ ?_
    · intro i
      simp [Matrix.one_apply, apply_ite abs]
    · intro j hj
      have hpix : ∀ i < a.inputDim, ∀ q r : Fin a.bondDim, (toMatrix a.bondDim a.bondDim (pixelMat a.bondDim a.featureDim k true p e b i) - 1) q r =
          ∑ f ∈ Finset.range a.featureDim, p.core k i q r f * e.get [b, i, f] := by
        intro i hi q r
        have hb' : p.bias true k i q r = if (q : ℕ) = r then 1 else 0 := by
          unfold Params.bias
          simp [h10, h11]
        simp only [Matrix.sub_apply, toMatrix, pixelMat, affMat, Mat.of, hb', Matrix.one_apply, Fin.ext_iff, if_pos (show (q : ℕ) < a.bondDim ∧ (r : ℕ) < a.bondDim from ⟨q.2, r.2⟩)]
        ring
      have hpixn : ∀ i < a.inputDim, ‖toMatrix a.bondDim a.bondDim (pixelMat a.bondDim a.featureDim k true p e b i) - 1‖ ≤
          |a.initStd| * a.bondDim * Z * max 1 X := by
        intro i hi
        refine (linfty_entries _ (|a.initStd| * Z * max 1 X) (mul_nonneg hsZ hX0) ?_).trans (le_of_eq (by ring))
        intro q r
        rw [hpix i hi q r]
        exact contracted_le a.bondDim a.featureDim (p.core k i) (fun f => e.get [b, i, f]) _ _ hsZ
          (fun l hl r hr f hf => core_draw d a.inputDim k a.outputDim a.bondDim a.featureDim Z a.initStd hZ p h7 h8 i hi l r f hl hr hf)
          ((hX b hb i hi).trans (le_max_right _ _)) q r q.2 r.2
      have hout : ‖toMatrix a.bondDim a.bondDim (outMat a.bondDim p o) - 1‖ ≤ |a.initStd| * a.bondDim * Z * max 1 X := by
        refine (linfty_entries _ (|a.initStd| * Z * max 1 X) (mul_nonneg hsZ hX0) ?_).trans (le_of_eq (by ring))
        intro q r
        have : (toMatrix a.bondDim a.bondDim (outMat a.bondDim p o) - 1) q r = a.initStd * d.out [o, q, r] := by
          simp only [Matrix.sub_apply, toMatrix, outMat, Mat.of, h9 o ho q q.2 r r.2, Matrix.one_apply, Fin.ext_iff,
            if_pos (show (q : ℕ) < a.bondDim ∧ (r : ℕ) < a.bondDim from ⟨q.2, r.2⟩)]
          ring
        rw [this, abs_mul]
        calc |a.initStd| * |d.out [o, q, r]| ≤ |a.initStd| * Z := mul_le_mul_of_nonneg_left (hZ.out o ho q q.2 r r.2) (abs_nonneg _)
          _ ≤ |a.initStd| * Z * max 1 X := le_mul_of_one_le_right hsZ (le_max_left _ _)
      unfold posMat
      split_ifs with g1 g2
      · exact hpixn j (by omega)
      · exact hout
      · exact hpixn (j - 1) (by omega)
  have hc : (if a.periodic then (a.bondDim : ℝ) else 1) = readOff a.periodic (1 : Matrix (Fin a.bondDim) (Fin a.bondDim) ℝ) := by
    unfold readOff
    split_ifs with q1 q2
    · simp
    · simp
    · exact absurd (hD.resolve_left (by simp [q1])) (by omega)
  conv_lhs => rw [hc, readOff_sub]
  exact (readOff_le _ _).trans (mul_le_mul_of_nonneg_left key (readNum_nonneg _ _))

/-! ### without bias matrices -/

theorem prod_one_other (u v : ℝ) (n k : ℕ) (hk : k ≤ n) (q : ℕ) (hq : q ≤ n) (hqk : q ≠ k) :
    (∏ j ∈ Finset.range (n + 1), (if j = k then u else v)) = u * v ^ n ∧
    (∏ j ∈ (Finset.range (n + 1)).erase q, (if j = k then u else v)) = u * v ^ (n - 1) := by
  have key : ∀ s : Finset ℕ, k ∈ s → ∏ j ∈ s, (if j = k then u else v) = u * v ^ (s.card - 1) := by
    intro s hs
    rw [← Finset.mul_prod_erase _ _ hs, if_pos rfl, Finset.prod_congr rfl (fun j hj => if_neg (Finset.ne_of_mem_erase hj)), Finset.prod_const,
      Finset.card_erase_of_mem hs]
  refine ⟨?_, ?_⟩
  · rw [key _ (Finset.mem_range.2 (by omega)), Finset.card_range]
    rfl
  · rw [key _ (Finset.mem_erase.2 ⟨Ne.symm hqk, Finset.mem_range.2 (by omega)⟩), Finset.card_erase_of_mem (Finset.mem_range.2 (by omega)), Finset.card_range]
    rfl

/-- The norms of the matrices of a newly constructed model without bias matrices. -/
theorem fresh_norms (d : Draws) (n k O D F : ℕ) (Z X s : ℝ) (hX0 : 0 ≤ X) (hZ : DrawsBounded d n k O D F Z) (p : Params ℝ)
    (hL : ∀ idx, p.left.get idx = s * d.left idx) (hR : ∀ idx, p.right.get idx = s * d.right idx)
    (hO : ∀ o < O, ∀ l < D, ∀ r < D, p.out.get [o, l, r] = (if l = r then 1 else 0) + s * d.out [o, l, r]) (e : Tensor ℝ)
    (hX : FeaturesBounded e n F X) (b : ℕ) (hb : b < e.shape.getD 0 0) (o : ℕ) (ho : o < O) (j : ℕ) (hj : j < n + 1) (hk : k ≤ n) :
    ‖toMatrix D D (posMat D F k false p e b o j)‖ ≤ if j = k then 1 + |s| * D * Z else |s| * D * Z * X := by
  have hsZ : 0 ≤ |s| * Z := mul_nonneg (abs_nonneg _) hZ.nonneg
  have hpix : ∀ i < n, ‖toMatrix D D (pixelMat D F k false p e b i)‖ ≤ |s| * D * Z * X := by
    intro i hi
    refine (linfty_entries _ (|s| * Z * X) (mul_nonneg hsZ hX0) ?_).trans (le_of_eq (by ring))
    intro q r
    have : toMatrix D D (pixelMat D F k false p e b i) q r = ∑ f ∈ Finset.range F, p.core k i q r f * e.get [b, i, f] := by
      simp only [toMatrix, pixelMat, affMat, Mat.of, Params.bias, Bool.false_eq_true, if_false, add_zero,
        if_pos (show (q : ℕ) < D ∧ (r : ℕ) < D from ⟨q.2, r.2⟩)]
    rw [this]
    exact contracted_le D F (p.core k i) (fun f => e.get [b, i, f]) _ _ hsZ
      (fun l hl r hr f hf => core_draw d n k O D F Z s hZ p hL hR i hi l r f hl hr hf) (hX b hb i hi) q r q.2 r.2
  have hout : ‖toMatrix D D (outMat D p o)‖ ≤ 1 + |s| * D * Z := by
    have e1 : toMatrix D D (outMat D p o) = 1 + (toMatrix D D (outMat D p o) - 1) := by abel
    rw [e1]
    refine (norm_add_le _ _).trans (add_le_add (linfty_le _ _ (by norm_num) ?_) ?_)
    · intro i
      simp [Matrix.one_apply, apply_ite abs]
    · refine (linfty_entries _ (|s| * Z) hsZ ?_).trans (le_of_eq (by ring))
      intro q r
      have : (toMatrix D D (outMat D p o) - 1) q r = s * d.out [o, q, r] := by
        simp only [Matrix.sub_apply, toMatrix, outMat, Mat.of, hO o ho q q.2 r r.2, Matrix.one_apply, Fin.ext_iff,
          if_pos (show (q : ℕ) < D ∧ (r : ℕ) < D from ⟨q.2, r.2⟩)]
        ring
      rw [this, abs_mul]
      exact mul_le_mul_of_nonneg_left (hZ.out o ho q q.2 r r.2) (abs_nonneg _)
  unfold posMat
  split_ifs with g1 g2 g2
  · omega
  · exact hpix j (by omega)
  · exact hout
  · exact hpix (j - 1) (by omega)

/-- C82: without bias matrices the outputs of a newly constructed MPS are of order `init_std ^ input_dim`, and changing the core of any one pixel changes
them by at most order `init_std ^ (input_dim - 1)` ("no training when use_bias=False"). -/
theorem C82_vanishing (d : Draws) (a : MpsArgs) (k : ℕ) (hl : IsLabel a k) (hub : a.useBias = false) (m : MPS ℝ) (hm : MPS.init d a = .ok m)
    (hD : a.periodic = true ∨ 1 ≤ a.bondDim) (hs : NoShortRegion a.inputDim k) (Z X : ℝ) (hX0 : 0 ≤ X)
    (hZ : DrawsBounded d a.inputDim k a.outputDim a.bondDim a.featureDim Z) (x e : Tensor ℝ) (he : Embedded m x e)
    (hX : FeaturesBounded e a.inputDim a.featureDim X) (g : Option ℕ) (hg : BatchKnown k (e.shape.getD 0 0) g) :
    ∃ p y, IsMps k false p m ∧ (m.forward x g).1 = .ok y ∧ y.shape = [e.shape.getD 0 0, a.outputDim] ∧
      (0 < a.inputDim → ∀ b < e.shape.getD 0 0, ∀ o < a.outputDim, |y.get [b, o]| ≤
        (if a.periodic then (a.bondDim : ℝ) else 1) * ((1 + |a.initStd| * a.bondDim * Z) * (|a.initStd| * a.bondDim * Z * X) ^ a.inputDim)) ∧
      ∀ q < a.inputDim, ∀ (T : ℕ → ℕ → ℕ → ℝ) (δ : ℝ), 0 ≤ δ →
        (∀ l < a.bondDim, ∀ r < a.bondDim, ∀ f < a.featureDim, |T l r f - p.core k q l r f| ≤ δ) →
        ∃ y', ((withParams m k false (setCore k q T p)).forward x g).1 = .ok y' ∧ y'.shape = y.shape ∧
          ∀ b < e.shape.getD 0 0, ∀ o < a.outputDim, |y'.get [b, o] - y.get [b, o]| ≤
            (if a.periodic then (a.bondDim : ℝ) else 1) *
              (a.bondDim * δ * X * ((1 + |a.initStd| * a.bondDim * Z) * (|a.initStd| * a.bondDim * Z * X) ^ (a.inputDim - 1))) := by
  obtain ⟨p, h1, h2, h3, h4, h5, h6, h7, h8, h9, -, -⟩ := mpsInit_inv d a k hl m hm
  have hkn := hl.1
  rw [hub] at h1
  have hD' : m.periodic = true ∨ 1 ≤ m.bondDim := by rw [h6, h4]; exact hD
  have hs' : NoShortRegion m.inputDim k := by rw [h2]; exact hs
  obtain ⟨y, g', y1, y2, y3⟩ := mps_forward k false p m h1 hD' hs' x e he _ rfl g hg
  refine ⟨p, y, h1, by rw [y1], by rw [y2, h3], ?_, ?_⟩
  · intro hn b hb o ho
    rw [y3 b hb o (by rw [h3]; exact ho), h2, h4, h5, h6, mpsValue_readOff _ _ _ hl.1 _ _ hD]
    refine (readOff_le _ _).trans (mul_le_mul_of_nonneg_left ?_ (readNum_nonneg _ _))
    unfold chainMatrix
    refine (seqProd_norm _ _).trans ?_
    have hq : ∃ q, q ≤ a.inputDim ∧ q ≠ k := by
      by_cases hk0 : k = 0
      · exact ⟨1, by omega, by omega⟩
      · exact ⟨0, by omega, Ne.symm hk0⟩
    obtain ⟨q, hq1, hq2⟩ := hq
    rw [← (prod_one_other (1 + |a.initStd| * a.bondDim * Z) (|a.initStd| * a.bondDim * Z * X) a.inputDim k hl.1 q hq1 hq2).1]
    exact Finset.prod_le_prod (fun _ _ => norm_nonneg _) (fun j hj => fresh_norms d a.inputDim k a.outputDim a.bondDim a.featureDim Z X a.initStd hX0 hZ p
      h7 h8 h9 e hX b hb o ho j (Finset.mem_range.1 hj) hl.1)
  · intro q hq T δ hδ hT
    obtain ⟨y', g1, z1, z2, z3⟩ := mps_forward k false _ _ (setCore_isMps k q T p false m h1) hD' hs' x e (embedded_withParams m k false _ x e he) _ rfl g hg
    refine ⟨y', by rw [z1], by rw [z2, y2]; rfl, ?_⟩
    intro b hb o ho
    rw [y3 b hb o (by rw [h3]; exact ho), z3 b hb o (by show o < m.outputDim; rw [h3]; exact ho)]
    show |mpsValue m.bondDim m.featureDim m.inputDim k false m.periodic _ e b o - _| ≤ _
    rw [h2, h4, h5, h6, mpsValue_readOff _ _ _ hl.1 _ _ hD, mpsValue_readOff _ _ _ hl.1 _ _ hD, readOff_sub]
    refine (readOff_le _ _).trans (mul_le_mul_of_nonneg_left ?_ (readNum_nonneg _ _))
    have hpk : posOf k q ≠ k := by unfold posOf; split_ifs <;> omega
    have hpn : posOf k q ≤ a.inputDim := by unfold posOf; split_ifs <;> omega
    have hother : ∀ i, i ≠ q → pixelMat a.bondDim a.featureDim k false (setCore k q T p) e b i = pixelMat a.bondDim a.featureDim k false p e b i := by
      intro i hi
      have e1 : (setCore k q T p).core k i = p.core k i := by
        funext l r f
        rw [setCore_core, if_neg hi]
      have e2 : (setCore k q T p).bias false k i = p.bias false k i := by
        funext l r
        rw [setCore_bias]
      unfold pixelMat
      rw [e1, e2]
    unfold chainMatrix
    refine (seqProd_change (fun j => toMatrix a.bondDim a.bondDim (posMat a.bondDim a.featureDim k false p e b o j))
      (fun j => toMatrix a.bondDim a.bondDim (posMat a.bondDim a.featureDim k false (setCore k q T p) e b o j)) (posOf k q) a.inputDim (by omega) ?_).trans ?_
    · intro j hj hne
      show toMatrix _ _ _ = toMatrix _ _ _
      congr 1
      unfold posMat
      unfold posOf at hne
      split_ifs with g1 g2
      · exact hother j (by intro h; subst h; simp [g1] at hne)
      · unfold outMat; rw [setCore_out]
      · refine hother (j - 1) ?_
        intro h
        subst h
        split_ifs at hne with g3 <;> omega
    · refine mul_le_mul ?_ ?_ (Finset.prod_nonneg (fun _ _ => norm_nonneg _)) (mul_nonneg (mul_nonneg (Nat.cast_nonneg _) hδ) hX0)
      · rw [posMat_pixel, posMat_pixel]
        refine (linfty_entries _ (δ * X) (mul_nonneg hδ hX0) ?_).trans (le_of_eq (by ring))
        intro l r
        have : (toMatrix a.bondDim a.bondDim (pixelMat a.bondDim a.featureDim k false (setCore k q T p) e b q) -
            toMatrix a.bondDim a.bondDim (pixelMat a.bondDim a.featureDim k false p e b q)) l r =
            ∑ f ∈ Finset.range a.featureDim, (T l r f - p.core k q l r f) * e.get [b, q, f] := by
          simp only [Matrix.sub_apply, toMatrix, pixelMat, affMat, Mat.of, Params.bias, Bool.false_eq_true, if_false, add_zero,
            if_pos (show (l : ℕ) < a.bondDim ∧ (r : ℕ) < a.bondDim from ⟨l.2, r.2⟩), setCore_core, if_true, ← Finset.sum_sub_distrib]
          exact Finset.sum_congr rfl (fun f _ => by ring)
        rw [this]
        exact contracted_le a.bondDim a.featureDim (fun l r f => T l r f - p.core k q l r f) (fun f => e.get [b, q, f]) δ X hδ hT (hX b hb q hq) l r l.2 r.2
      · rw [← (prod_one_other (1 + |a.initStd| * a.bondDim * Z) (|a.initStd| * a.bondDim * Z * X) a.inputDim k hl.1 (posOf k q) hpn hpk).2]
        exact Finset.prod_le_prod (fun _ _ => norm_nonneg _) (fun j hj => fresh_norms d a.inputDim k a.outputDim a.bondDim a.featureDim Z X a.initStd hX0 hZ p
          h7 h8 h9 e hX b hb o ho j (Finset.mem_range.1 (Finset.mem_of_mem_erase hj)) hl.1)

end TorchMPS
