import Verif.Props.AutodiffMps
import Verif.Props.MpsParams
/-
C84: the gradient of the outputs of an MPS with respect to its cores.
-/
namespace TorchMPS
open Spec
variable {K : Type}

theorem chainMatrix_env [CommSemiring K] (D F n k : ℕ) (hk : k ≤ n) (ub : Bool) (p : Params K) (e : Tensor K) (b o : ℕ) :
    chainMatrix D F n k ub p e b o = envMat D (mpsMats D F n k ub p e b o) := by
  unfold chainMatrix seqProd envMat
  rw [mpsMats_sites D F n k hk ub p e b o, List.map_map]
  rfl

theorem mpsMats_setCore [CommSemiring K] (D F n k q : ℕ) (hk : k ≤ n) (ub : Bool) (T : ℕ → ℕ → ℕ → K) (p : Params K) (e : Tensor K) (b o : ℕ) :
    mpsMats D F n k ub (setCore k q T p) e b o =
      (mpsMats D F n k ub p e b o).set (posOf k q) (affMat D F T (fun f => e.get [b, q, f]) (p.bias ub k q)) := by
  have hother : ∀ i, i ≠ q → pixelMat D F k ub (setCore k q T p) e b i = pixelMat D F k ub p e b i := by
    intro i hi
    unfold pixelMat affMat
    simp only [setCore_core, setCore_bias, if_neg hi]
  have hself : pixelMat D F k ub (setCore k q T p) e b q = affMat D F T (fun f => e.get [b, q, f]) (p.bias ub k q) := by
    unfold pixelMat affMat
    simp only [setCore_core, setCore_bias, if_true]
  rw [mpsMats_sites D F n k hk, mpsMats_sites D F n k hk]
  refine List.ext_getElem (by simp) ?_
  intro j h1 h2
  rw [List.getElem_set]
  simp only [List.getElem_map, List.getElem_range]
  by_cases hj : posOf k q = j
  · rw [if_pos hj, ← hj, posMat_pixel, hself]
  · rw [if_neg hj]
    unfold posMat
    unfold posOf at hj
    by_cases h1 : j < k
    · rw [if_pos h1, if_pos h1]
      exact hother j (fun hh => hj (by rw [hh] at h1; rw [if_pos h1, hh]))
    · rw [if_neg h1, if_neg h1]
      by_cases h2 : j = k
      · rw [if_pos h2, if_pos h2]
        unfold outMat
        rw [setCore_out]
      · rw [if_neg h2, if_neg h2]
        refine hother (j - 1) (fun hh => hj ?_)
        rw [if_neg (by omega)]
        omega

theorem mpsMats_setOut [CommSemiring K] (D F n k : ℕ) (hk : k ≤ n) (ub : Bool) (T : ℕ → ℕ → ℕ → K) (p : Params K) (e : Tensor K) (b o : ℕ) :
    mpsMats D F n k ub (setOut T p) e b o = (mpsMats D F n k ub p e b o).set k (Mat.of D D (fun l r => T o l r)) := by
  rw [mpsMats_sites D F n k hk, mpsMats_sites D F n k hk]
  refine List.ext_getElem (by simp) ?_
  intro j h1 h2
  rw [List.getElem_set]
  simp only [List.getElem_map, List.getElem_range]
  unfold posMat
  by_cases hj : k = j
  · subst hj
    rw [if_pos rfl, if_neg (by omega), if_pos rfl]
    rfl
  · rw [if_neg hj]
    simp only [if_neg (Ne.symm hj)]
    rfl

theorem envMat_set [CommSemiring K] (D : ℕ) (l : List (Mat K)) (j : ℕ) (hj : j < l.length) (A : Mat K) :
    envMat D (l.set j A) = envMat D (l.take j) * toMatrix D D A * envMat D (l.drop (j + 1)) := by
  unfold envMat
  rw [List.map_set, List.prod_set, if_pos (by simpa using hj), List.map_take, List.map_drop]

theorem mpsMats_length [CommSemiring K] (D F n k : ℕ) (hk : k ≤ n) (ub : Bool) (p : Params K) (e : Tensor K) (b o : ℕ) :
    (mpsMats D F n k ub p e b o).length = n + 1 := by
  rw [mpsMats_sites D F n k hk]; simp

/-- the sum of a matrix and a single entry, between two matrices -/
theorem mul_add_single_mul [CommRing K] {D : ℕ} (L P R : Matrix (Fin D) (Fin D) K) (l r : Fin D) (v : K) (i j : Fin D) :
    (L * (P + Matrix.single l r v) * R) i j = (L * P * R) i j + L i l * v * R r j := by
  rw [mul_add, add_mul, Matrix.add_apply]
  congr 1
  rw [Matrix.mul_apply]
  have : ∀ x, (L * Matrix.single l r v) i x = if x = r then L i l * v else 0 := by
    intro x
    by_cases hx : x = r
    · subst hx; simp
    · rw [if_neg hx]
      rw [Matrix.mul_single_apply_of_ne]
      exact hx
  simp only [this, ite_mul, zero_mul, Finset.sum_ite_eq', Finset.mem_univ, if_true]

theorem toMatrix_affMat_add [CommRing K] (D F : ℕ) (A : ℕ → ℕ → ℕ → K) (v : ℕ → K) (bias : ℕ → ℕ → K) (l r : Fin D) (f : ℕ) (hf : f < F) (c : K) :
    toMatrix D D (affMat D F (fun l' r' f' => A l' r' f' + if l' = l ∧ r' = r ∧ f' = f then c else 0) v bias) =
      toMatrix D D (affMat D F A v bias) + Matrix.single l r (c * v f) := by
  ext i j
  simp only [toMatrix, affMat, Mat.of, i.2, j.2, and_self, if_true, Matrix.add_apply, add_mul, Finset.sum_add_distrib, Matrix.single_apply]
  by_cases h : l = i ∧ r = j
  · obtain ⟨rfl, rfl⟩ := h
    simp only [true_and, and_self, if_true]
    have : ∀ f', (if f' = f then c else 0) * v f' = if f' = f then c * v f else 0 := by
      intro f'
      split
      · rename_i h; rw [h]
      · rw [zero_mul]
    simp only [this, Finset.sum_ite_eq', Finset.mem_range, hf, if_true]
    ring
  · rw [if_neg h]
    have : ∀ f', (if (i : ℕ) = l ∧ (j : ℕ) = r ∧ f' = f then c else 0) = 0 := by
      intro f'
      refine if_neg (fun h' => h ⟨Fin.ext h'.1.symm, Fin.ext h'.2.1.symm⟩)
    simp only [this, zero_mul, Finset.sum_const_zero]
    ring

theorem trace_add_single [CommRing K] {D : ℕ} (L P R : Matrix (Fin D) (Fin D) K) (l r : Fin D) (v : K) :
    (L * (P + Matrix.single l r v) * R).trace = (L * P * R).trace + (R * L) r l * v := by
  unfold Matrix.trace
  simp only [Matrix.diag_apply, mul_add_single_mul, Finset.sum_add_distrib]
  congr 1
  rw [Matrix.mul_apply, Finset.sum_mul]
  exact Finset.sum_congr rfl (fun i _ => by ring)

theorem hasDerivAt_affine [RCLike K] (f : ℝ → K) (a c : K) (h : ∀ t : ℝ, f t = a + (t : K) * c) (t : ℝ) : HasDerivAt f c t := by
  have e : f = fun t : ℝ => a + (t : K) * c := funext h
  rw [e]
  have h1 : HasDerivAt (fun t : ℝ => (t : K)) 1 t := by
    have := (RCLike.ofRealCLM (K := K)).hasDerivAt (x := t)
    simpa using this
  have h2 := (h1.mul_const c).const_add a
  rwa [one_mul] at h2

/-- C84, the gradient with respect to a pixel core. Moving entry `(l, r, f)` of the core of pixel `q` in direction `c`, the outputs of `forward` move with the
derivative given by the environment of the core - the matrices before it and after it - and the feature vector of the pixel. -/
theorem C84_core_gradient [RCLike K] (k : ℕ) (ub : Bool) (p : Params K) (m : MPS K) (h : IsMps k ub p m)
    (hD : m.periodic = true ∨ 1 ≤ m.bondDim) (hs : NoShortRegion m.inputDim k) (x e : Tensor K) (he : Embedded m x e)
    (q : ℕ) (hq : q < m.inputDim) (l r : Fin m.bondDim) (f : ℕ) (hf : f < m.featureDim) (c : K) (g : Option ℕ) (hg : BatchKnown k (e.shape.getD 0 0) g) :
    ∃ y : ℝ → Tensor K, (∀ t : ℝ, ((withParams m k ub (setCore k q (fun l' r' f' => p.core k q l' r' f' + if l' = l ∧ r' = r ∧ f' = f then (t : K) * c else 0) p)).forward x g).1 =
        .ok (y t)) ∧ ∀ b < e.shape.getD 0 0, ∀ o < m.outputDim, ∀ t,
      (m.periodic = true → HasDerivAt (fun t => (y t).get [b, o])
        ((envAfter m k ub p e b o (posOf k q) * envBefore m k ub p e b o (posOf k q)) r l * (c * e.get [b, q, f])) t) ∧
      (m.periodic = false → ∀ h0 : 0 < m.bondDim, HasDerivAt (fun t => (y t).get [b, o])
        (envBefore m k ub p e b o (posOf k q) ⟨0, h0⟩ l * (c * e.get [b, q, f]) * envAfter m k ub p e b o (posOf k q) r ⟨0, h0⟩) t) := by
  have hkn := h.label
  have hpos : posOf k q < m.inputDim + 1 := by unfold posOf; split_ifs <;> omega
  have hfw := fun t : ℝ => mps_forward k ub _ _ (setCore_isMps k q (fun l' r' f' => p.core k q l' r' f' + if l' = l ∧ r' = r ∧ f' = f then (t : K) * c else 0) p ub m h) hD hs x e
    (embedded_withParams m k ub _ x e he) _ rfl g hg
  choose y g1 y1 y2 y3 using hfw
  refine ⟨y, fun t => by rw [y1 t], ?_⟩
  intro b hb o ho t
  have hchain : ∀ t : ℝ, chainMatrix m.bondDim m.featureDim m.inputDim k ub
      (setCore k q (fun l' r' f' => p.core k q l' r' f' + if l' = l ∧ r' = r ∧ f' = f then (t : K) * c else 0) p) e b o =
      envBefore m k ub p e b o (posOf k q) * (toMatrix m.bondDim m.bondDim (affMat m.bondDim m.featureDim (p.core k q) (fun f => e.get [b, q, f]) (p.bias ub k q)) +
        Matrix.single l r ((t : K) * c * e.get [b, q, f])) * envAfter m k ub p e b o (posOf k q) := by
    intro t
    rw [chainMatrix_env _ _ _ _ hkn, mpsMats_setCore _ _ _ _ _ hkn, envMat_set _ _ _ (by rw [mpsMats_length _ _ _ _ hkn]; exact hpos), toMatrix_affMat_add _ _ _ _ _ _ _ _ hf]
    rfl
  refine ⟨?_, ?_⟩
  · intro hper
    refine hasDerivAt_affine _ (envBefore m k ub p e b o (posOf k q) * toMatrix m.bondDim m.bondDim (affMat m.bondDim m.featureDim (p.core k q) (fun f => e.get [b, q, f]) (p.bias ub k q)) * envAfter m k ub p e b o (posOf k q)).trace _ (fun t => ?_) t
    rw [y3 t b hb o ho]
    have := (mpsValue_chain m.bondDim m.featureDim m.inputDim k hkn ub m.periodic (setCore k q (fun l' r' f' => p.core k q l' r' f' + if l' = l ∧ r' = r ∧ f' = f then (t : K) * c else 0) p) e b o).1 hper
    refine this.trans ?_
    rw [hchain, trace_add_single]
    congr 1
    ring
  · intro hper h0
    refine hasDerivAt_affine _ ((envBefore m k ub p e b o (posOf k q) * toMatrix m.bondDim m.bondDim (affMat m.bondDim m.featureDim (p.core k q) (fun f => e.get [b, q, f]) (p.bias ub k q)) * envAfter m k ub p e b o (posOf k q)) ⟨0, h0⟩ ⟨0, h0⟩) _ (fun t => ?_) t
    rw [y3 t b hb o ho]
    have := (mpsValue_chain m.bondDim m.featureDim m.inputDim k hkn ub m.periodic (setCore k q (fun l' r' f' => p.core k q l' r' f' + if l' = l ∧ r' = r ∧ f' = f then (t : K) * c else 0) p) e b o).2 hper h0
    refine this.trans ?_
    rw [hchain, mul_add_single_mul]
    congr 1
    ring

theorem toMatrix_out_add [CommRing K] (D o : ℕ) (A : ℕ → ℕ → ℕ → K) (o' : ℕ) (l r : Fin D) (c : K) :
    toMatrix D D (Mat.of D D (fun l' r' => A o l' r' + if o = o' ∧ l' = l ∧ r' = r then c else 0)) =
      toMatrix D D (Mat.of D D (fun l' r' => A o l' r')) + Matrix.single l r (if o = o' then c else 0) := by
  ext i j
  simp only [toMatrix, Mat.of, i.2, j.2, and_self, if_true, Matrix.add_apply, Matrix.single_apply]
  congr 1
  by_cases ho : o = o'
  · simp only [ho, true_and, if_true]
    by_cases h : l = i ∧ r = j
    · obtain ⟨rfl, rfl⟩ := h; simp
    · rw [if_neg h, if_neg (fun h' => h ⟨Fin.ext h'.1.symm, Fin.ext h'.2.symm⟩)]
  · simp [ho]

/-- C84, the gradient with respect to the output core. Entry `(o', l, r)` moves output `o'` only, with the derivative given by the environment. -/
theorem C84_output_gradient [RCLike K] (k : ℕ) (ub : Bool) (p : Params K) (m : MPS K) (h : IsMps k ub p m)
    (hD : m.periodic = true ∨ 1 ≤ m.bondDim) (hs : NoShortRegion m.inputDim k) (x e : Tensor K) (he : Embedded m x e)
    (o' : ℕ) (l r : Fin m.bondDim) (c : K) (g : Option ℕ) (hg : BatchKnown k (e.shape.getD 0 0) g) :
    ∃ y : ℝ → Tensor K, (∀ t : ℝ, ((withParams m k ub (setOut (fun o l' r' => p.out.get [o, l', r'] + if o = o' ∧ l' = l ∧ r' = r then (t : K) * c else 0) p)).forward x g).1 =
        .ok (y t)) ∧ ∀ b < e.shape.getD 0 0, ∀ o < m.outputDim, ∀ t,
      (m.periodic = true → HasDerivAt (fun t => (y t).get [b, o]) (if o = o' then (envAfter m k ub p e b o k * envBefore m k ub p e b o k) r l * c else 0) t) ∧
      (m.periodic = false → ∀ h0 : 0 < m.bondDim, HasDerivAt (fun t => (y t).get [b, o])
        (if o = o' then envBefore m k ub p e b o k ⟨0, h0⟩ l * c * envAfter m k ub p e b o k r ⟨0, h0⟩ else 0) t) := by
  have hkn := h.label
  have hfw := fun t : ℝ => mps_forward k ub _ _ (setOut_isMps k (fun o l' r' => p.out.get [o, l', r'] + if o = o' ∧ l' = l ∧ r' = r then (t : K) * c else 0) p ub m h) hD hs x e
    (embedded_withParams m k ub _ x e he) _ rfl g hg
  choose y g1 y1 y2 y3 using hfw
  refine ⟨y, fun t => by rw [y1 t], ?_⟩
  intro b hb o ho t
  have hchain : ∀ t : ℝ, chainMatrix m.bondDim m.featureDim m.inputDim k ub
      (setOut (fun o l' r' => p.out.get [o, l', r'] + if o = o' ∧ l' = l ∧ r' = r then (t : K) * c else 0) p) e b o =
      envBefore m k ub p e b o k * (toMatrix m.bondDim m.bondDim (Mat.of m.bondDim m.bondDim (fun l' r' => p.out.get [o, l', r'])) +
        Matrix.single l r (if o = o' then (t : K) * c else 0)) * envAfter m k ub p e b o k := by
    intro t
    rw [chainMatrix_env _ _ _ _ hkn, mpsMats_setOut _ _ _ _ hkn, envMat_set _ _ _ (by rw [mpsMats_length _ _ _ _ hkn]; omega),
      toMatrix_out_add m.bondDim o (fun o l r => p.out.get [o, l, r])]
    rfl
  refine ⟨?_, ?_⟩
  · intro hper
    refine hasDerivAt_affine _ (envBefore m k ub p e b o k * (toMatrix m.bondDim m.bondDim (Mat.of m.bondDim m.bondDim (fun l' r' => p.out.get [o, l', r']))) * envAfter m k ub p e b o k).trace _ (fun t => ?_) t
    rw [y3 t b hb o ho]
    have := (mpsValue_chain m.bondDim m.featureDim m.inputDim k hkn ub m.periodic (setOut (fun o l' r' => p.out.get [o, l', r'] + if o = o' ∧ l' = l ∧ r' = r then (t : K) * c else 0) p) e b o).1 hper
    refine this.trans ?_
    rw [hchain, trace_add_single]
    congr 1
    split_ifs <;> ring
  · intro hper h0
    refine hasDerivAt_affine _ ((envBefore m k ub p e b o k * (toMatrix m.bondDim m.bondDim (Mat.of m.bondDim m.bondDim (fun l' r' => p.out.get [o, l', r']))) * envAfter m k ub p e b o k) ⟨0, h0⟩ ⟨0, h0⟩) _ (fun t => ?_) t
    rw [y3 t b hb o ho]
    have := (mpsValue_chain m.bondDim m.featureDim m.inputDim k hkn ub m.periodic (setOut (fun o l' r' => p.out.get [o, l', r'] + if o = o' ∧ l' = l ∧ r' = r then (t : K) * c else 0) p) e b o).2 hper h0
    refine this.trans ?_
    rw [hchain, mul_add_single_mul]
    congr 1
    split_ifs <;> ring

/-- hypotheses of `C84_mps_forward`: arbitrary differentiable curves of all cores, and of an input of four samples of five pixels, for a model of bond
dimension 2 with three outputs, the output site in the middle -/
example [RCLike K] (t₀ : ℝ) (A : ℝ → ℕ → ℕ → ℕ → ℕ → K) (C : ℝ → ℕ → ℕ → ℕ → K) (dA : ℕ → ℕ → ℕ → ℕ → DualNumber K) (dC : ℕ → ℕ → ℕ → DualNumber K)
    (hA : ∀ i l r f, Follows (fun t => A t i l r f) (dA i l r f) t₀) (hC : ∀ o l r, Follows (fun t => C t o l r) (dC o l r) t₀) (per : Bool)
    (x : ℝ → Tensor K) (dx : Tensor (DualNumber K)) (hx : dx.shape = [4, 5, 2]) (hf : TensorFollows x dx t₀) :
    (∀ t, IsMps 2 false (plainParams 2 2 3 5 2 (A t) (C t)) (gaugeModel 2 (A t) (C t) per)) ∧ IsMps 2 false (plainParams 2 2 3 5 2 dA dC) (gaugeModel 2 dA dC per) ∧
    (∀ t, SameHyper (gaugeModel 2 (A t) (C t) per) (gaugeModel 2 dA dC per)) ∧ ParamsFollow (fun t => plainParams 2 2 3 5 2 (A t) (C t)) (plainParams 2 2 3 5 2 dA dC) t₀ ∧
    (∀ t, Embedded (gaugeModel 2 (A t) (C t) per) (x t) (x t)) ∧ Embedded (gaugeModel 2 dA dC per) dx dx ∧ TensorFollows x dx t₀ ∧
    NoShortRegion 5 2 ∧ BatchKnown 2 4 none := by
  refine ⟨fun t => gauge_isMps _ _ _ _, gauge_isMps _ _ _ _, fun t => ⟨rfl, rfl, rfl, rfl, rfl⟩, ⟨⟨fun t => rfl, ?_⟩, ⟨fun t => rfl, ?_⟩, ⟨fun t => rfl, ?_⟩,
    ⟨fun t => rfl, ?_⟩, ⟨fun t => rfl, ?_⟩⟩, ?_, ⟨dx, rfl, ?_⟩, hf, by unfold NoShortRegion; omega, Or.inl (by omega)⟩
  · intro idx _; exact hA _ _ _ _
  · intro idx _; exact follows_zero t₀
  · intro idx _; exact hC _ _ _
  · intro idx _; exact hA _ _ _ _
  · intro idx _; exact follows_zero t₀
  · intro t
    refine ⟨x t, rfl, ?_⟩
    unfold MPS.embedInput
    simp [Tensor.ndim, hf.1 t, hx, gaugeModel, withParams, assert]
    rfl
  · unfold MPS.embedInput
    simp [Tensor.ndim, hx, gaugeModel, withParams, assert]
    rfl

/-- such a curve, not constant: `t ↦ t²` has the jet `9 + 6 ε` at 3 -/
example : Follows (fun t : ℝ => t * t) (jet (9 : ℝ) 6) 3 := by
  refine ⟨by show (3 : ℝ) * 3 = 9; norm_num, ?_⟩
  have := (hasDerivAt_id (3 : ℝ)).mul (hasDerivAt_id (3 : ℝ))
  refine this.congr_deriv ?_
  show (1 : ℝ) * id 3 + id 3 * 1 = 6
  norm_num

end TorchMPS
