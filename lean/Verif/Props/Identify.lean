import Verif.Spec.Identify
import Verif.Props.TiExpress
/-
C110: the parameters of a TI_MPS are determined by its outputs up to a change of basis.
-/
namespace TorchMPS
open Spec Matrix
variable {K : Type}

theorem stepMat_stepOf [CommRing K] (m : TiMps K) (x : ℕ → K) : stepMat m x = stepOf m m.bondDim m.featureDim x := by
  ext l r
  simp only [stepMat, stepOf, coreOf, biasOf, Matrix.of_apply, Matrix.add_apply, Matrix.sum_apply, Matrix.smul_apply, smul_eq_mul]
  congr 1
  exact Finset.sum_congr rfl fun f _ => mul_comm _ _

theorem conj_prod [CommRing K] {A : Type} {D : ℕ} (X : Matrix (Fin D) (Fin D) K) (hX : IsUnit X.det) (T T' : A → Matrix (Fin D) (Fin D) K) (hT : ∀ a, T' a = X⁻¹ * T a * X) (w : List A) :
    X * (w.map T').prod = (w.map T).prod * X := by
  induction w with
  | nil => simp
  | cons a w ih =>
    rw [List.map_cons, List.prod_cons, List.map_cons, List.prod_cons, hT a, ← mul_assoc, ← mul_assoc, ← mul_assoc, Matrix.mul_nonsing_inv X hX, one_mul, mul_assoc, ih, mul_assoc]

theorem conj_word [CommRing K] {A O : Type} {D : ℕ} (X : Matrix (Fin D) (Fin D) K) (hX : IsUnit X.det) (α α' : Fin D → K) (T T' : A → Matrix (Fin D) (Fin D) K) (Ω Ω' : O → Fin D → K)
    (hα : α' = α ᵥ* X) (hT : ∀ a, T' a = X⁻¹ * T a * X) (hΩ : ∀ o, Ω' o = X⁻¹ *ᵥ Ω o) (w : List A) (o : O) : wordVal α' T' Ω' w o = wordVal α T Ω w o := by
  unfold wordVal
  rw [hα, hΩ, Matrix.vecMul_vecMul, conj_prod X hX T T' hT w, ← Matrix.vecMul_vecMul, Matrix.dotProduct_mulVec, Matrix.vecMul_vecMul, Matrix.mul_nonsing_inv X hX, Matrix.vecMul_one]

/-- the mathematical core: two realisations of the same function of nonempty words, of full rank -/
theorem identify_words [Field K] {A O : Type} {D : ℕ} (α α' : Fin D → K) (T T' : A → Matrix (Fin D) (Fin D) K) (Ω Ω' : O → Fin D → K) (c : List A → O → K)
    (h : ∀ w, w ≠ [] → ∀ o, wordVal α T Ω w o = c w o) (h' : ∀ w, w ≠ [] → ∀ o, wordVal α' T' Ω' w o = c w o) (hr : FullRank D c) :
    ∃ X : Matrix (Fin D) (Fin D) K, (IsUnit X.det ∧ α' = α ᵥ* X ∧ (∀ a, T' a = X⁻¹ * T a * X) ∧ ∀ o, Ω' o = X⁻¹ *ᵥ Ω o) ∧
      ∀ Y : Matrix (Fin D) (Fin D) K, IsUnit Y.det → α' = α ᵥ* Y → (∀ a, T' a = Y⁻¹ * T a * Y) → Y = X := by
  obtain ⟨p, s, o, hp, hs, hdet⟩ := hr
  let P : List A → Matrix (Fin D) (Fin D) K := fun w => (w.map T).prod
  let P' : List A → Matrix (Fin D) (Fin D) K := fun w => (w.map T').prod
  let U : Matrix (Fin D) (Fin D) K := Matrix.of fun i => α ᵥ* P (p i)
  let U' : Matrix (Fin D) (Fin D) K := Matrix.of fun i => α' ᵥ* P' (p i)
  let V : Matrix (Fin D) (Fin D) K := Matrix.of fun l j => (P (s j) *ᵥ Ω (o j)) l
  let V' : Matrix (Fin D) (Fin D) K := Matrix.of fun l j => (P' (s j) *ᵥ Ω' (o j)) l
  let H : Matrix (Fin D) (Fin D) K := Matrix.of fun i j => c (p i ++ s j) (o j)
  have hUV : U * V = H := by
    ext i j
    show (α ᵥ* P (p i)) ⬝ᵥ (P (s j) *ᵥ Ω (o j)) = c (p i ++ s j) (o j)
    rw [← h _ (by simp [hp i]), wordVal, List.map_append, List.prod_append, ← Matrix.vecMul_vecMul, Matrix.dotProduct_mulVec]
  have hUV' : U' * V' = H := by
    ext i j
    show (α' ᵥ* P' (p i)) ⬝ᵥ (P' (s j) *ᵥ Ω' (o j)) = c (p i ++ s j) (o j)
    rw [← h' _ (by simp [hp i]), wordVal, List.map_append, List.prod_append, ← Matrix.vecMul_vecMul, Matrix.dotProduct_mulVec]
  have hH : IsUnit H.det := isUnit_iff_ne_zero.2 hdet
  have hU : IsUnit U.det := by rw [← hUV, Matrix.det_mul] at hH; exact isUnit_of_mul_isUnit_left hH
  have hU' : IsUnit U'.det := by rw [← hUV', Matrix.det_mul] at hH; exact isUnit_of_mul_isUnit_left hH
  have hV' : IsUnit V'.det := by rw [← hUV', Matrix.det_mul] at hH; exact isUnit_of_mul_isUnit_right hH
  have hX : IsUnit (U⁻¹ * U').det := by
    rw [Matrix.det_mul]
    exact (Matrix.isUnit_nonsing_inv_det U hU).mul hU'
  have hUX : U * (U⁻¹ * U') = U' := by rw [← mul_assoc, Matrix.mul_nonsing_inv U hU, one_mul]
  have hXV : U⁻¹ * U' * V' = V := by rw [mul_assoc, hUV', ← hUV, ← mul_assoc, Matrix.nonsing_inv_mul U hU, one_mul]
  have hcancel : ∀ A B : Matrix (Fin D) (Fin D) K, A * V' = B * V' → A = B := fun A B hAB => by
    have := congrArg (· * V'⁻¹) hAB
    simpa [mul_assoc, Matrix.mul_nonsing_inv V' hV'] using this
  refine ⟨U⁻¹ * U', ⟨hX, ?_, fun a => ?_, fun q => ?_⟩, ?_⟩
  · -- initial vector
    have hv : α ᵥ* V = α' ᵥ* V' := by
      funext j
      show α ⬝ᵥ (P (s j) *ᵥ Ω (o j)) = α' ⬝ᵥ (P' (s j) *ᵥ Ω' (o j))
      have e1 := h (s j) (hs j) (o j)
      have e2 := h' (s j) (hs j) (o j)
      rw [wordVal] at e1 e2
      rw [Matrix.dotProduct_mulVec, Matrix.dotProduct_mulVec, e1, e2]
    have := congrArg (fun z => z ᵥ* V'⁻¹) hv
    simp only [← hXV, Matrix.vecMul_vecMul] at this
    rw [Matrix.mul_nonsing_inv V' hV', Matrix.vecMul_one, mul_assoc, mul_assoc, Matrix.mul_nonsing_inv V' hV', mul_one] at this
    exact this.symm
  · -- transitions
    have ht : U * T a * V = U' * T' a * V' := by
      ext i j
      have e1 := h (p i ++ a :: s j) (by simp) (o j)
      have e2 := h' (p i ++ a :: s j) (by simp) (o j)
      rw [wordVal, List.map_append, List.prod_append, List.map_cons, List.prod_cons, ← Matrix.vecMul_vecMul, ← Matrix.vecMul_vecMul] at e1 e2
      have l1 : (U * T a * V) i j = ((α ᵥ* P (p i)) ᵥ* T a) ⬝ᵥ (P (s j) *ᵥ Ω (o j)) := rfl
      have l2 : (U' * T' a * V') i j = ((α' ᵥ* P' (p i)) ᵥ* T' a) ⬝ᵥ (P' (s j) *ᵥ Ω' (o j)) := rfl
      rw [l1, l2, Matrix.dotProduct_mulVec, Matrix.dotProduct_mulVec]
      exact e1.trans e2.symm
    have h1 : T a * (U⁻¹ * U') = (U⁻¹ * U') * T' a := by
      refine hcancel _ _ ?_
      rw [mul_assoc, hXV]
      have := congrArg (U⁻¹ * ·) ht
      simp only [← mul_assoc] at this
      rw [Matrix.nonsing_inv_mul U hU, one_mul] at this
      rw [this]
    rw [mul_assoc, h1, ← mul_assoc, Matrix.nonsing_inv_mul _ hX, one_mul]
  · -- terminal vectors
    have ht : U *ᵥ Ω q = U' *ᵥ Ω' q := by
      funext i
      show (α ᵥ* P (p i)) ⬝ᵥ Ω q = (α' ᵥ* P' (p i)) ⬝ᵥ Ω' q
      exact (h (p i) (hp i) q).trans (h' (p i) (hp i) q).symm
    have h1 : Ω q = (U⁻¹ * U') *ᵥ Ω' q := by
      have := congrArg (fun z => U⁻¹ *ᵥ z) ht
      simp only [Matrix.mulVec_mulVec] at this
      rw [Matrix.nonsing_inv_mul U hU, Matrix.one_mulVec] at this
      exact this
    rw [h1, Matrix.mulVec_mulVec, Matrix.nonsing_inv_mul _ hX, Matrix.one_mulVec]
  · intro Y hY hα hT
    have h1 : U * Y = U' := by
      ext i j
      have : α' ᵥ* P' (p i) = (α ᵥ* P (p i)) ᵥ* Y := by
        rw [hα, Matrix.vecMul_vecMul, conj_prod Y hY T T' hT (p i), ← Matrix.vecMul_vecMul]
      exact (congrFun this j).symm
    rw [← h1, ← mul_assoc, Matrix.nonsing_inv_mul U hU, one_mul]

/-! ### changes of basis do not change the outputs -/

theorem step_conj [CommRing K] {D F O : ℕ} {m m' : TiMps K} {X : Matrix (Fin D) (Fin D) K} (h : ChangeOfBasis D F O m m' X) (x : ℕ → K) :
    stepOf m' D F x = X⁻¹ * stepOf m D F x * X := by
  unfold stepOf
  rw [mul_add, add_mul, ← h.bias, Matrix.mul_sum, Matrix.sum_mul]
  congr 1
  refine Finset.sum_congr rfl fun f hf => ?_
  rw [h.core f (Finset.mem_range.1 hf), Matrix.mul_smul, Matrix.smul_mul]

theorem tiValue_steps [CommRing K] (m : TiMps K) (n : ℕ) (x : ℕ → ℕ → K) (o : Fin m.outputDim) :
    tiValue m n x o = wordVal (initOf m m.bondDim) (fun i : Fin n => stepOf m m.bondDim m.featureDim (x i)) (fun (o : Fin m.outputDim) => termOf m m.bondDim o) (List.ofFn id) o := by
  rw [tiValue_word m (fun i : Fin n => x i) n x id (fun _ _ _ => rfl) o]
  simp only [stepMat_stepOf]
  rfl

/-- C110: a change of basis of the bond space changes no output: two TI_MPS related by one, with the same feature map, return the same for every accepted input. -/
theorem C110_change_of_basis [CommRing K] (m m' : TiMps K) (h : IsTi m) (h' : IsTi m') (hD : m'.bondDim = m.bondDim) (hF : m'.featureDim = m.featureDim) (hO : m'.outputDim = m.outputDim)
    (hφ : m'.featureMap = m.featureMap) (X : Matrix (Fin m.bondDim) (Fin m.bondDim) K) (hX : ChangeOfBasis m.bondDim m.featureDim m.outputDim m m' X)
    (inp : TiInput K) (B n : ℕ) (hn : 1 ≤ n) (ha : TiAccepts m B n inp) (ha' : TiAccepts m' B n inp) (g g' : Option ℕ) :
    ∃ y y', m.forward inp g = (.ok y, some B) ∧ m'.forward inp g' = (.ok y', some B) ∧ y.shape = [B, m.outputDim] ∧ y'.shape = [B, m.outputDim] ∧
      ∀ b < B, ∀ o < m.outputDim, y.get [b, o] = y'.get [b, o] := by
  obtain ⟨O', D', F', par', ub', fb', φ', core', init', term', bias'⟩ := m'
  obtain rfl : D' = m.bondDim := hD
  obtain rfl : F' = m.featureDim := hF
  obtain rfl : O' = m.outputDim := hO
  obtain rfl : φ' = m.featureMap := hφ
  obtain ⟨y, y1, y2, y3⟩ := C66_value m h inp B n ha hn g
  obtain ⟨y', z1, z2, z3⟩ := C66_value _ h' inp B n ha' hn g'
  refine ⟨y, y', y1, z1, y2, z2, fun b hb o ho => ?_⟩
  rw [y3 b hb o ho, z3 b hb o ho]
  refine (tiValue_steps m n (tiEntry m inp b) ⟨o, ho⟩).trans (Eq.trans ?_
    (tiValue_steps (⟨m.outputDim, m.bondDim, m.featureDim, par', ub', fb', m.featureMap, core', init', term', bias'⟩ : TiMps K) n (tiEntry _ inp b) ⟨o, ho⟩).symm)
  have hent : ∀ i f, tiEntry (⟨m.outputDim, m.bondDim, m.featureDim, par', ub', fb', m.featureMap, core', init', term', bias'⟩ : TiMps K) inp b i f = tiEntry m inp b i f := by
    intro i f
    cases inp <;> rfl
  refine (conj_word X hX.invertible _ _ _ _ _ _ hX.init (fun i => ?_) (fun (o : Fin m.outputDim) => hX.term o.val o.2) _ _).symm
  rw [show tiEntry (⟨m.outputDim, m.bondDim, m.featureDim, par', ub', fb', m.featureMap, core', init', term', bias'⟩ : TiMps K) inp b i = tiEntry m inp b i from funext fun f => hent i f]
  exact step_conj hX _

/-! ### and nothing else does -/

/-- C110: two TI_MPS which return the same outputs `c` for all nonempty words, where the table of outputs has full rank. Then there is exactly one change of basis which takes initial vector and
step matrices of one to those of the other; it takes the terminal vectors along too. -/
theorem C110_identified [Field K] {M : ℕ} (m m' : TiMps K) (h : IsTi m) (h' : IsTi m') (hD : m'.bondDim = m.bondDim) (hF : m'.featureDim = m.featureDim) (hO : m'.outputDim = m.outputDim)
    (v : Fin M → ℕ → K) (c : List (Fin M) → Fin m.outputDim → K) (hc : TiReturns m v c) (hc' : TiReturns m' v c) (hr : FullRank m.bondDim c) :
    ∃ X : Matrix (Fin m.bondDim) (Fin m.bondDim) K, (IsUnit X.det ∧ initOf m' m.bondDim = initOf m m.bondDim ᵥ* X ∧
      (∀ a, stepOf m' m.bondDim m.featureDim (v a) = X⁻¹ * stepOf m m.bondDim m.featureDim (v a) * X) ∧
      ∀ o < m.outputDim, termOf m' m.bondDim o = X⁻¹ *ᵥ termOf m m.bondDim o) ∧
      ∀ Y : Matrix (Fin m.bondDim) (Fin m.bondDim) K, ChangeOfBasis m.bondDim m.featureDim m.outputDim m m' Y → Y = X := by
  obtain ⟨O', D', F', par', ub', fb', φ', core', init', term', bias'⟩ := m'
  obtain rfl : D' = m.bondDim := hD
  obtain rfl : F' = m.featureDim := hF
  obtain rfl : O' = m.outputDim := hO
  have e := (ti_returns_iff m h v c).1 hc
  have e' := (ti_returns_iff _ h' v c).1 hc'
  simp only [stepMat_stepOf] at e e'
  obtain ⟨X, ⟨x1, x2, x3, x4⟩, x5⟩ := identify_words _ _ _ _ _ _ c e e' hr
  exact ⟨X, ⟨x1, x2, x3, fun o ho => x4 ⟨o, ho⟩⟩, fun Y hY => x5 Y hY.invertible hY.init (fun a => step_conj hY (v a))⟩

theorem core_of_steps [Field K] {M D F : ℕ} (m m' : TiMps K) (v : Fin M → ℕ → K) (hv : Spanning F v) (X : Matrix (Fin D) (Fin D) K)
    (hb : biasOf m' D = X⁻¹ * biasOf m D * X) (hs : ∀ a, stepOf m' D F (v a) = X⁻¹ * stepOf m D F (v a) * X) (f : ℕ) (hf : f < F) :
    coreOf m' D f = X⁻¹ * coreOf m D f * X := by
  obtain ⟨g, hg⟩ := hv f hf
  have h1 : ∀ a, ∑ f ∈ Finset.range F, v a f • coreOf m' D f = X⁻¹ * (∑ f ∈ Finset.range F, v a f • coreOf m D f) * X := by
    intro a
    have := hs a
    unfold stepOf at this
    rw [mul_add, add_mul, ← hb] at this
    exact add_right_cancel this
  have key : ∀ n : TiMps K, ∑ a, g a • ∑ f' ∈ Finset.range F, v a f' • coreOf n D f' = coreOf n D f := by
    intro n
    simp only [Finset.smul_sum, smul_smul]
    rw [Finset.sum_comm]
    rw [Finset.sum_congr rfl fun f' hf' => by rw [← Finset.sum_smul, hg f' (Finset.mem_range.1 hf')]]
    simp [hf]
  rw [← key m', ← key m, Matrix.mul_sum, Matrix.sum_mul]
  refine Finset.sum_congr rfl fun a _ => ?_
  rw [h1 a, Matrix.mul_smul, Matrix.smul_mul]

/-- C110: models whose bias is fixed (the default) or absent, on symbols whose feature vectors span the feature space (as those of 0 and 1 under the default feature map): if they return the same
for all nonempty words and the table of outputs has full rank, the parameters are the same up to one change of basis. -/
theorem C110_fixed_bias [Field K] {M : ℕ} (m m' : TiMps K) (h : IsTi m) (h' : IsTi m') (hD : m'.bondDim = m.bondDim) (hF : m'.featureDim = m.featureDim) (hO : m'.outputDim = m.outputDim)
    (hu : m'.useBias = m.useBias) (hfix : m.useBias = true → m.fixedBias = true ∧ m'.fixedBias = true)
    (v : Fin M → ℕ → K) (hv : Spanning m.featureDim v) (c : List (Fin M) → Fin m.outputDim → K) (hc : TiReturns m v c) (hc' : TiReturns m' v c) (hr : FullRank m.bondDim c) :
    ∃! X : Matrix (Fin m.bondDim) (Fin m.bondDim) K, ChangeOfBasis m.bondDim m.featureDim m.outputDim m m' X := by
  obtain ⟨X, ⟨x1, x2, x3, x4⟩, x5⟩ := C110_identified m m' h h' hD hF hO v c hc hc' hr
  have hb : biasOf m' m.bondDim = X⁻¹ * biasOf m m.bondDim * X := by
    cases hub : m.useBias with
    | false =>
      have e1 : biasOf m m.bondDim = 0 := by ext l r; simp [biasOf, tiBiasAt, hub]
      have e2 : biasOf m' m.bondDim = 0 := by ext l r; simp [biasOf, tiBiasAt, hu, hub]
      rw [e1, e2, mul_zero, zero_mul]
    | true =>
      have e1 : biasOf m m.bondDim = 1 := by
        ext l r
        simp only [biasOf, Matrix.of_apply, Matrix.one_apply, h.fixed hub (hfix hub).1 l l.2 r r.2, Fin.ext_iff]
      have e2 : biasOf m' m.bondDim = 1 := by
        ext l r
        simp only [biasOf, Matrix.of_apply, Matrix.one_apply, Fin.ext_iff]
        exact h'.fixed (hu.trans hub) (hfix hub).2 l (by rw [hD]; exact l.2) r (by rw [hD]; exact r.2)
      rw [e1, e2, mul_one, Matrix.nonsing_inv_mul X x1]
  exact ⟨X, ⟨x1, core_of_steps m m' v hv X hb x3, hb, x2, x4⟩, x5⟩

/-- C110: models with any bias matrices, on embedded sequences: if they return the same for all nonempty sequences made of unit vectors and of the zero vector and the table of outputs has full
rank, all their parameters are the same up to one change of basis. -/
theorem C110_embedded [Field K] (m m' : TiMps K) (h : IsTi m) (h' : IsTi m') (hD : m'.bondDim = m.bondDim) (hF : m'.featureDim = m.featureDim) (hO : m'.outputDim = m.outputDim)
    (c : List (Fin (m.featureDim + 1)) → Fin m.outputDim → K) (hc : TiReturns m (fun a f => if f = a.val then 1 else 0) c)
    (hc' : TiReturns m' (fun a f => if f = a.val then 1 else 0) c) (hr : FullRank m.bondDim c) :
    ∃! X : Matrix (Fin m.bondDim) (Fin m.bondDim) K, ChangeOfBasis m.bondDim m.featureDim m.outputDim m m' X := by
  obtain ⟨X, ⟨x1, x2, x3, x4⟩, x5⟩ := C110_identified m m' h h' hD hF hO _ c hc hc' hr
  have hb : biasOf m' m.bondDim = X⁻¹ * biasOf m m.bondDim * X := by
    have := x3 (Fin.last _)
    have hz : ∀ n : TiMps K, stepOf n m.bondDim m.featureDim (fun f => if f = (Fin.last m.featureDim).val then 1 else 0) = biasOf n m.bondDim := by
      intro n
      unfold stepOf
      rw [Finset.sum_eq_zero, zero_add]
      intro f hf
      beta_reduce
      rw [if_neg (by simpa using (Finset.mem_range.1 hf).ne), zero_smul]
    rwa [hz, hz] at this
  refine ⟨X, ⟨x1, core_of_steps m m' _ (fun f hf => ⟨fun a => if a.val = f then 1 else 0, fun f' hf' => ?_⟩) X hb x3, hb, x2, x4⟩, x5⟩
  rw [Finset.sum_eq_single (⟨f, by omega⟩ : Fin (m.featureDim + 1))]
  · simp
  · intro a _ ha
    beta_reduce
    rw [if_neg (fun hh => ha (Fin.ext hh)), zero_mul]
  · simp

/-! ### all changes of basis are possible -/

/-- the model `m` after the change of basis `X` -/
noncomputable def rebase [CommRing K] (m : TiMps K) (X : Matrix (Fin m.bondDim) (Fin m.bondDim) K) : TiMps K where
  outputDim := m.outputDim
  bondDim := m.bondDim
  featureDim := m.featureDim
  parallel := m.parallel
  useBias := m.useBias
  fixedBias := m.fixedBias
  featureMap := m.featureMap
  core := ⟨[m.bondDim, m.bondDim, m.featureDim], fun idx => ext0 (fun l => ext0 (fun r => (X⁻¹ * coreOf m m.bondDim (idx.getD 2 0) * X) l r) (idx.getD 1 0)) (idx.getD 0 0)⟩
  initVec := ⟨[m.bondDim], fun idx => ext0 (initOf m m.bondDim ᵥ* X) (idx.getD 0 0)⟩
  termMat := ⟨[m.bondDim, m.outputDim], fun idx => ext0 (X⁻¹ *ᵥ termOf m m.bondDim (idx.getD 1 0)) (idx.getD 0 0)⟩
  biasMat := if m.useBias then some ⟨[m.bondDim, m.bondDim], fun idx => ext0 (fun l => ext0 (fun r => (X⁻¹ * biasOf m m.bondDim * X) l r) (idx.getD 1 0)) (idx.getD 0 0)⟩ else none

theorem ext0_ext0 [Zero K] {D : ℕ} (f : Fin D → Fin D → K) (l r : Fin D) : ext0 (fun l => ext0 (fun r => f l r) r.val) l.val = f l r :=
  (ext0_val (fun l => ext0 (fun r => f l r) r.val) l).trans (ext0_val (fun r => f l r) r)

theorem rebase_bias [CommRing K] (m : TiMps K) (X : Matrix (Fin m.bondDim) (Fin m.bondDim) K) : biasOf (rebase m X) m.bondDim = X⁻¹ * biasOf m m.bondDim * X := by
  cases hub : m.useBias with
  | false =>
    have e1 : biasOf m m.bondDim = 0 := by ext l r; simp [biasOf, tiBiasAt, hub]
    have e2 : biasOf (rebase m X) m.bondDim = 0 := by ext l r; simp [biasOf, tiBiasAt, rebase, hub]
    rw [e1, e2, mul_zero, zero_mul]
  | true =>
    ext l r
    have : biasOf (rebase m X) m.bondDim l r = ext0 (fun l => ext0 (fun r => (X⁻¹ * biasOf m m.bondDim * X) l r) r.val) l.val := by
      simp [biasOf, tiBiasAt, rebase, hub]
    exact this.trans (ext0_ext0 (fun l r => (X⁻¹ * biasOf m m.bondDim * X) l r) l r)

/-- C110: every invertible matrix is the change of basis from a given TI_MPS to another one with the same settings (and, for a fixed bias, the same bias), which by `C110_change_of_basis` cannot be told
from the first by its outputs. -/
theorem C110_every_basis [CommRing K] (m : TiMps K) (h : IsTi m) (X : Matrix (Fin m.bondDim) (Fin m.bondDim) K) (hX : IsUnit X.det) :
    ∃ m' : TiMps K, IsTi m' ∧ m'.bondDim = m.bondDim ∧ m'.featureDim = m.featureDim ∧ m'.outputDim = m.outputDim ∧ m'.useBias = m.useBias ∧ m'.fixedBias = m.fixedBias ∧
      m'.parallel = m.parallel ∧ m'.featureMap = m.featureMap ∧ ChangeOfBasis m.bondDim m.featureDim m.outputDim m m' X := by
  refine ⟨rebase m X, ⟨rfl, rfl, rfl, ?_, ?_⟩, rfl, rfl, rfl, rfl, rfl, rfl, rfl, ⟨hX, ?_, rebase_bias m X, ?_, ?_⟩⟩
  · intro hub
    have hub' : m.useBias = true := hub
    exact ⟨_, by simp only [rebase]; rw [if_pos hub'], rfl⟩
  · intro hub hfb l hl r hr
    have hub' : m.useBias = true := hub
    have e : biasOf m m.bondDim = 1 := by
      ext l r
      simp only [biasOf, Matrix.of_apply, Matrix.one_apply, h.fixed hub' hfb l l.2 r r.2, Fin.ext_iff]
    have h1 := congrFun (congrFun (rebase_bias m X) ⟨l, hl⟩) ⟨r, hr⟩
    rw [e, mul_one, Matrix.nonsing_inv_mul X hX, Matrix.one_apply] at h1
    simpa [biasOf, Fin.ext_iff] using h1
  · intro f _
    ext l r
    exact ext0_ext0 (fun l r => (X⁻¹ * coreOf m m.bondDim f * X) l r) l r
  · funext l
    exact ext0_val (initOf m m.bondDim ᵥ* X) l
  · intro o _
    funext l
    exact ext0_val (X⁻¹ *ᵥ termOf m m.bondDim o) l

/-! ### the hypotheses can be met -/

theorem bit_spanning [Field K] : Spanning 2 (bitFeature (K := K)) := by
  intro f hf
  refine ⟨fun a => if f = 0 then (if a = 0 then 0 else 1) else (if a = 0 then 1 else 0), fun f' hf' => ?_⟩
  rw [Fin.sum_univ_two]
  interval_cases f <;> interval_cases f' <;> simp [bitFeature]

/-- the words 0, 1 as beginnings and endings: the table of the number of ones has determinant -1 -/
theorem ones_fullRank : FullRank 2 (fun (w : List (Fin 2)) (_ : Fin 1) => (onesIn w : ℝ)) := by
  refine ⟨fun a => [a], fun a => [a], fun _ => 0, by simp, by simp, ?_⟩
  have h2 : (Matrix.of fun i j : Fin 2 => (onesIn ([i] ++ [j]) : ℝ)) = !![0, 1; 1, 2] := by
    ext i j
    rw [Matrix.of_apply]
    fin_cases i <;> fin_cases j <;> simp [onesIn]
  rw [h2, Matrix.det_fin_two_of]
  norm_num

theorem ones_model : ∃ m : TiMps ℝ, IsTi m ∧ m.bondDim = 2 ∧ m.featureDim = 2 ∧ m.outputDim = 1 ∧ m.useBias = true ∧ m.fixedBias = true ∧ m.featureMap = none ∧
    TiReturns m (bitFeature (K := ℝ)) (fun w (_ : Fin m.outputDim) => (onesIn w : ℝ)) := by
  have he : withEmpty (fun (w : List (Fin 2)) (_ : Fin 1) => (onesIn w : ℝ)) (fun _ => 0) = fun (w : List (Fin 2)) (_ : Fin 1) => (onesIn w : ℝ) := by
    funext w o
    cases w with
    | nil => simp [withEmpty, onesIn]
    | cons a w => rfl
  obtain ⟨m, h1, h2, h3, h4, h5, h6, _, h8, h9⟩ := (C99_exactly 2 2 (bitFeature (K := ℝ)) bitFeature_independent true true false none _).2 ⟨fun _ => 0, by rw [he]; exact ones_hankel⟩
  refine ⟨m, h1, h2, h3, h4, h5, h6, h8, ?_⟩
  obtain ⟨O', D', F', par', ub', fb', φ', core', init', term', bias'⟩ := m
  obtain rfl : O' = 1 := h4
  exact h9

/-- There is a TI_MPS (bond dimension 2, default settings) counting ones; it has others related to it by every invertible matrix, and every other which counts ones is one of these, by exactly one matrix. -/
example : ∃ m : TiMps ℝ, IsTi m ∧ m.bondDim = 2 ∧ m.featureMap = none ∧
    (∀ X : Matrix (Fin m.bondDim) (Fin m.bondDim) ℝ, IsUnit X.det → ∃ m' : TiMps ℝ, IsTi m' ∧ m'.bondDim = m.bondDim ∧ ChangeOfBasis m.bondDim m.featureDim m.outputDim m m' X) ∧
    ∀ m' : TiMps ℝ, IsTi m' → m'.bondDim = m.bondDim → m'.featureDim = m.featureDim → m'.outputDim = m.outputDim → m'.useBias = true → m'.fixedBias = true →
      TiReturns m' (bitFeature (K := ℝ)) (fun w (_ : Fin m'.outputDim) => (onesIn w : ℝ)) →
        ∃! X : Matrix (Fin m.bondDim) (Fin m.bondDim) ℝ, ChangeOfBasis m.bondDim m.featureDim m.outputDim m m' X := by
  obtain ⟨m, h1, h2, h3, h4, h5, h6, h7, h8⟩ := ones_model
  refine ⟨m, h1, h2, h7, fun X hX => ?_, fun m' h1' hD hF hO hu hf hr => ?_⟩
  · obtain ⟨m', a, b, _, _, _, _, _, _, c⟩ := C110_every_basis m h1 X hX
    exact ⟨m', a, b, c⟩
  · have hr' : TiReturns m' (bitFeature (K := ℝ)) (fun w (_ : Fin m'.outputDim) => (onesIn w : ℝ)) := hr
    refine C110_fixed_bias m m' h1 h1' hD hF hO (hu.trans h5.symm) (fun _ => ⟨h6, hf⟩) bitFeature ?_ (fun w _ => (onesIn w : ℝ)) h8 ?_ ?_
    · rw [h3]; exact bit_spanning
    · obtain ⟨O', D', F', par', ub', fb', φ', core', init', term', bias'⟩ := m'
      obtain rfl : O' = m.outputDim := hO
      exact hr
    · obtain ⟨O', D', F', par', ub', fb', φ', core', init', term', bias'⟩ := m
      obtain rfl : D' = 2 := h2
      obtain rfl : O' = 1 := h4
      exact ones_fullRank

end TorchMPS
