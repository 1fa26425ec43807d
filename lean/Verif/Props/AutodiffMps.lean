import Verif.Lemmas.AutodiffCurve
import Verif.Props.MpsInput
import Verif.Spec.AutodiffMps
/-
C84: gradients of `MPS.forward`.
-/
namespace TorchMPS
open Spec
variable {K : Type} [RCLike K]

theorem Spec.Follows.const (a : K) (t₀ : ℝ) : Follows (fun _ => a) (jet a 0) t₀ := ⟨rfl, hasDerivAt_const t₀ a⟩

theorem Spec.Follows.one (t₀ : ℝ) : Follows (fun _ => (1 : K)) 1 t₀ := ⟨rfl, hasDerivAt_const t₀ 1⟩

theorem Spec.Follows.sub {f g : ℝ → K} {a b : DualNumber K} {t₀ : ℝ} (hf : Follows f a t₀) (hg : Follows g b t₀) : Follows (fun t => f t - g t) (a - b) t₀ := by
  refine ⟨?_, ?_⟩
  · rw [TrivSqZeroExt.fst_sub, ← hf.1, ← hg.1]
  · rw [TrivSqZeroExt.snd_sub]
    exact hf.2.sub hg.2

theorem matFollows_of (r c : ℕ) (g : ℝ → ℕ → ℕ → K) (d : ℕ → ℕ → DualNumber K) (t₀ : ℝ) (h : ∀ i < r, ∀ j < c, Follows (fun t => g t i j) (d i j) t₀) :
    MatFollows (fun t => Mat.of r c (g t)) (Mat.of r c d) t₀ := by
  refine ⟨fun t => ⟨rfl, rfl⟩, ?_⟩
  intro i hi j hj
  have hi : i < r := hi
  have hj : j < c := hj
  simp only [Mat.of, hi, hj, and_self, if_true]
  exact h i hi j hj

/-- the matrix of a pixel follows its jet -/
theorem pixelMat_follows {D F n k B : ℕ} (hk : k ≤ n) (ub : Bool) {p : ℝ → Params K} {dp : Params (DualNumber K)} {e : ℝ → Tensor K} {de : Tensor (DualNumber K)}
    {t₀ : ℝ} (hp : ParamsFollow p dp t₀) (he : TensorFollows e de t₀) (sl : dp.left.shape = [k, D, D, F]) (slb : dp.leftBias.shape = [1, D, D])
    (sr : dp.right.shape = [n - k, D, D, F]) (srb : dp.rightBias.shape = [1, D, D]) (se : de.shape = [B, n, F]) (b i : ℕ) (hb : b < B) (hi : i < n) :
    MatFollows (fun t => pixelMat D F k ub (p t) (e t) b i) (pixelMat D F k ub dp de b i) t₀ := by
  unfold pixelMat affMat
  refine matFollows_of _ _ _ _ _ ?_
  intro l hl r hr
  refine Follows.add (Follows.sum _ (fun f hf => Follows.mul ?_ (he.2 _ (by rw [se]; simp [hb, hi, Finset.mem_range.1 hf])))) ?_
  · have hf := Finset.mem_range.1 hf
    unfold Params.core
    by_cases h : i < k
    · simp only [h, if_true]
      exact hp.left.2 _ (by rw [sl]; simp [h, hl, hr, hf])
    · simp only [h, if_false]
      exact hp.right.2 _ (by rw [sr]; simp [hl, hr, hf]; omega)
  · unfold Params.bias
    cases ub with
    | false => exact follows_zero t₀
    | true =>
      by_cases h : i < k
      · simp only [h, if_true]
        exact hp.leftBias.2 _ (by rw [slb]; simp [hl, hr])
      · simp only [h, if_false, if_true]
        exact hp.rightBias.2 _ (by rw [srb]; simp [hl, hr])

theorem chainOK_square {L : Type} {D : ℕ} (l : List (Mat L)) (h : ∀ A ∈ l, A.r = D ∧ A.c = D) : ChainOK l := by
  rw [chainOK_iff]
  induction l with
  | nil => exact List.isChain_nil
  | cons a l ih =>
    cases l with
    | nil => exact List.isChain_singleton _
    | cons b l =>
      rw [List.isChain_cons_cons]
      exact ⟨(h a (by simp)).2.trans (h b (by simp)).1.symm, ih (fun A hA => h A (List.mem_cons_of_mem _ hA))⟩

/-- products of square matrices -/
theorem orderedProd_follows {D : ℕ} {fs : List (ℝ → Mat K)} {ds : List (Mat (DualNumber K))} {t₀ : ℝ} (h : List.Forall₂ (fun f d => MatFollows f d t₀) fs ds)
    (hne : ds ≠ []) (hs : ∀ A ∈ ds, A.r = D ∧ A.c = D) :
    ∃ (M : ℝ → Mat K) (dM : Mat (DualNumber K)), (∀ t, orderedProd (fs.map (· t)) = some (M t)) ∧ orderedProd ds = some dM ∧ MatFollows M dM t₀ ∧ dM.r = D ∧ dM.c = D := by
  cases h with
  | nil => exact absurd rfl hne
  | cons h1 h2 =>
    rename_i f d fs ds
    have hc : ChainOK (d :: ds) := chainOK_square (d :: ds) hs
    refine ⟨fun t => matProd (f t) (fs.map (· t)), matProd d ds, fun t => rfl, rfl, matFollows_matProd fs ds t₀ f d h1 h2 hc, ?_, ?_⟩
    · rw [matProd_r]; exact (hs d (by simp)).1
    · rw [matProd_c]; exact (hs _ (List.getLast_mem _)).2

/-- all matrices of a sample follow their jets -/
theorem mpsMats_follows {D F n k B O : ℕ} (hk : k ≤ n) (ub : Bool) {p : ℝ → Params K} {dp : Params (DualNumber K)} {e : ℝ → Tensor K} {de : Tensor (DualNumber K)}
    {t₀ : ℝ} (hp : ParamsFollow p dp t₀) (he : TensorFollows e de t₀) (sl : dp.left.shape = [k, D, D, F]) (slb : dp.leftBias.shape = [1, D, D])
    (so : dp.out.shape = [O, D, D])
    (sr : dp.right.shape = [n - k, D, D, F]) (srb : dp.rightBias.shape = [1, D, D]) (se : de.shape = [B, n, F]) (b o : ℕ) (hb : b < B) (ho : o < O) :
    ∃ fs : List (ℝ → Mat K), (∀ t, mpsMats D F n k ub (p t) (e t) b o = fs.map (· t)) ∧
      List.Forall₂ (fun f d => MatFollows f d t₀) fs (mpsMats D F n k ub dp de b o) := by
  have hpix : ∀ i j, j ≤ n → List.Forall₂ (fun f d => MatFollows f d t₀) ((List.range' i (j - i)).map (fun s t => pixelMat D F k ub (p t) (e t) b s))
      (pixelMats D F k ub dp de b i j) := by
    intro i j hj
    unfold pixelMats
    rw [List.forall₂_map_left_iff, List.forall₂_map_right_iff, List.forall₂_same]
    intro s hs
    have := (List.mem_range'_1.1 hs)
    exact pixelMat_follows hk ub hp he sl slb sr srb se b s hb (by omega)
  refine ⟨(List.range' 0 (k - 0)).map (fun s t => pixelMat D F k ub (p t) (e t) b s) ++ (fun t => outMat D (p t) o) ::
    (List.range' k (n - k)).map (fun s t => pixelMat D F k ub (p t) (e t) b s), ?_, ?_⟩
  · intro t
    unfold mpsMats pixelMats
    rw [List.map_append, List.map_cons, List.map_map, List.map_map]
    rfl
  · refine List.rel_append (hpix 0 k hk) (List.Forall₂.cons ?_ (hpix k n (le_refl _)))
    unfold outMat
    exact matFollows_of _ _ _ _ _ (fun l hl r hr => hp.out.2 _ (by rw [so]; simp [ho, hl, hr]))

theorem mpsValue_follows {D F n k B O : ℕ} (hk : k ≤ n) (ub per : Bool) (hD : per = true ∨ 1 ≤ D) {p : ℝ → Params K} {dp : Params (DualNumber K)} {e : ℝ → Tensor K}
    {de : Tensor (DualNumber K)}
    {t₀ : ℝ} (hp : ParamsFollow p dp t₀) (he : TensorFollows e de t₀) (sl : dp.left.shape = [k, D, D, F]) (slb : dp.leftBias.shape = [1, D, D])
    (so : dp.out.shape = [O, D, D])
    (sr : dp.right.shape = [n - k, D, D, F]) (srb : dp.rightBias.shape = [1, D, D]) (se : de.shape = [B, n, F]) (b o : ℕ) (hb : b < B) (ho : o < O) :
    Follows (fun t => mpsValue D F n k ub per (p t) (e t) b o) (mpsValue D F n k ub per dp de b o) t₀ := by
  obtain ⟨fs, h1, h2⟩ := mpsMats_follows hk ub hp he sl slb so sr srb se b o hb ho
  obtain ⟨M, dM, m1, m2, m3, m4, m5⟩ := orderedProd_follows (D := D) h2 (by simp [mpsMats]) (by
    intro A hA
    simp only [mpsMats, List.mem_append, List.mem_cons] at hA
    rcases hA with hA | rfl | hA
    · exact pixelMats_size _ _ _ _ _ _ _ _ _ A hA
    · exact ⟨rfl, rfl⟩
    · exact pixelMats_size _ _ _ _ _ _ _ _ _ A hA)
  unfold mpsValue
  simp only [h1, m1, m2]
  cases per with
  | true => exact Follows.sum _ (fun i hi => m3.2 i (by rw [m4]; exact Finset.mem_range.1 hi) i (by rw [m5]; exact Finset.mem_range.1 hi))
  | false =>
    have : 1 ≤ D := by simpa using hD
    exact m3.2 0 (by omega) 0 (by omega)

/-- C84, `MPS.forward`. Let the parameters and the input of an MPS move along differentiable curves, with the jet at `t₀` in the model `dm` and the input `dx`.
Then the differentiated forward pass succeeds, with the shape of the output, and entry by entry gives the value and the derivative at `t₀` of the outputs of
`forward` along the curve: for every label site, bond and feature dimension, both boundary conditions, with or without bias, both evaluation strategies. -/
theorem C84_mps_forward (k : ℕ) (ub : Bool) (t₀ : ℝ) (p : ℝ → Params K) (m : ℝ → MPS K) (h : ∀ t, IsMps k ub (p t) (m t)) (dp : Params (DualNumber K))
    (dm : MPS (DualNumber K)) (dh : IsMps k ub dp dm) (hy : ∀ t, SameHyper (m t) dm) (hp : ParamsFollow p dp t₀)
    (hD : dm.periodic = true ∨ 1 ≤ dm.bondDim) (hs : NoShortRegion dm.inputDim k) (x e : ℝ → Tensor K) (dx de : Tensor (DualNumber K))
    (hx : ∀ t, Embedded (m t) (x t) (e t)) (hdx : Embedded dm dx de) (he : TensorFollows e de t₀) (B : ℕ) (hB : de.shape.getD 0 0 = B) (g : Option ℕ)
    (hg : BatchKnown k B g) :
    ∃ (y : ℝ → Tensor K) (dy : Tensor (DualNumber K)) (g1 : ℝ → Option ℕ) (g2 : Option ℕ), (∀ t, (m t).forward (x t) g = (.ok (y t), g1 t)) ∧
      dm.forward dx g = (.ok dy, g2) ∧ dy.shape = [B, dm.outputDim] ∧ TensorFollows y dy t₀ := by
  have hB' : ∀ t, (e t).shape.getD 0 0 = B := fun t => by rw [he.1 t]; exact hB
  have hm : ∀ t, ∃ y g', (m t).forward (x t) g = (.ok y, g') ∧ y.shape = [B, (m t).outputDim] ∧ ∀ b < B, ∀ o < (m t).outputDim,
      y.get [b, o] = mpsValue (m t).bondDim (m t).featureDim (m t).inputDim k ub (m t).periodic (p t) (e t) b o := fun t =>
    mps_forward k ub (p t) (m t) (h t) (by rw [(hy t).periodic, (hy t).bondDim]; exact hD) (by rw [(hy t).inputDim]; exact hs) (x t) (e t) (hx t) B (hB' t) g hg
  choose y g1 y1 y2 y3 using hm
  obtain ⟨dy, g2, d1, d2, d3⟩ := mps_forward k ub dp dm dh hD hs dx de hdx B hB g hg
  obtain ⟨x', _, e2⟩ := hdx
  have hsh := embed_shape dm x' de e2
  have se : de.shape = [B, dm.inputDim, dm.featureDim] := by
    rw [hsh] at hB
    rw [hsh]
    have : x'.shape.getD 0 0 = B := hB
    rw [this]
  refine ⟨y, dy, g1, g2, y1, d1, d2, fun t => by rw [y2 t, d2, (hy t).outputDim], ?_⟩
  intro idx hidx
  rw [d2] at hidx
  obtain _ | ⟨b, _ | ⟨o, _ | ⟨_, _⟩⟩⟩ := idx <;> simp at hidx
  rw [d3 b hidx.1 o hidx.2]
  have : (fun t => (y t).get [b, o]) = fun t => mpsValue dm.bondDim dm.featureDim dm.inputDim k ub dm.periodic (p t) (e t) b o := by
    funext t
    rw [y3 t b hidx.1 o (by rw [(hy t).outputDim]; exact hidx.2), (hy t).bondDim, (hy t).featureDim, (hy t).inputDim, (hy t).periodic]
  rw [this]
  exact mpsValue_follows dh.label ub dm.periodic hD hp he dh.left dh.leftBias dh.out dh.right dh.rightBias se b o hidx.1 hidx.2

/-- C84, the embedding. If the input follows its jet, so does the embedded input, for inputs of feature vectors, for the default map (x, 1 - x) and for every
registered feature map that is itself differentiated correctly. -/
theorem C84_mps_embedding (t₀ : ℝ) (m : ℝ → MPS K) (dm : MPS (DualNumber K)) (hy : ∀ t, SameHyper (m t) dm) (φ : Option (K → Tensor K)) (hm : ∀ t, (m t).path = none ∧ (m t).featureMap = φ)
    (hdm : dm.path = none) (hφ : FeatureFollows φ dm.featureMap t₀) (x : ℝ → Tensor K) (dx : Tensor (DualNumber K)) (hx : TensorFollows x dx t₀)
    (hemb : ∀ t, Embeddable (m t) (x t)) (hd : Embeddable dm dx) :
    ∃ e de, (∀ t, Embedded (m t) (x t) (e t)) ∧ Embedded dm dx de ∧ de.shape.getD 0 0 = dx.shape.getD 0 0 ∧ TensorFollows e de t₀ := by
  have hc := fun t => C57_embedding (m t) (x t) (hemb t)
  choose e e1 e2 e3 using hc
  obtain ⟨de, d1, d2, d3⟩ := C57_embedding dm dx hd
  refine ⟨e, de, fun t => ⟨x t, by rw [(hm t).1]; rfl, e1 t⟩, ⟨dx, by rw [hdm]; rfl, d1⟩, by rw [d2]; rfl, fun t => by rw [e2 t, d2, hx.1 t, (hy t).inputDim, (hy t).featureDim], ?_⟩
  intro idx hidx
  rw [d2] at hidx
  obtain _ | ⟨b, _ | ⟨i, _ | ⟨f, _ | ⟨_, _⟩⟩⟩⟩ := idx <;> simp at hidx
  rw [List.getD_eq_getElem?_getD] at d3
  obtain ⟨hb, hi, hf⟩ := hidx
  rw [d3 b hb i hi f hf]
  have hcur : (fun t => (e t).get [b, i, f]) = fun t => featureEntry φ (x t) b i f := by
    funext t
    rw [e3 t b (by rw [hx.1 t, List.getD_eq_getElem?_getD]; exact hb) i (by rw [(hy t).inputDim]; exact hi) f (by rw [(hy t).featureDim]; exact hf), (hm t).2]
  rw [hcur]
  unfold featureEntry
  simp only [hx.1]
  rcases hd with hd | ⟨hd, hd2⟩
  · rw [if_pos (by rw [hd]; rfl)]
    simp only [if_pos (show dx.shape.length = 3 by rw [hd]; rfl)]
    exact hx.2 _ (by rw [hd]; simp [hi, hf]; exact hb)
  · have h2 : ¬ dx.shape.length = 3 := by rw [hd]; simp
    simp only [if_neg h2]
    have hin : InRange [b, i] dx.shape := by rw [hd]; simp [hi]; exact hb
    cases φ with
    | none =>
      cases hdf : dm.featureMap with
      | some _ => rw [hdf] at hφ; exact hφ.elim
      | none =>
        simp only
        by_cases h0 : f = 0
        · simp only [h0, if_true]; exact hx.2 _ hin
        · simp only [h0, if_false]; exact (Follows.one t₀).sub (hx.2 _ hin)
    | some ψ =>
      cases hdf : dm.featureMap with
      | none => rw [hdf] at hφ; exact hφ.elim
      | some dψ =>
        rw [hdf] at hφ hd2
        simp only
        have := hφ (fun t => (x t).get [b, i]) (dx.get [b, i]) (hx.2 _ hin)
        refine this.2 _ ?_
        rw [hd2.2.2 b (by rw [List.getD_eq_getElem?_getD]; exact hb) i hi]
        simp [hf]

/-- C84, the path. If the input follows its jet, so does the input rearranged along a path. -/
theorem C84_mps_path (t₀ : ℝ) (m : MPS K) (dm : MPS (DualNumber K)) (is : List ℤ) (hm : m.path = some is) (hdm : dm.path = some is) (hne : is ≠ [])
    (x : ℝ → Tensor K) (dx : Tensor (DualNumber K)) (hx : TensorFollows x dx t₀) (B n : ℕ) (tl : Shape) (hsh : dx.shape = B :: n :: tl)
    (h : ∀ i ∈ is, -(n : ℤ) ≤ i ∧ i < n) :
    ∃ x' dx', (∀ t, followPath m.path (x t) = .ok (x' t)) ∧ followPath dm.path dx = .ok dx' ∧ TensorFollows x' dx' t₀ := by
  have hc := fun t => C56_gather m is hm hne (x t) B n tl (by rw [hx.1 t, hsh]) h
  choose x' a1 a2 a3 a4 using hc
  obtain ⟨dx', b1, b2, b3, -⟩ := C56_gather dm is hdm hne dx B n tl hsh h
  refine ⟨x', dx', a3, b3, fun t => by rw [a1 t, b1], ?_⟩
  intro idx hidx
  rw [b1] at hidx
  obtain _ | ⟨b, _ | ⟨s, idx⟩⟩ := idx
  · simp [InRange] at hidx
  · simp [InRange] at hidx
  simp only [InRange, List.forall₂_cons] at hidx
  obtain ⟨hb, hs, hi⟩ := hidx
  rw [b2 b s hs idx]
  simp only [a2 _ b s hs idx]
  refine hx.2 _ ?_
  rw [hsh]
  refine List.Forall₂.cons hb (List.Forall₂.cons ?_ hi)
  have := h is[s] (List.getElem_mem hs)
  unfold pyIndex
  split <;> omega

end TorchMPS
