import Verif.Lemmas.Sens
import Verif.Props.Mps
import Verif.Props.TiMps
import Mathlib.Topology.Algebra.Polynomial
/-
C97: how changes of the parameters and of the inputs affect the outputs of `MPS` and `TI_MPS`.
-/
namespace TorchMPS
open Spec
variable {K : Type} [RCLike K]

theorem nearT_wide (s : Shape) (t t' : Tensor K) : NearT s t t' (absT t) (wideT t t') := by
  intro idx _
  simp [absT, wideT]

/-- C97. Two models of one shape on two batches of one size, for all parameters and inputs, boundary conditions and evaluation modes: each output changes at most by
`V(|p| + |Δp|, |e| + |Δe|) - V(|p|, |e|)`, where `V` is the value of the network, `p` the parameters and `e` the features. -/
theorem C97_mps (k : ℕ) (ub : Bool) (p p' : Params K) (m m' : MPS K) (h : IsMps k ub p m) (h' : IsMps k ub p' m') (hsame : SameShape m m')
    (hD : m.periodic = true ∨ 1 ≤ m.bondDim) (hs : NoShortRegion m.inputDim k) (x x' e e' : Tensor K) (he : Embedded m x e) (he' : Embedded m' x' e')
    (B : ℕ) (hB : e.shape.getD 0 0 = B) (hB' : e'.shape.getD 0 0 = B) (g g' : Option ℕ) (hg : BatchKnown k B g) (hg' : BatchKnown k B g') :
    ∃ y y', (m.forward x g).1 = .ok y ∧ (m'.forward x' g').1 = .ok y' ∧ y.shape = [B, m.outputDim] ∧ y'.shape = [B, m.outputDim] ∧ ∀ b < B, ∀ o < m.outputDim,
      ‖y'.get [b, o] - y.get [b, o]‖ ≤ mpsValue m.bondDim m.featureDim m.inputDim k ub m.periodic (wideParams p p') (wideT e e') b o -
        mpsValue m.bondDim m.featureDim m.inputDim k ub m.periodic (absParams p) (absT e) b o := by
  obtain ⟨y, _, y1, y2, y3⟩ := mps_forward k ub p m h hD hs x e he B hB g hg
  obtain ⟨z, _, z1, z2, z3⟩ := mps_forward k ub p' m' h' (by rw [hsame.periodic, hsame.bond]; exact hD) (by rw [hsame.input]; exact hs) x' e' he' B hB' g' hg'
  rw [hsame.bond, hsame.feature, hsame.input, hsame.periodic, hsame.output] at z3
  rw [hsame.output] at z2
  refine ⟨y, z, by rw [y1], by rw [z1], y2, z2, ?_⟩
  intro b hb o ho
  rw [y3 b hb o ho, z3 b hb o ho]
  exact mpsValue_near _ _ _ k m.outputDim B h.label ub m.periodic p p' (absParams p) (wideParams p p') e e' _ _
    (nearT_wide _ _ _) (nearT_wide _ _ _) (nearT_wide _ _ _) (nearT_wide _ _ _) (nearT_wide _ _ _) (nearT_wide _ _ _) b o hb ho

theorem mpsValue_pix {R : Type} [CommRing R] (D F n k : ℕ) (hk : k ≤ n) (ub per : Bool) (p p' : Params R) (e e' : Tensor R) (b o : ℕ)
    (h1 : ∀ i < n, pixelMat D F k ub p e b i = pixelMat D F k ub p' e' b i) (h2 : outMat D p o = outMat D p' o) :
    mpsValue D F n k ub per p e b o = mpsValue D F n k ub per p' e' b o := by
  have : mpsMats D F n k ub p e b o = mpsMats D F n k ub p' e' b o := by
    unfold mpsMats pixelMats
    rw [h2]
    congr 1
    · refine List.map_congr_left fun i hi => h1 i ?_
      rw [List.mem_range'_1] at hi
      omega
    · congr 1
      refine List.map_congr_left fun i hi => h1 i ?_
      rw [List.mem_range'_1] at hi
      omega
  unfold mpsValue
  rw [this]

/-- the value with scaled parameters and features -/
theorem mpsValue_scaled (θ η : ℝ) (D F n k : ℕ) (hk : k ≤ n) (ub per : Bool) (p : Params ℝ) (e : Tensor ℝ) (b o : ℕ) :
    mpsValue D F n k ub per ⟨p.left.mapT (θ * ·), p.leftBias.mapT (θ * η * ·), p.out.mapT (θ * ·), p.right.mapT (θ * ·), p.rightBias.mapT (θ * η * ·)⟩ (e.mapT (η * ·)) b o =
      θ ^ (n + 1) * η ^ n * mpsValue D F n k ub per p e b o := by
  have : θ ^ (n + 1) * η ^ n * mpsValue D F n k ub per p e b o = mpsValue D F n k ub per (p.weight (θ * η) θ) e b o := by
    rw [mpsValue_weight _ _ _ _ _ _ hk]
    ring
  rw [this]
  refine mpsValue_pix D F n k hk ub per _ _ _ _ b o ?_ rfl
  intro i _
  unfold pixelMat affMat
  refine mat_of_congr _ _ _ _ ?_
  intro l _ r _
  congr 1
  refine Finset.sum_congr rfl fun f _ => ?_
  unfold Params.core Spec.Params.weight Tensor.mapT
  split <;> ring

theorem nearT_rel {ε θ : ℝ} (hθ : 1 + ε ≤ θ) (s : Shape) (t t' : Tensor K) (hs : t.shape = s) (h : RelClose ε t t') : NearT s t t' (absT t) ((absT t).mapT (θ * ·)) := by
  intro idx hi
  refine ⟨le_refl _, ?_⟩
  have := h idx (by rw [hs]; exact hi)
  simp only [absT, Tensor.mapT]
  nlinarith [norm_nonneg (t.get idx)]

/-- C97. If every parameter changes at most by the fraction `ε` and every feature at most by the fraction `η` of its absolute value, then each output of a model with `n` pixels changes at
most by `(1+ε)^(n+1) (1+η)^n - 1` times the value of the network with the absolute values of all parameters and features. -/
theorem C97_relative (ε η : ℝ) (hε : 0 ≤ ε) (hη : 0 ≤ η) (k : ℕ) (ub : Bool) (p p' : Params K) (m m' : MPS K) (h : IsMps k ub p m) (h' : IsMps k ub p' m') (hsame : SameShape m m')
    (hD : m.periodic = true ∨ 1 ≤ m.bondDim) (hs : NoShortRegion m.inputDim k) (x x' e e' : Tensor K) (he : Embedded m x e) (he' : Embedded m' x' e')
    (B : ℕ) (hB : e.shape.getD 0 0 = B) (hB' : e'.shape.getD 0 0 = B) (g g' : Option ℕ) (hg : BatchKnown k B g) (hg' : BatchKnown k B g')
    (hp : AllParams (RelClose ε) p p') (hx : RelClose η e e') :
    ∃ y y', (m.forward x g).1 = .ok y ∧ (m'.forward x' g').1 = .ok y' ∧ ∀ b < B, ∀ o < m.outputDim,
      ‖y'.get [b, o] - y.get [b, o]‖ ≤ ((1 + ε) ^ (m.inputDim + 1) * (1 + η) ^ m.inputDim - 1) *
        mpsValue m.bondDim m.featureDim m.inputDim k ub m.periodic (absParams p) (absT e) b o := by
  obtain ⟨y, _, y1, y2, y3⟩ := mps_forward k ub p m h hD hs x e he B hB g hg
  obtain ⟨z, _, z1, z2, z3⟩ := mps_forward k ub p' m' h' (by rw [hsame.periodic, hsame.bond]; exact hD) (by rw [hsame.input]; exact hs) x' e' he' B hB' g' hg'
  rw [hsame.bond, hsame.feature, hsame.input, hsame.periodic, hsame.output] at z3
  refine ⟨y, z, by rw [y1], by rw [z1], ?_⟩
  intro b hb o ho
  obtain ⟨x1, _, e2⟩ := he
  have hsh := embed_shape m x1 e e2
  have hB2 : x1.shape.getD 0 0 = B := by rw [hsh] at hB; simpa using hB
  rw [hB2] at hsh
  rw [y3 b hb o ho, z3 b hb o ho, sub_one_mul, ← mpsValue_scaled _ _ _ _ _ _ h.label]
  have h2 : 1 + ε ≤ (1 + ε) * (1 + η) := by nlinarith
  exact mpsValue_near _ _ _ k m.outputDim B h.label ub m.periodic p p' (absParams p) _ e e' _ _
    (nearT_rel (le_refl _) _ _ _ h.left hp.1) (nearT_rel h2 _ _ _ h.leftBias hp.2.1) (nearT_rel (le_refl _) _ _ _ h.out hp.2.2.1)
    (nearT_rel (le_refl _) _ _ _ h.right hp.2.2.2.1) (nearT_rel h2 _ _ _ h.rightBias hp.2.2.2.2) (nearT_rel (le_refl _) _ _ _ hsh hx) b o hb ho

/-- adding a constant to every entry -/
def Tensor.plusT (δ : ℝ) (t : Tensor ℝ) : Tensor ℝ := ⟨t.shape, fun idx => t.get idx + δ⟩

theorem nearT_abs {δ : ℝ} (s : Shape) (t t' : Tensor K) (hs : t.shape = s) (h : AbsClose δ t t') : NearT s t t' (absT t) ((absT t).plusT δ) := by
  intro idx hi
  refine ⟨le_refl _, ?_⟩
  have := h idx (by rw [hs]; exact hi)
  simp only [absT, Tensor.plusT]
  linarith

/-- C97. The outputs depend continuously on parameters and features: for every model, batch and tolerance there is a `δ > 0` such that changing every parameter and every feature at most by `δ`
changes no output by more than the tolerance. -/
theorem C97_continuous (k : ℕ) (ub : Bool) (p : Params K) (m : MPS K) (h : IsMps k ub p m) (hD : m.periodic = true ∨ 1 ≤ m.bondDim) (hs : NoShortRegion m.inputDim k)
    (x e : Tensor K) (he : Embedded m x e) (B : ℕ) (hB : e.shape.getD 0 0 = B) (g : Option ℕ) (hg : BatchKnown k B g) (tol : ℝ) (htol : 0 < tol) :
    ∃ y, (m.forward x g).1 = .ok y ∧ ∃ δ > 0, ∀ (p' : Params K) (m' : MPS K), IsMps k ub p' m' → SameShape m m' → ∀ (x' e' : Tensor K), Embedded m' x' e' → e'.shape.getD 0 0 = B →
      ∀ g', BatchKnown k B g' → AllParams (AbsClose δ) p p' → AbsClose δ e e' → ∃ y', (m'.forward x' g').1 = .ok y' ∧ ∀ b < B, ∀ o < m.outputDim, ‖y'.get [b, o] - y.get [b, o]‖ ≤ tol := by
  obtain ⟨y, _, y1, y2, y3⟩ := mps_forward k ub p m h hD hs x e he B hB g hg
  refine ⟨y, by rw [y1], ?_⟩
  obtain ⟨x1, _, e2⟩ := he
  have hsh := embed_shape m x1 e e2
  have hB2 : x1.shape.getD 0 0 = B := by rw [hsh] at hB; simpa using hB
  rw [hB2] at hsh
  -- the value as a polynomial in δ
  let up : Tensor ℝ → Tensor (Polynomial ℝ) := fun t => t.mapT (fun a => Polynomial.C a + Polynomial.X)
  let P : Params (Polynomial ℝ) := ⟨up (absParams p).left, up (absParams p).leftBias, up (absParams p).out, up (absParams p).right, up (absParams p).rightBias⟩
  let Q : ℕ → ℕ → Polynomial ℝ := fun b o => mpsValue m.bondDim m.featureDim m.inputDim k ub m.periodic P (up (absT e)) b o
  have hup : ∀ (t : Tensor ℝ) (δ : ℝ), ((up t).mapT (Polynomial.evalRingHom δ)).get = (t.plusT δ).get := by
    intro t δ
    funext idx
    simp [up, Tensor.mapT, Tensor.plusT]
  have hev : ∀ b o δ, (Q b o).eval δ = mpsValue m.bondDim m.featureDim m.inputDim k ub m.periodic
      ⟨(absParams p).left.plusT δ, (absParams p).leftBias.plusT δ, (absParams p).out.plusT δ, (absParams p).right.plusT δ, (absParams p).rightBias.plusT δ⟩ ((absT e).plusT δ) b o := by
    intro b o δ
    exact (mpsValue_mapHom (Polynomial.evalRingHom δ) _ _ _ k ub m.periodic P (up (absT e)) b o).trans
      (mpsValue_get _ _ _ _ _ _ _ _ _ _ _ _ (hup _ _) (hup _ _) (hup _ _) (hup _ _) (hup _ _) (hup _ _))
  have h0 : ∀ b o, (Q b o).eval 0 = mpsValue m.bondDim m.featureDim m.inputDim k ub m.periodic (absParams p) (absT e) b o := by
    intro b o
    rw [hev]
    exact mpsValue_get _ _ _ _ _ _ _ _ _ _ _ _ (by funext idx; simp [Tensor.plusT]) (by funext idx; simp [Tensor.plusT]) (by funext idx; simp [Tensor.plusT])
      (by funext idx; simp [Tensor.plusT]) (by funext idx; simp [Tensor.plusT]) (by funext idx; simp [Tensor.plusT])
  have hc : ∀ b o, ∃ δ > 0, ∀ δ', |δ'| < δ → |(Q b o).eval δ' - (Q b o).eval 0| < tol := by
    intro b o
    have := Metric.continuousAt_iff.1 ((Q b o).continuous.continuousAt (x := 0)) tol htol
    simpa [Real.dist_eq] using this
  choose d d1 d2 using hc
  -- a common δ
  have hmin : ∀ l : List (ℕ × ℕ), ∃ δ > 0, ∀ q ∈ l, δ < d q.1 q.2 := by
    intro l
    induction l with
    | nil => exact ⟨1, one_pos, by simp⟩
    | cons q l ih =>
      obtain ⟨δ, δ1, δ2⟩ := ih
      refine ⟨min δ (d q.1 q.2 / 2), lt_min δ1 (half_pos (d1 _ _)), ?_⟩
      intro q' hq'
      rcases List.mem_cons.1 hq' with rfl | hq'
      · exact lt_of_le_of_lt (min_le_right _ _) (half_lt_self (d1 _ _))
      · exact lt_of_le_of_lt (min_le_left _ _) (δ2 _ hq')
  obtain ⟨δ, δ1, δ2⟩ := hmin ((List.range B).flatMap fun b => (List.range m.outputDim).map fun o => (b, o))
  refine ⟨δ, δ1, ?_⟩
  intro p' m' h' hsame x' e' he' hB' g' hg' hp hx
  obtain ⟨z, _, z1, z2, z3⟩ := mps_forward k ub p' m' h' (by rw [hsame.periodic, hsame.bond]; exact hD) (by rw [hsame.input]; exact hs) x' e' he' B hB' g' hg'
  rw [hsame.bond, hsame.feature, hsame.input, hsame.periodic, hsame.output] at z3
  refine ⟨z, by rw [z1], ?_⟩
  intro b hb o ho
  rw [y3 b hb o ho, z3 b hb o ho]
  refine le_trans (mpsValue_near _ _ _ k m.outputDim B h.label ub m.periodic p p' (absParams p)
    ⟨(absParams p).left.plusT δ, (absParams p).leftBias.plusT δ, (absParams p).out.plusT δ, (absParams p).right.plusT δ, (absParams p).rightBias.plusT δ⟩ e e' _ _
    (nearT_abs _ _ _ h.left hp.1) (nearT_abs _ _ _ h.leftBias hp.2.1) (nearT_abs _ _ _ h.out hp.2.2.1)
    (nearT_abs _ _ _ h.right hp.2.2.2.1) (nearT_abs _ _ _ h.rightBias hp.2.2.2.2) (nearT_abs _ _ _ hsh hx) b o hb ho) ?_
  rw [← hev b o δ, ← h0]
  refine le_trans (le_abs_self _) (le_of_lt (d2 b o δ ?_))
  rw [abs_of_pos δ1]
  exact δ2 (b, o) (by simp [hb, ho])

/-- C97. A certificate for the predicted label: if output `c` of sample `b` exceeds every other output by more than the two bounds, then it is the largest output also for the changed
model and input. -/
theorem C97_label (k : ℕ) (ub : Bool) (p p' : Params ℝ) (m m' : MPS ℝ) (h : IsMps k ub p m) (h' : IsMps k ub p' m') (hsame : SameShape m m')
    (hD : m.periodic = true ∨ 1 ≤ m.bondDim) (hs : NoShortRegion m.inputDim k) (x x' e e' : Tensor ℝ) (he : Embedded m x e) (he' : Embedded m' x' e')
    (B : ℕ) (hB : e.shape.getD 0 0 = B) (hB' : e'.shape.getD 0 0 = B) (g g' : Option ℕ) (hg : BatchKnown k B g) (hg' : BatchKnown k B g') :
    ∃ y y', (m.forward x g).1 = .ok y ∧ (m'.forward x' g').1 = .ok y' ∧ ∀ b < B, ∀ c < m.outputDim, ∀ r : ℕ → ℝ,
      (∀ o < m.outputDim, mpsValue m.bondDim m.featureDim m.inputDim k ub m.periodic (wideParams p p') (wideT e e') b o -
        mpsValue m.bondDim m.featureDim m.inputDim k ub m.periodic (absParams p) (absT e) b o ≤ r o) →
      (∀ o < m.outputDim, o ≠ c → r c + r o < y.get [b, c] - y.get [b, o]) → ∀ o < m.outputDim, o ≠ c → y'.get [b, o] < y'.get [b, c] := by
  obtain ⟨y, y', y1, y2, _, _, y5⟩ := C97_mps k ub p p' m m' h h' hsame hD hs x x' e e' he he' B hB hB' g g' hg hg'
  refine ⟨y, y', y1, y2, ?_⟩
  intro b hb c hc r hr hm o ho hoc
  have a1 := abs_le.1 (le_trans (y5 b hb o ho) (hr o ho))
  have a2 := abs_le.1 (le_trans (y5 b hb c hc) (hr c hc))
  have := hm o ho hoc
  linarith [a1.2, a2.1]

theorem tiBias_abs (m : TiMps K) (l r : ℕ) : tiBiasAt (absTi m) l r = ‖tiBiasAt m l r‖ := by
  unfold tiBiasAt absTi
  cases m.useBias with
  | false => simp
  | true => cases m.biasMat with
    | none => simp
    | some b => simp [absT]

theorem tiBias_wide (m m' : TiMps K) (h : IsTi m) (h' : IsTi m') (hb : m'.useBias = m.useBias) (l r : ℕ) :
    tiBiasAt (wideTi m m') l r = ‖tiBiasAt m l r‖ + ‖tiBiasAt m' l r - tiBiasAt m l r‖ := by
  have h1 := h.bias
  have h2 := h'.bias
  rw [hb] at h2
  unfold tiBiasAt wideTi
  rw [hb]
  cases hu : m.useBias with
  | false => simp
  | true =>
    obtain ⟨b, b1, _⟩ := h1 hu
    obtain ⟨b', b1', _⟩ := h2 hu
    rw [b1, b1']
    simp [wideBias, wideT]

/-- C97. The same for two TI_MPS on two inputs whose longest sequences have `n ≥ 1` steps. -/
theorem C97_ti (m m' : TiMps K) (h : IsTi m) (h' : IsTi m') (hsame : TiSameShape m m') (inp inp' : TiInput K) (B n : ℕ) (hi : TiAccepts m B n inp)
    (hi' : TiAccepts m' B n inp') (hn : 1 ≤ n) (g g' : Option ℕ) :
    ∃ y y', (m.forward inp g).1 = .ok y ∧ (m'.forward inp' g').1 = .ok y' ∧ y.shape = [B, m.outputDim] ∧ y'.shape = [B, m.outputDim] ∧ ∀ b < B, ∀ o < m.outputDim,
      ‖y'.get [b, o] - y.get [b, o]‖ ≤
        tiValue (wideTi m m') n (fun i f => ‖tiEntry m inp b i f‖ + ‖tiEntry m' inp' b i f - tiEntry m inp b i f‖) o - tiValue (absTi m) n (fun i f => ‖tiEntry m inp b i f‖) o := by
  obtain ⟨y, y1, y2, y3⟩ := C66_value m h inp B n hi hn g
  obtain ⟨z, z1, z2, z3⟩ := C66_value m' h' inp' B n hi' hn g'
  rw [hsame.output] at z2 z3
  refine ⟨y, z, by rw [y1], by rw [z1], y2, z2, ?_⟩
  intro b hb o ho
  rw [y3 b hb o ho, z3 b hb o ho]
  refine tiValue_near m m' (absTi m) (wideTi m m') ⟨hsame.bond, rfl, rfl⟩ ⟨hsame.feature, rfl, rfl⟩ n _ _ _ _ o ?_ ?_ ?_ ?_ ?_
  · intro l _ r _ f _; simp [absTi, wideTi, absT, wideT]
  · intro l _; simp [absTi, wideTi, absT, wideT]
  · intro l _; simp [absTi, wideTi, absT, wideT]
  · intro l _ r _; rw [tiBias_abs, tiBias_wide m m' h h' hsame.bias]; simp
  · intro i _ f _; simp

theorem tiValue_scaled (θ η : ℝ) (m : TiMps ℝ) (n : ℕ) (x : ℕ → ℕ → ℝ) (o : ℕ) :
    tiValue ⟨m.outputDim, m.bondDim, m.featureDim, m.parallel, m.useBias, false, none, m.core.mapT (θ * ·), m.initVec.mapT (θ * ·), m.termMat.mapT (θ * ·),
      m.biasMat.map (Tensor.mapT (θ * η * ·))⟩ n (fun i f => η * x i f) o = θ ^ (n + 2) * η ^ n * tiValue m n x o := by
  have : θ ^ (n + 2) * η ^ n * tiValue m n x o = tiValue (m.mapM (θ * η * ·) (θ * ·) (θ * ·)) n x o := by
    rw [tiValue_weight]
    ring
  rw [this]
  have hb : ∀ l r, tiBiasAt (⟨m.outputDim, m.bondDim, m.featureDim, m.parallel, m.useBias, false, none, m.core.mapT (θ * ·), m.initVec.mapT (θ * ·), m.termMat.mapT (θ * ·),
      m.biasMat.map (Tensor.mapT (θ * η * ·))⟩ : TiMps ℝ) l r = tiBiasAt (m.mapM (θ * η * ·) (θ * ·) (θ * ·)) l r := fun l r => rfl
  have hs : ∀ i r, tiState (⟨m.outputDim, m.bondDim, m.featureDim, m.parallel, m.useBias, false, none, m.core.mapT (θ * ·), m.initVec.mapT (θ * ·), m.termMat.mapT (θ * ·),
      m.biasMat.map (Tensor.mapT (θ * η * ·))⟩ : TiMps ℝ) (fun i f => η * x i f) i r = tiState (m.mapM (θ * η * ·) (θ * ·) (θ * ·)) x i r := by
    intro i
    induction i with
    | zero => intro r; rfl
    | succ i ih =>
      intro r
      simp only [tiState, ih, hb]
      refine Finset.sum_congr rfl fun l _ => ?_
      congr 2
      refine Finset.sum_congr rfl fun f _ => ?_
      simp only [Tensor.mapT, TiMps.mapM]
      ring
  unfold tiValue
  refine Finset.sum_congr rfl fun l _ => ?_
  rw [hs]
  rfl

/-- C97. If every parameter of a TI_MPS changes at most by the fraction `ε` and every feature at most by the fraction `η` of its absolute value, then each output changes at most by
`(1+ε)^(n+2) (1+η)^n - 1` times the value of the network with the absolute values of all parameters and features. -/
theorem C97_ti_relative (ε η : ℝ) (hε : 0 ≤ ε) (hη : 0 ≤ η) (m m' : TiMps K) (h : IsTi m) (h' : IsTi m') (hsame : TiSameShape m m') (inp inp' : TiInput K) (B n : ℕ)
    (hi : TiAccepts m B n inp) (hi' : TiAccepts m' B n inp') (hn : 1 ≤ n) (g g' : Option ℕ) (hc : RelClose ε m.core m'.core) (hv : RelClose ε m.initVec m'.initVec)
    (ht : RelClose ε m.termMat m'.termMat) (hb : ∀ l < m.bondDim, ∀ r < m.bondDim, ‖tiBiasAt m' l r - tiBiasAt m l r‖ ≤ ε * ‖tiBiasAt m l r‖)
    (hx : ∀ b < B, ∀ i < n, ∀ f < m.featureDim, ‖tiEntry m' inp' b i f - tiEntry m inp b i f‖ ≤ η * ‖tiEntry m inp b i f‖) :
    ∃ y y', (m.forward inp g).1 = .ok y ∧ (m'.forward inp' g').1 = .ok y' ∧ ∀ b < B, ∀ o < m.outputDim,
      ‖y'.get [b, o] - y.get [b, o]‖ ≤ ((1 + ε) ^ (n + 2) * (1 + η) ^ n - 1) * tiValue (absTi m) n (fun i f => ‖tiEntry m inp b i f‖) o := by
  obtain ⟨y, y1, y2, y3⟩ := C66_value m h inp B n hi hn g
  obtain ⟨z, z1, z2, z3⟩ := C66_value m' h' inp' B n hi' hn g'
  rw [hsame.output] at z3
  refine ⟨y, z, by rw [y1], by rw [z1], ?_⟩
  intro b hb' o ho
  rw [y3 b hb' o ho, z3 b hb' o ho, sub_one_mul, ← tiValue_scaled]
  refine tiValue_near m m' (absTi m) _ ⟨hsame.bond, rfl, rfl⟩ ⟨hsame.feature, rfl, rfl⟩ n _ _ _ _ o ?_ ?_ ?_ ?_ ?_
  · intro l hl r hr f hf
    exact nearT_rel (le_refl _) _ _ _ h.core hc [l, r, f] (by simp [InRange, hl, hr, hf])
  · intro l hl
    exact nearT_rel (le_refl _) _ _ _ h.initVec hv [l] (by simp [InRange, hl])
  · intro l hl
    exact nearT_rel (le_refl _) _ _ _ h.termMat ht [l, o] (by simp [InRange, hl, ho])
  · intro l hl r hr
    have e := tiBias_mapM (fun a : ℝ => (1 + ε) * (1 + η) * a) (fun a : ℝ => a) (fun a : ℝ => a) (mul_zero _) (absTi m) l r
    have e2 : tiBiasAt (⟨m.outputDim, m.bondDim, m.featureDim, m.parallel, m.useBias, false, none, (absTi m).core.mapT ((1 + ε) * ·), (absTi m).initVec.mapT ((1 + ε) * ·),
      (absTi m).termMat.mapT ((1 + ε) * ·), (absTi m).biasMat.map (Tensor.mapT ((1 + ε) * (1 + η) * ·))⟩ : TiMps ℝ) l r = (1 + ε) * (1 + η) * tiBiasAt (absTi m) l r := e
    refine ⟨le_of_eq (tiBias_abs m l r).symm, ?_⟩
    refine le_trans (hb l hl r hr) ?_
    refine le_trans ?_ (le_of_eq (congrArg (· - tiBiasAt (absTi m) l r) e2.symm))
    show _ ≤ (1 + ε) * (1 + η) * tiBiasAt (absTi m) l r - tiBiasAt (absTi m) l r
    rw [tiBias_abs]
    nlinarith [norm_nonneg (tiBiasAt m l r), mul_nonneg (mul_nonneg hε hη) (norm_nonneg (tiBiasAt m l r)), mul_nonneg hη (norm_nonneg (tiBiasAt m l r))]
  · intro i hi f hf
    refine ⟨le_refl _, le_trans (hx b hb' i hi f hf) ?_⟩
    linarith

/-- three pixels, the output at the end, bias matrices, parameters of both signs, bond dimension 2 -/
def sensParams (a : ℝ) : Params ℝ :=
  ⟨⟨[3, 2, 2, 2], fun i => a * ((i.getD 0 0 : ℝ) - i.getD 3 0)⟩, ⟨[1, 2, 2], fun i => if i.getD 1 0 = i.getD 2 0 then a else 0⟩, ⟨[2, 2, 2], fun i => a * (i.getD 0 0 - 3)⟩,
    ⟨[0, 2, 2, 2], fun _ => 0⟩, ⟨[1, 2, 2], fun _ => a⟩⟩

/-- the model with these parameters -/
def sensMps (a : ℝ) (periodic par : Bool) : MPS ℝ :=
  ⟨3, 2, 2, 2, periodic, par, none, none, [.inputRegion (sensParams a).left (some (sensParams a).leftBias), .outputSite (sensParams a).out]⟩

theorem sensMps_is (a : ℝ) (periodic par : Bool) : IsMps 3 true (sensParams a) (sensMps a periodic par) :=
  ⟨by simp [sensMps], rfl, rfl, rfl, rfl, rfl, rfl⟩

/-- a batch of four samples with features -/
def sensInput (a : ℝ) : Tensor ℝ := ⟨[4, 3, 2], fun i => a * ((i.getD 1 0 : ℝ) - 1)⟩

theorem sens_embedded (a c : ℝ) (periodic par : Bool) : Embedded (sensMps a periodic par) (sensInput c) (sensInput c) :=
  ⟨_, rfl, embed_embedded _ 4 _ rfl⟩

theorem relClose_mul (ε : ℝ) (t t' : Tensor ℝ) (h : ∀ idx, t'.get idx = (1 + ε) * t.get idx) (hε : 0 ≤ ε) : RelClose ε t t' := by
  intro idx _
  rw [h]
  have : (1 + ε) * t.get idx - t.get idx = ε * t.get idx := by ring
  rw [this, norm_mul, Real.norm_of_nonneg hε]

/-- Multiplying all parameters by 1.01 and all features by 1.1, and changing the evaluation mode. -/
example (periodic par par' : Bool) : ∃ y y', ((sensMps 1 periodic par).forward (sensInput 1) none).1 = .ok y ∧
    ((sensMps (1 + 1 / 100) periodic par').forward (sensInput (1 + 1 / 10)) (some 7)).1 = .ok y' ∧ ∀ b < 4, ∀ o < 2,
      |y'.get [b, o] - y.get [b, o]| ≤ ((1 + 1 / 100) ^ 4 * (1 + 1 / 10) ^ 3 - 1) * mpsValue 2 2 3 3 true periodic (absParams (sensParams 1)) (absT (sensInput 1)) b o :=
  C97_relative (1 / 100) (1 / 10) (by norm_num) (by norm_num) 3 true _ _ _ _ (sensMps_is 1 periodic par) (sensMps_is _ periodic par') ⟨rfl, rfl, rfl, rfl, rfl⟩ (Or.inr (by simp [sensMps]))
    ⟨by decide, by simp [sensMps]⟩ _ _ _ _ (sens_embedded _ _ _ _) (sens_embedded _ _ _ _) 4 rfl rfl none (some 7) (Or.inl (by decide)) (Or.inl (by decide))
    ⟨relClose_mul _ _ _ (by intro i; simp [sensParams]) (by norm_num), relClose_mul _ _ _ (by intro i; simp [sensParams]) (by norm_num),
      relClose_mul _ _ _ (by intro i; simp [sensParams]) (by norm_num), relClose_mul _ _ _ (by intro i; simp [sensParams]) (by norm_num),
      relClose_mul _ _ _ (by intro i; simp [sensParams]) (by norm_num)⟩ (relClose_mul _ _ _ (by intro i; simp [sensInput]) (by norm_num))

/-- The bound is attained: with nonnegative parameters and features increased by these fractions, the change is exactly the bound. -/
example (D F n k : ℕ) (hk : k ≤ n) (per : Bool) (p : Params ℝ) (e : Tensor ℝ) (ε η : ℝ) (b o : ℕ) :
    mpsValue D F n k true per ⟨p.left.mapT ((1 + ε) * ·), p.leftBias.mapT ((1 + ε) * (1 + η) * ·), p.out.mapT ((1 + ε) * ·), p.right.mapT ((1 + ε) * ·),
      p.rightBias.mapT ((1 + ε) * (1 + η) * ·)⟩ (e.mapT ((1 + η) * ·)) b o - mpsValue D F n k true per p e b o =
      ((1 + ε) ^ (n + 1) * (1 + η) ^ n - 1) * mpsValue D F n k true per p e b o := by
  rw [mpsValue_scaled _ _ _ _ _ _ hk]
  ring

/-- continuity at this model -/
example (periodic par : Bool) : ∃ y, ((sensMps 1 periodic par).forward (sensInput 1) none).1 = .ok y ∧ ∃ δ > 0, ∀ a c : ℝ, |a - 1| ≤ δ → |c - 1| ≤ δ →
    ∃ y', ((sensMps a periodic par).forward (sensInput c) none).1 = .ok y' ∧ ∀ b < 4, ∀ o < 2, |y'.get [b, o] - y.get [b, o]| ≤ 1 / 1000 := by
  obtain ⟨y, y1, δ, δ1, δ2⟩ := C97_continuous 3 true _ _ (sensMps_is 1 periodic par) (Or.inr (by simp [sensMps])) ⟨by decide, by simp [sensMps]⟩ _ _
    (sens_embedded 1 1 periodic par) 4 rfl none (Or.inl (by decide)) (1 / 1000) (by norm_num)
  refine ⟨y, y1, δ / 3, by positivity, ?_⟩
  intro a c ha hc
  refine δ2 _ _ (sensMps_is a periodic par) ⟨rfl, rfl, rfl, rfl, rfl⟩ _ _ (sens_embedded a c periodic par) rfl none (Or.inl (by decide)) ⟨?_, ?_, ?_, ?_, ?_⟩ ?_
  · intro idx hi
    have e : (sensParams a).left.get idx - (sensParams 1).left.get idx = (a - 1) * ((idx.getD 0 0 : ℝ) - idx.getD 3 0) := by simp only [sensParams]; ring
    have hi' : ∃ i l r f : ℕ, idx = [i, l, r, f] ∧ i < 3 ∧ f < 2 := by
      simp only [sensParams, InRange] at hi
      rcases idx with _ | ⟨i, _ | ⟨l, _ | ⟨r, _ | ⟨f, _ | ⟨_, _⟩⟩⟩⟩⟩ <;> simp at hi
      exact ⟨i, l, r, f, rfl, by omega, by omega⟩
    obtain ⟨i, l, r, f, rfl, h1, h2⟩ := hi'
    have hb : |(i : ℝ) - f| ≤ 2 := by
      rw [abs_le]
      constructor
      · have : (f : ℝ) ≤ 1 := by exact_mod_cast Nat.lt_succ_iff.1 h2
        have : (0 : ℝ) ≤ i := Nat.cast_nonneg _
        linarith
      · have : (i : ℝ) ≤ 2 := by exact_mod_cast Nat.lt_succ_iff.1 h1
        have : (0 : ℝ) ≤ f := Nat.cast_nonneg _
        linarith
    rw [e, Real.norm_eq_abs, abs_mul]
    simp only [List.getD_cons_zero, List.getD_cons_succ]
    nlinarith [abs_nonneg (a - 1), abs_nonneg ((i : ℝ) - f)]
  · intro idx _
    simp only [sensParams]
    split
    · rw [Real.norm_eq_abs]; linarith
    · simp; linarith
  · intro idx hi
    have e : (sensParams a).out.get idx - (sensParams 1).out.get idx = (a - 1) * ((idx.getD 0 0 : ℝ) - 3) := by simp only [sensParams]; ring
    have hi' : idx.getD 0 0 < 2 := by
      simp only [sensParams, InRange] at hi
      rcases idx with _ | ⟨i, idx⟩
      · simp at hi
      · simp at hi; simpa using hi.1
    have hb : |((idx.getD 0 0 : ℕ) : ℝ) - 3| ≤ 3 := by
      rw [abs_le]
      have h1 : ((idx.getD 0 0 : ℕ) : ℝ) ≤ 1 := by exact_mod_cast Nat.lt_succ_iff.1 hi'
      have : (0 : ℝ) ≤ ((idx.getD 0 0 : ℕ) : ℝ) := Nat.cast_nonneg _
      constructor <;> linarith
    rw [e, Real.norm_eq_abs, abs_mul]
    nlinarith [abs_nonneg (a - 1), abs_nonneg (((idx.getD 0 0 : ℕ) : ℝ) - 3)]
  · intro idx _
    simp [sensParams]; linarith
  · intro idx _
    simp only [sensParams]
    rw [Real.norm_eq_abs]; linarith
  · intro idx hi
    have e : (sensInput c).get idx - (sensInput 1).get idx = (c - 1) * ((idx.getD 1 0 : ℝ) - 1) := by simp only [sensInput]; ring
    have hi' : idx.getD 1 0 < 3 := by
      simp only [sensInput, InRange] at hi
      rcases idx with _ | ⟨i, _ | ⟨j, idx⟩⟩ <;> simp at hi
      simpa using hi.2.1
    have hb : |((idx.getD 1 0 : ℕ) : ℝ) - 1| ≤ 1 := by
      rw [abs_le]
      have h1 : ((idx.getD 1 0 : ℕ) : ℝ) ≤ 2 := by exact_mod_cast Nat.lt_succ_iff.1 hi'
      have : (0 : ℝ) ≤ ((idx.getD 1 0 : ℕ) : ℝ) := Nat.cast_nonneg _
      constructor <;> linarith
    rw [e, Real.norm_eq_abs, abs_mul]
    nlinarith [abs_nonneg (c - 1), abs_nonneg (((idx.getD 1 0 : ℕ) : ℝ) - 1)]

/-- two pixels in front of the output, bond dimension 1, two outputs -/
def labelParams (a c : ℝ) : Params ℝ :=
  ⟨⟨[2, 1, 1, 1], fun _ => -1⟩, ⟨[1, 1, 1], fun _ => 0⟩, ⟨[2, 1, 1], fun i => if i.getD 0 0 = 0 then a else c⟩, ⟨[0, 1, 1, 1], fun _ => 0⟩, ⟨[1, 1, 1], fun _ => 0⟩⟩

/-- the model with these parameters -/
def labelMps (a c : ℝ) : MPS ℝ := ⟨2, 2, 1, 1, false, false, none, none, [.inputRegion (labelParams a c).left none, .outputSite (labelParams a c).out]⟩

/-- Outputs 5 and 1 for the features (-1, -1); whatever outputs coefficients within 0.5 of these and features within 0.1 of these give, the first is larger. -/
example (a c : ℝ) (ha : |a - 5| ≤ 1 / 2) (hc : |c - 1| ≤ 1 / 2) (f : ℝ) (hf : |f + 1| ≤ 1 / 10) : ∃ y', ((labelMps a c).forward ⟨[1, 2, 1], fun _ => f⟩ none).1 = .ok y' ∧ y'.get [0, 1] < y'.get [0, 0] := by
  obtain ⟨y, y', y1, y2, y3⟩ := C97_label 2 false (labelParams 5 1) (labelParams a c) (labelMps 5 1) (labelMps a c) ⟨by simp [labelMps], rfl, rfl, rfl, rfl, rfl, rfl⟩
    ⟨by simp [labelMps], rfl, rfl, rfl, rfl, rfl, rfl⟩ ⟨rfl, rfl, rfl, rfl, rfl⟩ (Or.inr (by simp [labelMps])) ⟨by decide, by simp [labelMps]⟩ ⟨[1, 2, 1], fun _ => -1⟩ ⟨[1, 2, 1], fun _ => f⟩ _ _
    ⟨_, rfl, embed_embedded _ 1 _ rfl⟩ ⟨_, rfl, embed_embedded _ 1 _ rfl⟩ 1 rfl rfl none none (Or.inl (by decide)) (Or.inl (by decide))
  obtain ⟨z, _, z1, _, z3⟩ := mps_forward 2 false (labelParams 5 1) (labelMps 5 1) ⟨by simp [labelMps], rfl, rfl, rfl, rfl, rfl, rfl⟩ (Or.inr (by simp [labelMps]))
    ⟨by decide, by simp [labelMps]⟩ ⟨[1, 2, 1], fun _ => -1⟩ _ ⟨_, rfl, embed_embedded _ 1 _ rfl⟩ 1 rfl none (Or.inl (by decide))
  rw [z1] at y1
  cases y1
  refine ⟨y', y2, y3 0 (by decide) 0 (by simp [labelMps]) (fun o => if o = 0 then 33 / 20 + 1 / 100 else 1) ?_ ?_ 1 (by simp [labelMps]) (by decide)⟩
  · intro o ho
    have ho' : o = 0 ∨ o = 1 := by simp [labelMps] at ho; omega
    have e : ∀ (p : Params ℝ) (e : Tensor ℝ), mpsValue 1 1 2 2 false false p e 0 o = (p.left.get [0, 0, 0, 0] * e.get [0, 0, 0]) * (p.left.get [1, 0, 0, 0] * e.get [0, 1, 0]) * p.out.get [o, 0, 0] := by
      intro p e
      simp [mpsValue, mpsMats, pixelMats, pixelMat, affMat, orderedProd, matProd, List.range', Mat.of, Mat.mul, outMat, Params.core, Params.bias]
    show mpsValue 1 1 2 2 false false _ _ 0 o - mpsValue 1 1 2 2 false false _ _ 0 o ≤ _
    rw [e, e]
    have hf' : ‖f - -1‖ ≤ 1 / 10 := by simpa using hf
    rcases ho' with rfl | rfl
    · simp [labelParams, wideParams, wideT, absParams, absT] at *
      nlinarith [abs_nonneg (f + 1), abs_nonneg (a - 5), mul_nonneg (abs_nonneg (f + 1)) (abs_nonneg (a - 5))]
    · simp [labelParams, wideParams, wideT, absParams, absT] at *
      nlinarith [abs_nonneg (f + 1), abs_nonneg (c - 1), mul_nonneg (abs_nonneg (f + 1)) (abs_nonneg (c - 1))]
  · intro o ho ho0
    have ho' : o = 1 := by simp [labelMps] at ho; omega
    subst ho'
    rw [z3 0 (by decide) 0 (by simp [labelMps]), z3 0 (by decide) 1 (by simp [labelMps])]
    simp [mpsValue, mpsMats, pixelMats, pixelMat, affMat, orderedProd, matProd, List.range', Mat.of, Mat.mul, outMat, Params.core, Params.bias, labelMps, labelParams]
    norm_num

/-- a TI_MPS of bond dimension 1 with a fixed bias -/
def sensTi (a : ℝ) : TiMps ℝ :=
  ⟨1, 1, 2, false, true, true, none, ⟨[1, 1, 2], fun idx => if idx.getD 2 0 = 0 then -2 * a else a⟩, ⟨[1], fun _ => a⟩, ⟨[1, 1], fun _ => 3 * a⟩, some ⟨[1, 1], fun _ => 1⟩⟩

theorem sensTi_is (a : ℝ) : IsTi (sensTi a) := by
  refine ⟨rfl, rfl, rfl, fun _ => ⟨_, rfl, rfl⟩, ?_⟩
  intro _ _ l hl r hr
  have h1 : l < 1 := hl
  have h2 : r < 1 := hr
  rw [if_pos (by omega)]
  rfl

/-- two sequences of different lengths -/
def sensSeqs (a : ℝ) : TiInput ℝ := .list [⟨[1, 2], fun _ => 4 * a⟩, ⟨[3, 2], fun i => i.getD 0 0 * a⟩]

theorem sensSeqs_ok (a c : ℝ) : TiAccepts (sensTi a) 2 3 (sensSeqs c) :=
  ⟨rfl, ⟨⟨[3, 2], fun i => i.getD 0 0 * c⟩, by simp, rfl⟩, by simp [itemLen], Or.inl ⟨rfl, rfl⟩, Or.inl (by simp [itemLen, sensTi])⟩

/-- parameters changed by 1%, features by 10% -/
example : ∃ y y', ((sensTi 1).forward (sensSeqs 1) none).1 = .ok y ∧ ((sensTi (1 + 1 / 100)).forward (sensSeqs (1 + 1 / 10)) none).1 = .ok y' ∧ ∀ b < 2, ∀ o < 1,
    |y'.get [b, o] - y.get [b, o]| ≤ ((1 + 1 / 100) ^ 5 * (1 + 1 / 10) ^ 3 - 1) * tiValue (absTi (sensTi 1)) 3 (fun i f => ‖tiEntry (sensTi 1) (sensSeqs 1) b i f‖) o :=
  C97_ti_relative (1 / 100) (1 / 10) (by norm_num) (by norm_num) _ _ (sensTi_is 1) (sensTi_is (1 + 1 / 100)) ⟨rfl, rfl, rfl, rfl⟩ _ _ 2 3 (sensSeqs_ok _ _) (sensSeqs_ok _ _) (by decide) none none
    (relClose_mul _ _ _ (by intro i; simp only [sensTi]; split <;> ring) (by norm_num)) (relClose_mul _ _ _ (by intro i; simp [sensTi]) (by norm_num))
    (relClose_mul _ _ _ (by intro i; simp only [sensTi]; ring) (by norm_num)) (by intro l _ r _; simp [tiBiasAt, sensTi]) (by
      intro b hb i hi f hf
      have e : tiEntry (sensTi (1 + 1 / 100)) (sensSeqs (1 + 1 / 10)) b i f = (1 + 1 / 10) * tiEntry (sensTi 1) (sensSeqs 1) b i f := by
        have hb' : b = 0 ∨ b = 1 := by omega
        rcases hb' with rfl | rfl
        · by_cases h : i < 1
          · simp [tiEntry, sensSeqs, itemLen, itemEntry, h]; ring
          · simp [tiEntry, sensSeqs, itemLen, itemEntry, show i ≠ 0 by omega]
        · simp [tiEntry, sensSeqs, itemLen, itemEntry, hi]; ring
      rw [e]
      have e2 : (1 + 1 / 10) * tiEntry (sensTi 1) (sensSeqs 1) b i f - tiEntry (sensTi 1) (sensSeqs 1) b i f = 1 / 10 * tiEntry (sensTi 1) (sensSeqs 1) b i f := by ring
      rw [e2, norm_mul, Real.norm_of_nonneg (by norm_num)])

end TorchMPS
