import Verif.Lemmas.Gauge
import Mathlib.Tactic.IntervalCases
/-
C80: MPS with different parameters which compute the same function.
-/
namespace TorchMPS
open Spec
variable {K : Type}

/-- a matrix given by its entries -/
def entryMat (r c : ℕ) (X : ℕ → ℕ → K) : Matrix (Fin r) (Fin c) K := fun i j => X i j

theorem entryMat_sandwich [CommSemiring K] (D D' : ℕ) (Y A X : ℕ → ℕ → K) :
    entryMat D' D' (sandwich D Y A X) = entryMat D' D Y * entryMat D D A * entryMat D D' X := by
  ext l r
  simp only [entryMat, sandwich, Matrix.mul_apply]
  rw [Finset.sum_comm, ← Fin.sum_univ_eq_sum_range (fun b => ∑ a ∈ Finset.range D, Y l a * A a b * X b r) D]
  refine Finset.sum_congr rfl ?_
  intro b _
  rw [Finset.sum_mul, ← Fin.sum_univ_eq_sum_range (fun a => Y l a * A a b * X b r) D]

theorem entryMat_oneSided [CommSemiring K] (D D' : ℕ) (X Y : ℕ → ℕ → K) (h : OneSided D D' X Y) :
    entryMat D D' X * entryMat D' D Y = 1 := by
  ext a b
  simp only [entryMat, Matrix.mul_apply, Matrix.one_apply, Fin.ext_iff]
  rw [← h a a.2 b b.2, ← Fin.sum_univ_eq_sum_range (fun c => X a c * Y c b) D']

theorem toMatrix_of [Zero K] (r c : ℕ) (f : ℕ → ℕ → K) : toMatrix r c (Mat.of r c f) = entryMat r c f := by
  ext i j
  simp [toMatrix, Mat.of, entryMat, i.2, j.2]

theorem sandwich_sum [CommSemiring K] (D F : ℕ) (Y X : ℕ → ℕ → K) (A : ℕ → ℕ → ℕ → K) (v : ℕ → K) (B : ℕ → ℕ → K) (l r : ℕ) :
    ∑ f ∈ Finset.range F, sandwich D Y (fun a b => A a b f) X l r * v f + sandwich D Y B X l r =
      sandwich D Y (fun a b => ∑ f ∈ Finset.range F, A a b f * v f + B a b) X l r := by
  unfold sandwich
  simp only [Finset.sum_mul, mul_add, add_mul, Finset.sum_add_distrib, Finset.mul_sum]
  congr 1
  rw [Finset.sum_comm]
  refine Finset.sum_congr rfl (fun a _ => ?_)
  rw [Finset.sum_comm]
  refine Finset.sum_congr rfl (fun b _ => ?_)
  refine Finset.sum_congr rfl (fun f _ => ?_)
  ring

theorem posMat_regauged [CommSemiring K] {D D' F O n k : ℕ} {ub per : Bool} {p p' : Params K} {X Y : ℕ → ℕ → ℕ → K}
    (h : Regauged D D' F O n k ub per p p' X Y) (hk : k ≤ n) (e : Tensor K) (b o : ℕ) (ho : o < O) (j : ℕ) (hj : j < n + 1) :
    toMatrix D' D' (posMat D' F k ub p' e b o j) =
      entryMat D' D (Y j) * toMatrix D D (posMat D F k ub p e b o j) * entryMat D D' (X (j + 1)) := by
  have pix : ∀ i < n, posOf k i = j → toMatrix D' D' (pixelMat D' F k ub p' e b i) =
      entryMat D' D (Y j) * toMatrix D D (pixelMat D F k ub p e b i) * entryMat D D' (X (j + 1)) := by
    intro i hi hp
    unfold pixelMat affMat
    rw [toMatrix_of, toMatrix_of, ← entryMat_sandwich]
    ext l r
    simp only [entryMat]
    rw [← sandwich_sum]
    congr 1
    · refine Finset.sum_congr rfl ?_
      intro f hf
      beta_reduce
      rw [h.core i hi l l.2 r r.2 f (Finset.mem_range.1 hf), hp]
    · rw [h.bias i hi l l.2 r r.2, hp]
  unfold posMat
  by_cases h1 : j < k
  · rw [if_pos h1, if_pos h1]
    exact pix j (by omega) (by simp [posOf, h1])
  · rw [if_neg h1, if_neg h1]
    by_cases h2 : j = k
    · subst h2
      rw [if_pos rfl, if_pos rfl]
      unfold outMat
      rw [toMatrix_of, toMatrix_of, ← entryMat_sandwich]
      ext l r
      simp only [entryMat]
      exact h.out o ho l l.2 r r.2
    · rw [if_neg h2, if_neg h2]
      exact pix (j - 1) (by omega) (by simp [posOf, show ¬ (j - 1 < k) by omega]; omega)

theorem mpsValue_regauged [CommRing K] {D D' F O n k : ℕ} {ub per : Bool} {p p' : Params K} {X Y : ℕ → ℕ → ℕ → K}
    (h : Regauged D D' F O n k ub per p p' X Y) (hk : k ≤ n) (hD : per = true ∨ 1 ≤ D) (e : Tensor K) (b o : ℕ) (ho : o < O) :
    mpsValue D' F n k ub per p' e b o = mpsValue D F n k ub per p e b o := by
  have hc : chainMatrix D' F n k ub p' e b o = entryMat D' D (Y 0) * chainMatrix D F n k ub p e b o * entryMat D D' (X (n + 1)) := by
    unfold chainMatrix
    exact seqProd_regauge _ _ (fun j => entryMat D D' (X j)) (fun j => entryMat D' D (Y j)) n
      (fun j hj => posMat_regauged h hk e b o ho j hj) (fun j h1 h2 => entryMat_oneSided D D' (X j) (Y j) (h.bonds j h1 h2))
  cases hper : per with
  | true =>
    rw [(mpsValue_chain D' F n k hk ub true p' e b o).1 rfl, (mpsValue_chain D F n k hk ub true p e b o).1 rfl, hc, Matrix.mul_assoc,
      Matrix.trace_mul_comm, Matrix.mul_assoc, entryMat_oneSided D D' _ _ (h.ring hper), Matrix.mul_one]
  | false =>
    obtain ⟨hD', he⟩ := h.ends hper
    have hD : 1 ≤ D := hD.resolve_left (by simp [hper])
    rw [(mpsValue_chain D' F n k hk ub false p' e b o).2 rfl hD', (mpsValue_chain D F n k hk ub false p e b o).2 rfl hD, hc]
    simp only [Matrix.mul_apply]
    rw [Finset.sum_eq_single ⟨0, hD⟩, Finset.sum_eq_single ⟨0, hD⟩]
    · simp [entryMat, (he 0 hD).1, (he 0 hD).2]
    · intro a _ ha
      have : (a : ℕ) ≠ 0 := fun h' => ha (Fin.ext h')
      simp [entryMat, (he a a.2).1, this]
    · simp
    · intro a _ ha
      have : (a : ℕ) ≠ 0 := fun h' => ha (Fin.ext h')
      simp [entryMat, (he a a.2).2, this]
    · simp

theorem embedded_same [CommRing K] (m m' : MPS K) (hm : SameInputs m m') (x e : Tensor K) (he : Embedded m x e) : Embedded m' x e := by
  obtain ⟨h1, h2, h3, h4, h5, h6⟩ := hm
  obtain ⟨x', e1, e2⟩ := he
  refine ⟨x', by rw [h5]; exact e1, ?_⟩
  unfold MPS.embedInput at e2 ⊢
  rw [h1, h3, h6]
  exact e2

/-- C80: changes of basis on the bonds (with or without a change of the bond dimension) do not change any output: the two models return the same for every
input, whatever their evaluation modes and the calls made before. -/
theorem C80_gauge [CommRing K] (k : ℕ) (ub : Bool) (p p' : Params K) (m m' : MPS K) (h : IsMps k ub p m) (h' : IsMps k ub p' m')
    (hm : SameInputs m m') (hD : m.periodic = true ∨ 1 ≤ m.bondDim) (hs : NoShortRegion m.inputDim k) (X Y : ℕ → ℕ → ℕ → K)
    (hg : Regauged m.bondDim m'.bondDim m.featureDim m.outputDim m.inputDim k ub m.periodic p p' X Y)
    (x e : Tensor K) (he : Embedded m x e) (g g' : Option ℕ) (hg1 : BatchKnown k (e.shape.getD 0 0) g) (hg2 : BatchKnown k (e.shape.getD 0 0) g') :
    ∃ y y', (m.forward x g).1 = .ok y ∧ (m'.forward x g').1 = .ok y' ∧ y.shape = [e.shape.getD 0 0, m.outputDim] ∧ y.Eqv y' := by
  obtain ⟨y, g1, y1, y2, y3⟩ := mps_forward k ub p m h hD hs x e he _ rfl g hg1
  have hD' : m'.periodic = true ∨ 1 ≤ m'.bondDim := by
    rw [hm.2.2.2.1]
    cases hper : m.periodic with
    | true => exact Or.inl rfl
    | false => exact Or.inr (hg.ends hper).1
  obtain ⟨y', g2, y1', y2', y3'⟩ := mps_forward k ub p' m' h' hD' (by rw [hm.1]; exact hs) x e (embedded_same m m' hm x e he) _ rfl g' hg2
  rw [hm.2.1] at y2'
  refine ⟨y, y', by rw [y1], by rw [y1'], y2, by rw [y2, y2'], ?_⟩
  intro idx hidx
  rw [y2] at hidx
  obtain _ | ⟨b, _ | ⟨o, _ | ⟨_, _⟩⟩⟩ := idx <;> simp at hidx
  obtain ⟨hb, ho⟩ := hidx
  rw [y3 b hb o ho, y3' b hb o (by rw [hm.2.1]; exact ho), hm.1, hm.2.2.1, hm.2.2.2.1]
  exact (mpsValue_regauged hg h.label hD e b o ho).symm

theorem padded_regauged [CommSemiring K] {D D' F O n k : ℕ} {ub : Bool} {p p' : Params K} (h : Padded D D' F O n k ub p p') (per : Bool)
    (hD : per = true ∨ 1 ≤ D) :
    Regauged D D' F O n k ub per p p' (fun _ a c => if a = c ∧ a < D then 1 else 0) (fun _ c b => if c = b ∧ b < D then 1 else 0) := by
  have one : OneSided D D' (fun a c => if a = c ∧ a < D then (1 : K) else 0) (fun c b => if c = b ∧ b < D then 1 else 0) := by
    intro a ha b hb
    rw [Finset.sum_eq_single a]
    · simp [ha, hb]
    · intro c _ hc
      simp [Ne.symm hc]
    · intro hn
      exact absurd (Finset.mem_range.2 (lt_of_lt_of_le ha h.le)) hn
  have sand : ∀ A : ℕ → ℕ → K, ∀ l r, sandwich D (fun c b => if c = b ∧ b < D then (1 : K) else 0) A (fun a c => if a = c ∧ a < D then 1 else 0) l r =
      if l < D ∧ r < D then A l r else 0 := by
    intro A l r
    unfold sandwich
    by_cases hl : l < D
    · rw [Finset.sum_eq_single l]
      · by_cases hr : r < D
        · rw [Finset.sum_eq_single r]
          · simp [hl, hr]
          · intro b _ hb
            simp [hb]
          · intro hn
            exact absurd (Finset.mem_range.2 hr) hn
        · rw [if_neg (fun hh => hr hh.2)]
          refine Finset.sum_eq_zero ?_
          intro b hb
          have := Finset.mem_range.1 hb
          simp [show b ≠ r by omega]
      · intro a _ ha
        simp [Ne.symm ha]
      · intro hn
        exact absurd (Finset.mem_range.2 hl) hn
    · rw [if_neg (fun hh => hl hh.1)]
      refine Finset.sum_eq_zero ?_
      intro a ha
      have := Finset.mem_range.1 ha
      simp [show l ≠ a by omega]
  refine ⟨fun _ _ _ => one, ?_, ?_, ?_, fun _ => one, ?_⟩
  · intro i hi l hl r hr f hf
    rw [sand, h.core i hi l hl r hr f hf]
  · intro i hi l hl r hr
    rw [sand, h.bias i hi l hl r hr]
  · intro o ho l hl r hr
    rw [sand, h.out o ho l hl r hr]
  · intro hper
    have hD : 1 ≤ D := hD.resolve_left (by simp [hper])
    refine ⟨le_trans hD h.le, ?_⟩
    intro a ha
    by_cases h0 : a = 0
    · subst h0
      simp; omega
    · simp [h0, Ne.symm h0]

/-- C80: a larger bond dimension never loses anything: filling the parameters up with zeros to any larger bond dimension leaves all outputs unchanged. -/
theorem C80_padding [CommRing K] (k : ℕ) (ub : Bool) (p p' : Params K) (m m' : MPS K) (h : IsMps k ub p m) (h' : IsMps k ub p' m')
    (hm : SameInputs m m') (hD : m.periodic = true ∨ 1 ≤ m.bondDim) (hs : NoShortRegion m.inputDim k)
    (hg : Padded m.bondDim m'.bondDim m.featureDim m.outputDim m.inputDim k ub p p')
    (x e : Tensor K) (he : Embedded m x e) (g g' : Option ℕ) (hg1 : BatchKnown k (e.shape.getD 0 0) g) (hg2 : BatchKnown k (e.shape.getD 0 0) g') :
    ∃ y y', (m.forward x g).1 = .ok y ∧ (m'.forward x g').1 = .ok y' ∧ y.shape = [e.shape.getD 0 0, m.outputDim] ∧ y.Eqv y' :=
  C80_gauge k ub p p' m m' h h' hm hD hs _ _ (padded_regauged hg m.periodic hD) x e he g g' hg1 hg2

/-! ### concrete cases -/

/-- the parameters with cores and output core `A`, `C` and without bias -/
def plainParams [Zero K] (D F O n k : ℕ) (A : ℕ → ℕ → ℕ → ℕ → K) (C : ℕ → ℕ → ℕ → K) : Params K where
  left := ⟨[k, D, D, F], fun idx => A (idx.getD 0 0) (idx.getD 1 0) (idx.getD 2 0) (idx.getD 3 0)⟩
  leftBias := ⟨[1, D, D], fun _ => 0⟩
  out := ⟨[O, D, D], fun idx => C (idx.getD 0 0) (idx.getD 1 0) (idx.getD 2 0)⟩
  right := ⟨[n - k, D, D, F], fun idx => A (k + idx.getD 0 0) (idx.getD 1 0) (idx.getD 2 0) (idx.getD 3 0)⟩
  rightBias := ⟨[1, D, D], fun _ => 0⟩

theorem plain_core [Zero K] (D F O n k : ℕ) (A : ℕ → ℕ → ℕ → ℕ → K) (C : ℕ → ℕ → ℕ → K) (i l r f : ℕ) :
    (plainParams D F O n k A C).core k i l r f = A i l r f := by
  unfold Params.core plainParams
  split_ifs with h
  · rfl
  · show A (k + (i - k)) l r f = _
    rw [show k + (i - k) = i by omega]

/-- a model with 5 pixels, the output at site 2 and bond dimension `D` -/
def gaugeModel [Zero K] (D : ℕ) (A : ℕ → ℕ → ℕ → ℕ → K) (C : ℕ → ℕ → ℕ → K) (periodic : Bool) : MPS K :=
  withParams ⟨5, 3, D, 2, periodic, false, none, none, []⟩ 2 false (plainParams D 2 3 5 2 A C)

theorem gauge_isMps [Zero K] (D : ℕ) (A : ℕ → ℕ → ℕ → ℕ → K) (C : ℕ → ℕ → ℕ → K) (periodic : Bool) :
    IsMps 2 false (plainParams D 2 3 5 2 A C) (gaugeModel D A C periodic) :=
  ⟨show 2 ≤ 5 by omega, rfl, rfl, rfl, rfl, rfl, rfl⟩

/-- a shear of the two bond indices, and its inverse for `c = -1` -/
def shear (c : ℤ) (a b : ℕ) : ℤ := if a = b then 1 else if a = 0 ∧ b = 1 then c else 0

/-- The hypotheses of C80_gauge are met by every model of bond dimension 2 (5 pixels, output at site 2), sheared on the five inner bonds, and its value is
not trivial. -/
example (A : ℕ → ℕ → ℕ → ℕ → ℤ) (C : ℕ → ℕ → ℕ → ℤ) : ∃ A' C' X Y,
    Regauged 2 2 2 3 5 2 false false (plainParams 2 2 3 5 2 A C) (plainParams 2 2 3 5 2 A' C') X Y ∧
    IsMps 2 false (plainParams 2 2 3 5 2 A C) (gaugeModel 2 A C false) ∧ IsMps 2 false (plainParams 2 2 3 5 2 A' C') (gaugeModel 2 A' C' false) ∧
    SameInputs (gaugeModel 2 A C false) (gaugeModel 2 A' C' false) ∧ NoShortRegion 5 2 ∧ C' 0 0 0 = C 0 0 0 - C 0 1 0 := by
  let X : ℕ → ℕ → ℕ → ℤ := fun j => if 1 ≤ j ∧ j ≤ 5 then shear 1 else shear 0
  let Y : ℕ → ℕ → ℕ → ℤ := fun j => if 1 ≤ j ∧ j ≤ 5 then shear (-1) else shear 0
  refine ⟨fun i l r f => sandwich 2 (Y (posOf 2 i)) (fun a b => A i a b f) (X (posOf 2 i + 1)) l r,
    fun o l r => sandwich 2 (Y 2) (fun a b => C o a b) (X 3) l r, X, Y, ⟨?_, ?_, ?_, ?_, ?_, ?_⟩, gauge_isMps _ _ _ _, gauge_isMps _ _ _ _,
    ⟨rfl, rfl, rfl, rfl, rfl, rfl⟩, by unfold NoShortRegion; omega, ?_⟩
  · intro j h1 h2 a ha b hb
    simp only [X, Y, h1, h2, and_self, if_true]
    interval_cases a <;> interval_cases b <;> simp [shear, Finset.sum_range_succ]
  · intro i _ l _ r _ f _
    simp only [plain_core]
  · intro i _ l _ r _
    simp [Params.bias, sandwich]
  · intro o _ l _ r _
    rfl
  · simp
  · intro _
    refine ⟨by omega, ?_⟩
    intro a ha
    interval_cases a <;> simp [X, Y, shear]
  · simp [sandwich, X, Y, shear, Finset.sum_range_succ]
    ring

/-- The hypotheses of C80_padding are met: bond dimension 2 filled up to 4. -/
example (A : ℕ → ℕ → ℕ → ℕ → ℤ) (C : ℕ → ℕ → ℕ → ℤ) : ∃ A' C',
    Padded 2 4 2 3 5 2 false (plainParams 2 2 3 5 2 A C) (plainParams 4 2 3 5 2 A' C') ∧
    IsMps 2 false (plainParams 2 2 3 5 2 A C) (gaugeModel 2 A C true) ∧ IsMps 2 false (plainParams 4 2 3 5 2 A' C') (gaugeModel 4 A' C' true) ∧
    SameInputs (gaugeModel 2 A C true) (gaugeModel 4 A' C' true) := by
  refine ⟨fun i l r f => if l < 2 ∧ r < 2 then A i l r f else 0, fun o l r => if l < 2 ∧ r < 2 then C o l r else 0, ⟨by omega, ?_, ?_, ?_⟩,
    gauge_isMps _ _ _ _, gauge_isMps _ _ _ _, ⟨rfl, rfl, rfl, rfl, rfl, rfl⟩⟩
  · intro i _ l _ r _ f _
    simp only [plain_core]
  · intro i _ l _ r _
    simp [Params.bias]
  · intro o _ l _ r _
    rfl

end TorchMPS
