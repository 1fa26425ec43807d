import Verif.Props.Gauge
/-
C79: the outputs of an MPS as functions of a single core.
-/
namespace TorchMPS
open Spec
variable {K : Type}

/-- A product in which only one factor varies. -/
theorem seqProd_split [CommSemiring K] {D : ℕ} (A : ℕ → Matrix (Fin D) (Fin D) K) (q N : ℕ) (hq : q < N) :
    ∃ L R : Matrix (Fin D) (Fin D) K, ∀ B : ℕ → Matrix (Fin D) (Fin D) K, (∀ j < N, j ≠ q → B j = A j) → seqProd B N = L * B q * R := by
  induction N with
  | zero => omega
  | succ N ih =>
    by_cases h : q = N
    · subst h
      refine ⟨seqProd A q, 1, ?_⟩
      intro B hB
      rw [seqProd_succ, Matrix.mul_one, seqProd_congr B A q (fun j hj => hB j (by omega) (by omega))]
    · obtain ⟨L, R, hLR⟩ := ih (by omega)
      refine ⟨L, R * A N, ?_⟩
      intro B hB
      rw [seqProd_succ, hLR B (fun j hj => hB j (by omega)), hB N (by omega) (Ne.symm h), Matrix.mul_assoc]

/-- The value of a chain is a linear function of the entries of any one of its matrices. -/
theorem mpsValue_linear [CommRing K] (D n q : ℕ) (hq : q ≤ n) (per : Bool) (hD : per = true ∨ 1 ≤ D) (M : ℕ → Mat K) :
    ∃ w : ℕ → ℕ → K, ∀ (F k : ℕ) (ub : Bool) (p : Params K) (e : Tensor K) (b o : ℕ), k ≤ n →
      (∀ j ≤ n, j ≠ q → posMat D F k ub p e b o j = M j) →
      mpsValue D F n k ub per p e b o = ∑ a ∈ Finset.range D, ∑ c ∈ Finset.range D, w a c * (posMat D F k ub p e b o q).e a c := by
  obtain ⟨L, R, hLR⟩ := seqProd_split (fun j => toMatrix D D (M j)) q (n + 1) (by omega)
  have key : ∀ (F k : ℕ) (ub : Bool) (p : Params K) (e : Tensor K) (b o : ℕ), (∀ j ≤ n, j ≠ q → posMat D F k ub p e b o j = M j) →
      chainMatrix D F n k ub p e b o = L * toMatrix D D (posMat D F k ub p e b o q) * R := by
    intro F k ub p e b o h
    exact hLR (fun j => toMatrix D D (posMat D F k ub p e b o j)) (fun j hj hne => by rw [h j (by omega) hne])
  have toRange : ∀ (w : Fin D → Fin D → K) (X : ℕ → ℕ → K), ∑ a, ∑ c, w a c * X a c =
      ∑ a ∈ Finset.range D, ∑ c ∈ Finset.range D, (if h : a < D ∧ c < D then w ⟨a, h.1⟩ ⟨c, h.2⟩ else 0) * X a c := by
    intro w X
    rw [← Fin.sum_univ_eq_sum_range (fun a => ∑ c ∈ Finset.range D, (if h : a < D ∧ c < D then w ⟨a, h.1⟩ ⟨c, h.2⟩ else 0) * X a c)]
    refine Finset.sum_congr rfl (fun a _ => ?_)
    rw [← Fin.sum_univ_eq_sum_range (fun c => (if h : (a : ℕ) < D ∧ c < D then w ⟨a, h.1⟩ ⟨c, h.2⟩ else 0) * X a c)]
    refine Finset.sum_congr rfl (fun c _ => ?_)
    rw [dif_pos ⟨a.2, c.2⟩]
  cases per with
  | true =>
    refine ⟨fun a c => if h : a < D ∧ c < D then ∑ i, L i ⟨a, h.1⟩ * R ⟨c, h.2⟩ i else 0, ?_⟩
    intro F k ub p e b o hk h
    rw [(mpsValue_chain D F n k hk ub true p e b o).1 rfl, key F k ub p e b o h, ← toRange (fun a c => ∑ i, L i a * R c i)]
    unfold Matrix.trace
    simp only [Matrix.diag_apply, Matrix.mul_apply, Finset.sum_mul, toMatrix]
    rw [Finset.sum_comm]
    conv_lhs => enter [2, c]; rw [Finset.sum_comm]
    rw [Finset.sum_comm]
    refine Finset.sum_congr rfl (fun a _ => Finset.sum_congr rfl (fun c _ => Finset.sum_congr rfl (fun i _ => ?_)))
    ring
  | false =>
    have hD : 0 < D := hD.resolve_left (by simp)
    refine ⟨fun a c => if h : a < D ∧ c < D then L ⟨0, hD⟩ ⟨a, h.1⟩ * R ⟨c, h.2⟩ ⟨0, hD⟩ else 0, ?_⟩
    intro F k ub p e b o hk h
    rw [(mpsValue_chain D F n k hk ub false p e b o).2 rfl hD, key F k ub p e b o h, ← toRange (fun a c => L ⟨0, hD⟩ a * R c ⟨0, hD⟩)]
    simp only [Matrix.mul_apply, Finset.sum_mul, toMatrix]
    rw [Finset.sum_comm]
    refine Finset.sum_congr rfl (fun a _ => Finset.sum_congr rfl (fun c _ => ?_))
    ring

theorem setCore_core (k q : ℕ) (T : ℕ → ℕ → ℕ → K) (p : Params K) (i l r f : ℕ) :
    (setCore k q T p).core k i l r f = if i = q then T l r f else p.core k i l r f := by
  unfold setCore Params.core setSlice
  by_cases hq : q < k
  · rw [if_pos hq]
    by_cases hi : i < k
    · simp [hi]
    · simp [hi, show i ≠ q by omega]
  · rw [if_neg hq]
    by_cases hi : i < k
    · simp [hi, show i ≠ q by omega]
    · by_cases he : i = q
      · subst he
        simp [hi]
      · simp [hi, he, show i - k ≠ q - k by omega]

theorem setCore_bias [Zero K] (k q : ℕ) (T : ℕ → ℕ → ℕ → K) (p : Params K) (ub : Bool) (i l r : ℕ) :
    (setCore k q T p).bias ub k i l r = p.bias ub k i l r := by
  unfold setCore Params.bias
  split_ifs <;> rfl

theorem setCore_out (k q : ℕ) (T : ℕ → ℕ → ℕ → K) (p : Params K) : (setCore k q T p).out = p.out := by
  unfold setCore
  split_ifs <;> rfl

theorem setCore_isMps (k q : ℕ) (T : ℕ → ℕ → ℕ → K) (p : Params K) (ub : Bool) (m : MPS K) (h : IsMps k ub p m) :
    IsMps k ub (setCore k q T p) (withParams m k ub (setCore k q T p)) := by
  refine ⟨h.label, rfl, ?_, ?_, ?_, ?_, ?_⟩ <;> unfold setCore <;> split_ifs
  exacts [h.left, h.left, h.leftBias, h.leftBias, h.out, h.out, h.right, h.right, h.rightBias, h.rightBias]

theorem setOut_isMps (k : ℕ) (T : ℕ → ℕ → ℕ → K) (p : Params K) (ub : Bool) (m : MPS K) (h : IsMps k ub p m) :
    IsMps k ub (setOut T p) (withParams m k ub (setOut T p)) := ⟨h.label, rfl, h.left, h.leftBias, h.out, h.right, h.rightBias⟩

theorem embedded_withParams [CommRing K] (m : MPS K) (k : ℕ) (ub : Bool) (p : Params K) (x e : Tensor K) (he : Embedded m x e) :
    Embedded (withParams m k ub p) x e := embedded_same m _ ⟨rfl, rfl, rfl, rfl, rfl, rfl⟩ x e he

theorem posMat_pixel [CommSemiring K] (D F k : ℕ) (ub : Bool) (p : Params K) (e : Tensor K) (b o q : ℕ) :
    posMat D F k ub p e b o (posOf k q) = pixelMat D F k ub p e b q := by
  unfold posMat posOf
  by_cases h : q < k
  · simp [h]
  · simp [h, show ¬ (q + 1 < k) by omega, show q + 1 ≠ k by omega]

/-- C79: every output is an affine function of the core of any single pixel (linear without bias matrices), the coefficients depending only on the input and
the other parameters. -/
theorem C79_pixel_core [CommRing K] (k : ℕ) (ub : Bool) (p : Params K) (m : MPS K) (h : IsMps k ub p m)
    (hD : m.periodic = true ∨ 1 ≤ m.bondDim) (hs : NoShortRegion m.inputDim k) (x e : Tensor K) (he : Embedded m x e)
    (q : ℕ) (hq : q < m.inputDim) (g : Option ℕ) (hg : BatchKnown k (e.shape.getD 0 0) g) :
    ∃ (c0 : ℕ → ℕ → K) (c : ℕ → ℕ → ℕ → ℕ → ℕ → K), (ub = false → ∀ b o, c0 b o = 0) ∧ ∀ T : ℕ → ℕ → ℕ → K,
      ∃ y, ((withParams m k ub (setCore k q T p)).forward x g).1 = .ok y ∧ y.shape = [e.shape.getD 0 0, m.outputDim] ∧
        ∀ b < e.shape.getD 0 0, ∀ o < m.outputDim, y.get [b, o] = c0 b o + ∑ l ∈ Finset.range m.bondDim, ∑ r ∈ Finset.range m.bondDim,
          ∑ f ∈ Finset.range m.featureDim, c b o l r f * T l r f := by
  have hkn := h.label
  have hpos : posOf k q ≤ m.inputDim := by unfold posOf; split_ifs <;> omega
  have hw := fun b o => mpsValue_linear m.bondDim m.inputDim (posOf k q) hpos m.periodic hD (posMat m.bondDim m.featureDim k ub p e b o)
  choose w hw using hw
  refine ⟨fun b o => ∑ l ∈ Finset.range m.bondDim, ∑ r ∈ Finset.range m.bondDim, w b o l r * p.bias ub k q l r,
    fun b o l r f => w b o l r * e.get [b, q, f], ?_, ?_⟩
  · intro hub b o
    simp [Params.bias, hub]
  intro T
  obtain ⟨y, g1, y1, y2, y3⟩ := mps_forward k ub _ _ (setCore_isMps k q T p ub m h) hD hs x e (embedded_withParams m k ub _ x e he) _ rfl g hg
  refine ⟨y, by rw [y1], y2, ?_⟩
  intro b hb o ho
  rw [y3 b hb o ho]
  show mpsValue m.bondDim m.featureDim m.inputDim k ub m.periodic _ e b o = _
  have hother : ∀ i, i ≠ q → pixelMat m.bondDim m.featureDim k ub (setCore k q T p) e b i = pixelMat m.bondDim m.featureDim k ub p e b i := by
    intro i hi
    unfold pixelMat affMat
    simp only [setCore_core, setCore_bias, if_neg hi]
  rw [hw b o m.featureDim k ub (setCore k q T p) e b o hkn ?_, posMat_pixel, ← Finset.sum_add_distrib]
  · refine Finset.sum_congr rfl (fun l hl => ?_)
    rw [← Finset.sum_add_distrib]
    refine Finset.sum_congr rfl (fun r hr => ?_)
    have hl := Finset.mem_range.1 hl
    have hr := Finset.mem_range.1 hr
    simp only [pixelMat, affMat, Mat.of, hl, hr, and_self, if_true, setCore_core, setCore_bias]
    rw [mul_add, add_comm, Finset.mul_sum]
    congr 1
    refine Finset.sum_congr rfl (fun f _ => ?_)
    ring
  · intro j hj hne
    unfold posMat
    unfold posOf at hne
    by_cases h1 : j < k
    · rw [if_pos h1, if_pos h1]
      exact hother j (fun hh => hne (by rw [hh] at h1; rw [if_pos h1, hh]))
    · rw [if_neg h1, if_neg h1]
      by_cases h2 : j = k
      · rw [if_pos h2, if_pos h2]
        unfold outMat
        rw [setCore_out]
      · rw [if_neg h2, if_neg h2]
        refine hother (j - 1) (fun hh => hne ?_)
        rw [if_neg (by omega)]
        omega

/-- C79: every output is a linear function of its own part of the output core, with the same coefficients for all outputs. -/
theorem C79_output_core [CommRing K] (k : ℕ) (ub : Bool) (p : Params K) (m : MPS K) (h : IsMps k ub p m)
    (hD : m.periodic = true ∨ 1 ≤ m.bondDim) (hs : NoShortRegion m.inputDim k) (x e : Tensor K) (he : Embedded m x e)
    (g : Option ℕ) (hg : BatchKnown k (e.shape.getD 0 0) g) :
    ∃ c : ℕ → ℕ → ℕ → K, ∀ T : ℕ → ℕ → ℕ → K,
      ∃ y, ((withParams m k ub (setOut T p)).forward x g).1 = .ok y ∧ y.shape = [e.shape.getD 0 0, m.outputDim] ∧
        ∀ b < e.shape.getD 0 0, ∀ o < m.outputDim, y.get [b, o] = ∑ l ∈ Finset.range m.bondDim, ∑ r ∈ Finset.range m.bondDim, c b l r * T o l r := by
  have hkn := h.label
  have hw := fun b => mpsValue_linear m.bondDim m.inputDim k hkn m.periodic hD (posMat m.bondDim m.featureDim k ub p e b 0)
  choose w hw using hw
  refine ⟨w, ?_⟩
  intro T
  obtain ⟨y, g1, y1, y2, y3⟩ := mps_forward k ub _ _ (setOut_isMps k T p ub m h) hD hs x e (embedded_withParams m k ub _ x e he) _ rfl g hg
  refine ⟨y, by rw [y1], y2, ?_⟩
  intro b hb o ho
  rw [y3 b hb o ho]
  show mpsValue m.bondDim m.featureDim m.inputDim k ub m.periodic _ e b o = _
  rw [hw b m.featureDim k ub (setOut T p) e b o hkn ?_]
  · refine Finset.sum_congr rfl (fun l hl => Finset.sum_congr rfl (fun r hr => ?_))
    have hl := Finset.mem_range.1 hl
    have hr := Finset.mem_range.1 hr
    simp [posMat, outMat, Mat.of, hl, hr, setOut]
  · intro j hj hne
    unfold posMat
    by_cases h1 : j < k
    · rw [if_pos h1, if_pos h1]
      rfl
    · rw [if_neg h1, if_neg h1, if_neg hne, if_neg hne]
      rfl

/-- The hypotheses are met: 5 pixels, the output at site 2, both boundary conditions. -/
example (A : ℕ → ℕ → ℕ → ℕ → ℤ) (C : ℕ → ℕ → ℕ → ℤ) (per : Bool) (x : Tensor ℤ) (hx : x.shape = [4, 5, 2]) :
    IsMps 2 false (plainParams 2 2 3 5 2 A C) (gaugeModel 2 A C per) ∧ NoShortRegion (gaugeModel 2 A C per).inputDim 2 ∧
      Embedded (gaugeModel 2 A C per) x x ∧ BatchKnown 2 4 none := by
  refine ⟨gauge_isMps _ _ _ _, ?_, ⟨x, rfl, ?_⟩, Or.inl (by omega)⟩
  · show NoShortRegion 5 2
    unfold NoShortRegion
    omega
  · unfold MPS.embedInput
    simp [Tensor.ndim, hx, gaugeModel, withParams, assert]
    rfl

end TorchMPS
