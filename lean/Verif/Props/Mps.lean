import Verif.Lemmas.Mps
import Verif.Props.InitTensor
/-
C51-C55, C58: the function computed by a (non-adaptive) MPS.
-/
namespace TorchMPS
open Spec
variable {K : Type}

/-! ### C51, C52 -/

/-- C51: with open boundaries, output `o` of sample `b` is the (0,0) entry of the ordered product of the pixel matrices
before the output site, the output core, and the pixel matrices after it. For all sizes, parameter values and inputs, both
evaluation modes, every state of the process. -/
theorem C51_open [CommRing K] (k : ℕ) (ub : Bool) (p : Params K) (m : MPS K) (h : IsMps k ub p m) (hper : m.periodic = false)
    (hD : 1 ≤ m.bondDim) (hs : NoShortRegion m.inputDim k) (x e : Tensor K) (he : Embedded m x e) (B : ℕ)
    (hB : e.shape.getD 0 0 = B) (g : Option ℕ) (hg : BatchKnown k B g) :
    ∃ y, m.forward x g = (.ok y, some B) ∧ y.shape = [B, m.outputDim] ∧ ∀ b < B, ∀ o < m.outputDim, ∃ M,
      orderedProd (mpsMats m.bondDim m.featureDim m.inputDim k ub p e b o) = some M ∧ M.r = m.bondDim ∧ M.c = m.bondDim ∧
      y.get [b, o] = M.e 0 0 := by
  obtain ⟨f1, f2, f3, f4, f5⟩ := mps_facts k ub p m h
  obtain ⟨x', e1, e2⟩ := he
  have hsh := embed_shape m x' e e2
  have hB' : e.shape = [B, modulesLen m.modules, m.featureDim] := by
    rw [f3, hsh]
    rw [hsh] at hB
    simp at hB
    simp [hB]
  obtain ⟨y, y1, y2, y3⟩ := linear_open m.bondDim m.featureDim m.outputDim B hD m.modules e hB' f1 (f4 hs) f2 m.parallel g
    (hg.elim (fun hk => Or.inr (f5 hk)) Or.inl)
  refine ⟨y, ?_, y2, ?_⟩
  · rw [forward_of_embedded m x e ⟨x', e1, e2⟩, hper]
    exact y1
  · intro b hb o ho
    rw [← chain_mps k ub p m h]
    exact y3 b hb o ho

/-- C52: with periodic boundaries, output `o` of sample `b` is the trace of the same product. -/
theorem C52_trace [CommRing K] (k : ℕ) (ub : Bool) (p : Params K) (m : MPS K) (h : IsMps k ub p m) (hper : m.periodic = true)
    (hs : NoShortRegion m.inputDim k) (x e : Tensor K) (he : Embedded m x e) (B : ℕ)
    (hB : e.shape.getD 0 0 = B) (g : Option ℕ) (hg : BatchKnown k B g) :
    ∃ y g', m.forward x g = (.ok y, g') ∧ y.shape = [B, m.outputDim] ∧ ∀ b < B, ∀ o < m.outputDim, ∃ M,
      orderedProd (mpsMats m.bondDim m.featureDim m.inputDim k ub p e b o) = some M ∧ M.r = m.bondDim ∧ M.c = m.bondDim ∧
      y.get [b, o] = ∑ i ∈ Finset.range m.bondDim, M.e i i := by
  obtain ⟨f1, f2, f3, f4, f5⟩ := mps_facts k ub p m h
  obtain ⟨x', e1, e2⟩ := he
  have hsh := embed_shape m x' e e2
  have hB' : e.shape = [B, modulesLen m.modules, m.featureDim] := by
    rw [f3, hsh]
    rw [hsh] at hB
    simp at hB
    simp [hB]
  obtain ⟨y, g', y1, y2, y3⟩ := linear_ring m.bondDim m.featureDim m.outputDim B m.modules e hB' f1 (f4 hs) f2 m.parallel g
    (hg.elim (fun hk => Or.inr (f5 hk)) Or.inl)
  refine ⟨y, g', ?_, y2, ?_⟩
  · rw [forward_of_embedded m x e ⟨x', e1, e2⟩, hper]
    exact y1
  · intro b hb o ho
    rw [← chain_mps k ub p m h]
    exact y3 b hb o ho

theorem mps_forward [CommRing K] (k : ℕ) (ub : Bool) (p : Params K) (m : MPS K) (h : IsMps k ub p m)
    (hD : m.periodic = true ∨ 1 ≤ m.bondDim) (hs : NoShortRegion m.inputDim k) (x e : Tensor K) (he : Embedded m x e) (B : ℕ)
    (hB : e.shape.getD 0 0 = B) (g : Option ℕ) (hg : BatchKnown k B g) :
    ∃ y g', m.forward x g = (.ok y, g') ∧ y.shape = [B, m.outputDim] ∧ ∀ b < B, ∀ o < m.outputDim,
      y.get [b, o] = mpsValue m.bondDim m.featureDim m.inputDim k ub m.periodic p e b o := by
  cases hper : m.periodic with
  | false =>
    obtain ⟨y, y1, y2, y3⟩ := C51_open k ub p m h hper (hD.resolve_left (by simp [hper])) hs x e he B hB g hg
    refine ⟨y, _, y1, y2, ?_⟩
    intro b hb o ho
    obtain ⟨M, m1, _, _, m4⟩ := y3 b hb o ho
    unfold mpsValue
    rw [m1, m4]
    simp
  | true =>
    obtain ⟨y, g', y1, y2, y3⟩ := C52_trace k ub p m h hper hs x e he B hB g hg
    refine ⟨y, g', y1, y2, ?_⟩
    intro b hb o ho
    obtain ⟨M, m1, _, _, m4⟩ := y3 b hb o ho
    unfold mpsValue
    rw [m1, m4]
    simp

theorem pixelMat_congr [CommSemiring K] (D F k : ℕ) (ub : Bool) (p : Params K) (e e' : Tensor K) (b b' i : ℕ)
    (h : ∀ f < F, e.get [b, i, f] = e'.get [b', i, f]) : pixelMat D F k ub p e b i = pixelMat D F k ub p e' b' i := by
  unfold pixelMat affMat
  refine mat_of_congr _ _ _ _ ?_
  intro l _ r _
  congr 1
  refine Finset.sum_congr rfl ?_
  intro f hf
  beta_reduce; rw [h f (Finset.mem_range.1 hf)]

theorem mpsValue_congr [CommRing K] (D F n k : ℕ) (hk : k ≤ n) (ub per : Bool) (p : Params K) (e e' : Tensor K) (b b' o : ℕ)
    (h : ∀ i < n, ∀ f < F, e.get [b, i, f] = e'.get [b', i, f]) :
    mpsValue D F n k ub per p e b o = mpsValue D F n k ub per p e' b' o := by
  have : mpsMats D F n k ub p e b o = mpsMats D F n k ub p e' b' o := by
    unfold mpsMats pixelMats
    congr 1
    · refine List.map_congr_left ?_
      intro i hi
      have hi := List.mem_range'_1.1 hi
      exact pixelMat_congr D F k ub p e e' b b' i (h i (by omega))
    · congr 1
      refine List.map_congr_left ?_
      intro i hi
      have hi := List.mem_range'_1.1 hi
      exact pixelMat_congr D F k ub p e e' b b' i (h i (by omega))
  unfold mpsValue
  rw [this]

theorem trace_mul_comm [CommSemiring K] (D : ℕ) (A C : Mat K) (ha : A.r = D ∧ A.c = D) (hc : C.r = D ∧ C.c = D) :
    ∑ i ∈ Finset.range D, (A.mul C).e i i = ∑ i ∈ Finset.range D, (C.mul A).e i i := by
  unfold Mat.mul
  simp only [ha.2, hc.2]
  rw [Finset.sum_comm]
  refine Finset.sum_congr rfl ?_
  intro i _
  refine Finset.sum_congr rfl ?_
  intro j _
  ring

theorem trace_rotate [CommSemiring K] (D : ℕ) (xs ys : List (Mat K)) (hx : ∀ A ∈ xs, A.r = D ∧ A.c = D) (hy : ∀ A ∈ ys, A.r = D ∧ A.c = D)
    (M N : Mat K) (hM : prodL (xs ++ ys) = some M) (hN : prodL (ys ++ xs) = some N) :
    ∑ i ∈ Finset.range D, M.e i i = ∑ i ∈ Finset.range D, N.e i i := by
  by_cases h1 : xs = []
  · subst h1
    simp only [List.nil_append, List.append_nil] at hM hN
    rw [hM] at hN
    cases hN
    rfl
  by_cases h2 : ys = []
  · subst h2
    simp only [List.nil_append, List.append_nil] at hM hN
    rw [hM] at hN
    cases hN
    rfl
  obtain ⟨A, hA⟩ : ∃ A, prodL xs = some A := by
    cases xs with
    | nil => exact absurd rfl h1
    | cons a l => exact ⟨_, rfl⟩
  obtain ⟨C, hC⟩ : ∃ C, prodL ys = some C := by
    cases ys with
    | nil => exact absurd rfl h2
    | cons a l => exact ⟨_, rfl⟩
  rw [prodL_append _ _ h1 h2, hA, hC] at hM
  rw [prodL_append _ _ h2 h1, hA, hC] at hN
  simp only [Option.bind_some, Option.map_some, Option.some.injEq] at hM hN
  rw [← hM, ← hN]
  exact trace_mul_comm D A C (prodL_size D xs hx A hA) (prodL_size D ys hy C hC)

theorem pixelMats_size [CommSemiring K] (D F k : ℕ) (ub : Bool) (p : Params K) (e : Tensor K) (b i j : ℕ) :
    ∀ A ∈ pixelMats D F k ub p e b i j, A.r = D ∧ A.c = D := by
  intro A hA
  obtain ⟨s, _, rfl⟩ := List.mem_map.1 hA
  exact ⟨rfl, rfl⟩

theorem pixelMats_split [CommSemiring K] (D F k : ℕ) (ub : Bool) (p : Params K) (e : Tensor K) (b i j l : ℕ) (h1 : i ≤ j) (h2 : j ≤ l) :
    pixelMats D F k ub p e b i l = pixelMats D F k ub p e b i j ++ pixelMats D F k ub p e b j l := by
  unfold pixelMats
  rw [← List.map_append]
  congr 1
  have : l - i = (j - i) + (l - j) := by omega
  rw [this, ← List.range'_append]
  congr 2
  omega

/-- C52: rotating the sites around the ring changes nothing. `m'` is `m` with all pixel cores moved `j` positions to the left
around the ring (the output core staying between the same neighbours), all bias matrices being equal or unused; on the input
rotated in the same way it gives the same outputs. -/
theorem C52_rotation [CommRing K] (j k : ℕ) (ub : Bool) (p p' : Params K) (m m' : MPS K) (h : IsMps k ub p m)
    (h' : IsMps (k - j) ub p' m') (hj : j ≤ k) (hper : m.periodic = true) (hper' : m'.periodic = true)
    (hdim : m'.inputDim = m.inputDim ∧ m'.outputDim = m.outputDim ∧ m'.bondDim = m.bondDim ∧ m'.featureDim = m.featureDim)
    (hcore : ∀ i < m.inputDim, ∀ l < m.bondDim, ∀ r < m.bondDim, ∀ f < m.featureDim,
      p'.core (k - j) i l r f = p.core k ((i + j) % m.inputDim) l r f)
    (hbias : ∀ i < m.inputDim, ∀ l < m.bondDim, ∀ r < m.bondDim,
      p'.bias ub (k - j) i l r = p.bias ub k ((i + j) % m.inputDim) l r)
    (hout : ∀ o < m.outputDim, ∀ l < m.bondDim, ∀ r < m.bondDim, p'.out.get [o, l, r] = p.out.get [o, l, r])
    (hs : NoShortRegion m.inputDim k) (hs' : NoShortRegion m.inputDim (k - j))
    (x e x' e' : Tensor K) (he : Embedded m x e) (he' : Embedded m' x' e') (B : ℕ) (hB : e.shape.getD 0 0 = B) (hB' : e'.shape.getD 0 0 = B)
    (hx : ∀ b < B, ∀ i < m.inputDim, ∀ f < m.featureDim, e'.get [b, i, f] = e.get [b, (i + j) % m.inputDim, f])
    (g g' : Option ℕ) (hg : BatchKnown k B g) (hg' : BatchKnown (k - j) B g') :
    ∃ y y' g1 g1', m.forward x g = (.ok y, g1) ∧ m'.forward x' g' = (.ok y', g1') ∧ y.shape = [B, m.outputDim] ∧
      y'.shape = [B, m.outputDim] ∧ ∀ b < B, ∀ o < m.outputDim, y'.get [b, o] = y.get [b, o] := by
  obtain ⟨d1, d2, d3, d4⟩ := hdim
  obtain ⟨y, g1, y1, y2, y3⟩ := C52_trace k ub p m h hper hs x e he B hB g hg
  obtain ⟨y', g1', z1, z2, z3⟩ := C52_trace (k - j) ub p' m' h' hper' (by rw [d1]; exact hs') x' e' he' B hB' g' hg'
  rw [d2] at z2 z3
  refine ⟨y, y', g1, g1', y1, z1, y2, z2, ?_⟩
  intro b hb o ho
  obtain ⟨M, m1, _, _, m4⟩ := y3 b hb o ho
  obtain ⟨N, n1, _, _, n4⟩ := z3 b hb o ho
  rw [d3] at n4
  rw [m4, n4]
  rw [orderedProd_eq] at m1 n1
  rw [d1, d3, d4] at n1
  have hk := h.label
  set D := m.bondDim
  set F := m.featureDim
  set n := m.inputDim with hn
  have hpix : ∀ i < n, pixelMat D F (k - j) ub p' e' b i = pixelMat D F k ub p e b ((i + j) % n) := by
    intro i hi
    unfold pixelMat affMat
    refine mat_of_congr _ _ _ _ ?_
    intro l hl r hr
    rw [hbias i hi l hl r hr]
    congr 1
    refine Finset.sum_congr rfl ?_
    intro f hf
    have hf := Finset.mem_range.1 hf
    beta_reduce; rw [hcore i hi l hl r hr f hf, hx b hb i hi f hf]
  have e1 : pixelMats D F (k - j) ub p' e' b 0 (k - j) = pixelMats D F k ub p e b j k := by
    unfold pixelMats
    rw [List.range'_eq_map_range, List.range'_eq_map_range, List.map_map, List.map_map]
    refine List.map_congr_left ?_
    intro s hs
    have hs := List.mem_range.1 hs
    simp only [Function.comp]
    rw [hpix _ (by omega)]
    congr 1
    rw [Nat.mod_eq_of_lt (by omega)]
    omega
  have e2 : pixelMats D F (k - j) ub p' e' b (k - j) n = pixelMats D F k ub p e b k n ++ pixelMats D F k ub p e b 0 j := by
    unfold pixelMats
    rw [← List.map_append]
    have hl : n - (k - j) = (n - k) + j := by omega
    rw [hl, ← List.range'_append, List.map_append, List.map_append]
    congr 1
    · rw [List.range'_eq_map_range, List.range'_eq_map_range, List.map_map, List.map_map]
      refine List.map_congr_left ?_
      intro s hs
      have hs := List.mem_range.1 hs
      simp only [Function.comp]
      rw [hpix _ (by omega)]
      congr 1
      rw [Nat.mod_eq_of_lt (by omega)]
      omega
    · rw [List.range'_eq_map_range, List.range'_eq_map_range, List.map_map, List.map_map]
      simp only [Nat.sub_zero]
      refine List.map_congr_left ?_
      intro s hs
      have hs := List.mem_range.1 hs
      simp only [Function.comp]
      rw [hpix _ (by omega)]
      congr 1
      have : k - j + 1 * (n - k) + s + j = n + s := by omega
      rw [this, Nat.add_mod_left, Nat.mod_eq_of_lt (by omega)]
      omega
  have e3 : outMat D p' o = outMat D p o := by
    unfold outMat
    refine mat_of_congr _ _ _ _ ?_
    intro l hl r hr
    exact hout o ho l hl r hr
  unfold mpsMats at m1 n1
  rw [e1, e2, e3] at n1
  rw [pixelMats_split D F k ub p e b 0 j k (by omega) hj, List.append_assoc] at m1
  have n1' : prodL ((pixelMats D F k ub p e b j k ++ outMat D p o :: pixelMats D F k ub p e b k n) ++ pixelMats D F k ub p e b 0 j) = some N := by
    rw [← n1]
    simp
  refine (trace_rotate D _ _ (pixelMats_size D F k ub p e b 0 j) ?_ M N m1 n1').symm
  intro A hA
  simp only [List.mem_append, List.mem_cons] at hA
  rcases hA with hA | rfl | hA
  · exact pixelMats_size D F k ub p e b j k A hA
  · exact ⟨rfl, rfl⟩
  · exact pixelMats_size D F k ub p e b k n A hA

/-! ### C53 -/

/-- C53: two MPS differing only in `parallel_eval` have the same outputs. -/
theorem C53_mps [CommRing K] (k : ℕ) (ub : Bool) (p : Params K) (m : MPS K) (h : IsMps k ub p m) (par : Bool)
    (hD : m.periodic = true ∨ 1 ≤ m.bondDim) (hs : NoShortRegion m.inputDim k) (x e : Tensor K) (he : Embedded m x e)
    (g g' : Option ℕ) (hg : BatchKnown k (e.shape.getD 0 0) g) (hg' : BatchKnown k (e.shape.getD 0 0) g') :
    ∃ y y', (m.forward x g).1 = .ok y ∧ (({ m with parallel := par } : MPS K).forward x g').1 = .ok y' ∧ y.Eqv y' := by
  have h' : IsMps k ub p { m with parallel := par } := ⟨h.label, h.modules, h.left, h.leftBias, h.out, h.right, h.rightBias⟩
  obtain ⟨y, g1, y1, y2, y3⟩ := mps_forward k ub p m h hD hs x e he _ rfl g hg
  obtain ⟨y', g1', z1, z2, z3⟩ := mps_forward k ub p _ h' hD hs x e he _ rfl g' hg'
  refine ⟨y, y', by rw [y1], by rw [z1], by rw [y2, z2], ?_⟩
  intro idx hidx
  rw [y2] at hidx
  obtain _ | ⟨b, _ | ⟨o, _ | ⟨_, _⟩⟩⟩ := idx <;> simp at hidx
  rw [y3 b hidx.1 o hidx.2, z3 b hidx.1 o hidx.2]

/-! ### C54 -/

/-- C54, label_site at least 1 (for label_site 0 see `C54_label0`): after every history of calls of any models the output has shape [batch, output_dim]; and the output for
a sample depends on nothing but that sample: not on the other samples of its batch, nor on the history. -/
theorem C54_shape [CommRing K] (k : ℕ) (hk : 1 ≤ k) (ub : Bool) (p : Params K) (m : MPS K) (h : IsMps k ub p m)
    (hD : m.periodic = true ∨ 1 ≤ m.bondDim) (hs : NoShortRegion m.inputDim k)
    (hist hist' : List (MPS K × Tensor K)) (g g' : Option ℕ) (x e x' e' : Tensor K) (he : Embedded m x e) (he' : Embedded m x' e') :
    ∃ y y', (m.forward x (afterCalls g hist)).1 = .ok y ∧ (m.forward x' (afterCalls g' hist')).1 = .ok y' ∧
      y.shape = [e.shape.getD 0 0, m.outputDim] ∧ y'.shape = [e'.shape.getD 0 0, m.outputDim] ∧
      ∀ b < e.shape.getD 0 0, ∀ b' < e'.shape.getD 0 0, SameSample e e' b b' →
        ∀ o < m.outputDim, y.get [b, o] = y'.get [b', o] := by
  obtain ⟨y, g1, y1, y2, y3⟩ := mps_forward k ub p m h hD hs x e he _ rfl (afterCalls g hist) (Or.inl hk)
  obtain ⟨y', g1', z1, z2, z3⟩ := mps_forward k ub p m h hD hs x' e' he' _ rfl (afterCalls g' hist') (Or.inl hk)
  refine ⟨y, y', by rw [y1], by rw [z1], y2, z2, ?_⟩
  intro b hb b' hb' hsame o ho
  rw [y3 b hb o ho, z3 b' hb' o ho]
  refine mpsValue_congr _ _ _ _ h.label _ _ _ _ _ _ _ _ ?_
  obtain ⟨x1, _, e2⟩ := he
  have hsh := embed_shape m x1 e e2
  intro i hi f hf
  exact hsame.2 [i, f] (by rw [hsh]; simp [hi, hf])

/-- C54, the false part: with the output site in front (`label_site = 0`), the very first call of a process raises RuntimeError. -/
theorem C54_label0_first_call [CommRing K] (ub : Bool) (p : Params K) (m : MPS K) (h : IsMps 0 ub p m) (x e : Tensor K) (he : Embedded m x e) :
    m.forward x none = (.error .runtime, none) := by
  obtain ⟨_, _, f3, _, _⟩ := mps_facts 0 ub p m h
  rw [forward_of_embedded m x e he]
  obtain ⟨x1, _, e2⟩ := he
  have hsh := embed_shape m x1 e e2
  unfold linearForward
  rw [assert_true _ (by simp [Tensor.ndim, hsh]), assert_true _ (by simp [hsh, f3]), CM.bind_ok (CM.lift_apply _ _), CM.bind_ok (CM.lift_apply _ _)]
  rw [h.modules, if_pos rfl, List.nil_append]
  simp only [runModules, Module.forward]
  refine CM.bind_err ?_
  exact CM.bind_err (mkOutputCore_none _ _ _ p.out h.out)

/-- a model with the output site in front and two pixels -/
def label0Model : MPS ℤ :=
  ⟨2, 1, 1, 2, false, false, none, none,
    [.outputSite ⟨[1, 1, 1], fun _ => 1⟩, .inputRegion ⟨[2, 1, 1, 2], fun _ => 1⟩ none]⟩

/-- C54, the false part: with `label_site = 0`, after a call with two samples (of any model) a single sample gives two rows of
output; and after a call with two samples, three samples raise RuntimeError. -/
theorem C54_label0_stale_batch : (∃ p, IsMps 0 false p label0Model) ∧
    (∃ y, (label0Model.forward ⟨[1, 2, 2], fun _ => 1⟩ (some 2)).1 = .ok y ∧ y.shape = [2, 1]) ∧
    (label0Model.forward ⟨[3, 2, 2], fun _ => 1⟩ (some 2)).1 = .error .runtime := by
  refine ⟨⟨⟨⟨[0, 1, 1, 2], fun _ => 1⟩, ⟨[1, 1, 1], fun _ => 1⟩, ⟨[1, 1, 1], fun _ => 1⟩, ⟨[2, 1, 1, 2], fun _ => 1⟩, ⟨[1, 1, 1], fun _ => 1⟩⟩,
    by decide, rfl, rfl, rfl, rfl, rfl, rfl⟩, ?_, rfl⟩
  exact ⟨_, rfl, rfl⟩

/-! ### C55 -/

/-- What the constructor makes: the model and the values of all parameters. -/
theorem init_params (d : Draws) (a : MpsArgs) (k : ℕ) (hk : k ≤ a.inputDim)
    (hl : a.labelSite = some (k : ℤ) ∨ (a.labelSite = none ∧ k = a.inputDim / 2)) (path : Option (List ℤ))
    (hp : checkPath a.path a.inputDim = .ok path) :
    ∃ m p, MPS.init d a = .ok m ∧ IsMps k a.useBias p m ∧ m.inputDim = a.inputDim ∧ m.outputDim = a.outputDim ∧
      m.bondDim = a.bondDim ∧ m.featureDim = a.featureDim ∧ m.periodic = a.periodic ∧ m.parallel = a.parallel ∧ m.path = path ∧
      m.featureMap = none ∧ (∀ idx, p.left.get idx = a.initStd * d.left idx) ∧ (∀ idx, p.right.get idx = a.initStd * d.right idx) ∧
      (∀ o < a.outputDim, ∀ l < a.bondDim, ∀ r < a.bondDim, p.out.get [o, l, r] = (if l = r then 1 else 0) + a.initStd * d.out [o, l, r]) ∧
      (∀ l r, p.leftBias.get [0, l, r] = if l = r then 1 else 0) ∧ (∀ l r, p.rightBias.get [0, l, r] = if l = r then 1 else 0) := by
  have hlab : labelOf a.inputDim a.labelSite = .ok k := by
    unfold labelOf
    have hv : a.labelSite.getD ((a.inputDim / 2 : ℕ) : ℤ) = (k : ℤ) := by
      rcases hl with h | ⟨h, h2⟩
      · rw [h]; rfl
      · rw [h, h2]; rfl
    rw [hv]
    simp only
    rw [assert_true _ ⟨by omega, by omega⟩]
    rfl
  have hreg : ∀ (noise : List ℕ → ℝ) (n : ℕ), ∃ t, (t.shape = [n, a.bondDim, a.bondDim, a.featureDim] ∧ ∀ idx, t.get idx = a.initStd * noise idx) ∧
      initRegion noise n a.bondDim a.featureDim (.tuple "random_zero" (some a.initStd) (some a.outputDim)) a.useBias =
        .ok (if n = 0 then [] else [.inputRegion t (if a.useBias then some ((eyeMat a.bondDim).unsqueeze 0) else none)]) := by
    intro noise n
    refine ⟨⟨[n, a.bondDim, a.bondDim, a.featureDim], fun idx => a.initStd * noise idx⟩, ⟨rfl, fun _ => rfl⟩, ?_⟩
    unfold initRegion
    by_cases hn : n = 0
    · rw [if_pos hn, if_pos hn]
    · rw [if_neg hn, if_neg hn, C42_random_zero noise _ _ _ a.initStd (Or.inl ⟨_, rfl⟩) rfl (by decide)]
      simp only [bind_ok_except]
      unfold mkInputRegion
      rw [assert_true _ (by simp [Tensor.ndim]), assert_true _ (by simp)]
      cases a.useBias with
      | false => rfl
      | true =>
        simp only [bind_ok_except, if_true]
        have : regionBias (K := ℝ) ([n, a.bondDim, a.bondDim, a.featureDim].getD 1 0) none = .ok ((eyeMat a.bondDim).unsqueeze 0) := by
          unfold regionBias
          simp [Tensor.ndim, Tensor.unsqueeze, eyeMat]
        rw [this]
        rfl
  obtain ⟨tl, ⟨tl1, tl3⟩, tl2⟩ := hreg d.left k
  obtain ⟨tr, ⟨tr1, tr3⟩, tr2⟩ := hreg d.right (a.inputDim - k)
  obtain ⟨tO, tO1, tO2, tO3⟩ := C42_random_eye d.out (fun c => if c = 'o' then a.outputDim else a.bondDim) ['o', 'l', 'r']
    (.tuple "random_eye" (some a.initStd) (some a.outputDim)) a.initStd (Or.inl ⟨_, rfl⟩) (by decide) (by decide) (by decide) (Or.inr rfl)
  have tO1' : initTensor d.out [a.outputDim, a.bondDim, a.bondDim] ['o', 'l', 'r']
    (.tuple "random_eye" (some a.initStd) (some a.outputDim)) = .ok tO := tO1
  let eb : Tensor ℝ := (eyeMat a.bondDim).unsqueeze 0
  have heb : eb.shape = [1, a.bondDim, a.bondDim] := by simp [eb, Tensor.unsqueeze, eyeMat]
  let p : Params ℝ := ⟨tl, eb, tO, tr, eb⟩
  let ms : List (Module ℝ) := (if k = 0 then [] else [.inputRegion tl (if a.useBias then some eb else none)]) ++
    .outputSite tO :: (if k = a.inputDim then [] else [.inputRegion tr (if a.useBias then some eb else none)])
  have hms : initModules d a.inputDim a.outputDim a.bondDim a.featureDim k a.initStd a.useBias false = .ok ms := by
    unfold initModules
    simp only [Bool.false_eq_true, if_false]
    rw [tl2, bind_ok_except, tO1', bind_ok_except, tr2, bind_ok_except]
    have : (a.inputDim - k = 0) = (k = a.inputDim) := propext ⟨fun h => by omega, fun h => by omega⟩
    simp only [this]
    rfl
  let m : MPS ℝ := ⟨a.inputDim, a.outputDim, a.bondDim, a.featureDim, a.periodic, a.parallel, path, none, ms⟩
  have him : IsMps k a.useBias p m := ⟨hk, rfl, tl1, heb, by rw [tO2]; rfl, tr1, heb⟩
  have hebv : ∀ l r, eb.get [0, l, r] = if l = r then 1 else 0 := fun l r => by simp [eb, Tensor.unsqueeze, eyeMat]
  refine ⟨m, p, ?_, him, rfl, rfl, rfl, rfl, rfl, rfl, rfl, rfl, tl3, tr3, ?_, hebv, hebv⟩
  swap
  · intro o ho l hl r hr
    have := tO3 (fun c => if c = 'o' then o else if c = 'l' then l else r) (by
      intro c hc
      simp at hc
      rcases hc with rfl | rfl | rfl <;> simp [ho, hl, hr])
    simpa using this
  unfold MPS.init
  rw [hlab, bind_ok_except, hms, bind_ok_except, assert_true _ (mps_facts k a.useBias p m him).2.2.1, bind_ok_except, hp, bind_ok_except]
  rfl

/-- C55: the constructor accepts every label site and makes a model of the form assumed in the other theorems. -/
theorem C55_construction (d : Draws) (a : MpsArgs) (k : ℕ) (hk : k ≤ a.inputDim)
    (hl : a.labelSite = some (k : ℤ) ∨ (a.labelSite = none ∧ k = a.inputDim / 2)) (path : Option (List ℤ))
    (hp : checkPath a.path a.inputDim = .ok path) :
    ∃ m p, MPS.init d a = .ok m ∧ IsMps k a.useBias p m ∧ m.inputDim = a.inputDim ∧ m.outputDim = a.outputDim ∧
      m.bondDim = a.bondDim ∧ m.featureDim = a.featureDim ∧ m.periodic = a.periodic ∧ m.parallel = a.parallel ∧ m.path = path ∧
      m.featureMap = none := by
  obtain ⟨m, p, h1, h2, h3, h4, h5, h6, h7, h8, h9, h10, _⟩ := init_params d a k hk hl path hp
  exact ⟨m, p, h1, h2, h3, h4, h5, h6, h7, h8, h9, h10⟩

/-- C55: with no region of exactly one pixel, every embeddable input is evaluated (for label site 0: once the batch size is known),
and the result has one row per sample. `C55_short_region_fails` and `C55_evaluates_iff` deal with the other label sites. -/
theorem C55_evaluates [CommRing K] (k : ℕ) (ub : Bool) (p : Params K) (m : MPS K) (h : IsMps k ub p m)
    (hD : m.periodic = true ∨ 1 ≤ m.bondDim) (hs : NoShortRegion m.inputDim k) (x e : Tensor K) (he : Embedded m x e)
    (g : Option ℕ) (hg : BatchKnown k (e.shape.getD 0 0) g) :
    ∃ y, (m.forward x g).1 = .ok y ∧ y.shape = [e.shape.getD 0 0, m.outputDim] := by
  obtain ⟨y, g1, y1, y2, _⟩ := mps_forward k ub p m h hD hs x e he _ rfl g hg
  exact ⟨y, by rw [y1], y2⟩

theorem CM.fst_bind_err {α β : Type} {x : CM α} {f : α → CM β} {g : Option ℕ} {e : Err} (h : (x g).1 = .error e) :
    ((x >>= f) g).1 = .error e := by
  obtain ⟨a, b⟩ : ∃ a b, x g = (a, b) := ⟨_, _, rfl⟩
  have h2 : x g = (.error e, (x g).2) := by rw [← h]
  rw [CM.bind_err h2]

theorem short_forward [CommRing K] (t : Tensor K) (bias : Option (Tensor K)) (ht : t.shape.getD 0 0 = 1) (x : Tensor K) (hx : x.ndim = 3) (i : ℕ)
    (g : Option ℕ) : (Module.inputRegion t bias).forward (pickInput x i (Module.inputRegion t bias).len) g = (.error .assertion, g) := by
  simp only [Module.forward, Module.len, ht]
  refine CM.bind_err ?_
  rw [CM.lift_apply]
  unfold inputRegionMats
  rw [assert_false _ ?_]
  · rfl
  · unfold pickInput Tensor.ndim Tensor.select
    unfold Tensor.ndim at hx
    simp only [if_true]
    rw [List.length_eraseIdx_of_lt (by omega)]
    omega

theorem runModules_short [CommRing K] (x : Tensor K) (hx : x.ndim = 3) (ms : List (Module K)) (h : ∃ m ∈ ms, ShortRegion m) (i : ℕ) (g : Option ℕ) :
    ∃ e, (runModules x i ms g).1 = .error e := by
  induction ms generalizing i g with
  | nil => simp at h
  | cons m ms ih =>
    simp only [runModules]
    cases hm : m.forward (pickInput x i m.len) g with
    | mk r g1 =>
      cases r with
      | error e => exact ⟨e, CM.fst_bind_err (by rw [hm])⟩
      | ok c =>
        rw [CM.bind_ok hm]
        obtain ⟨m', hm', hsh⟩ := h
        rcases List.mem_cons.1 hm' with rfl | hm'
        · exfalso
          cases m' with
          | inputRegion t bias =>
            rw [short_forward t bias hsh x hx i g] at hm
            simp at hm
          | _ => exact hsh
        · obtain ⟨e, he⟩ := ih ⟨m', hm', hsh⟩ (i + m.len) g1
          exact ⟨e, CM.fst_bind_err he⟩

/-- C55, the false part: with exactly one pixel before or after the output site, no input whatsoever can be evaluated (in
particular with the default label site for `input_dim` 1, 2, 3). -/
theorem C55_short_region_fails [CommRing K] (k : ℕ) (ub : Bool) (p : Params K) (m : MPS K) (h : IsMps k ub p m)
    (hs : k = 1 ∨ m.inputDim - k = 1) (x : Tensor K) (g : Option ℕ) : ∃ err, (m.forward x g).1 = .error err := by
  have hshort : ∃ a ∈ m.modules, ShortRegion a := by
    rw [h.modules]
    rcases hs with hk | hk
    · subst hk
      refine ⟨.inputRegion p.left (if ub then some p.leftBias else none), by simp, ?_⟩
      simp [ShortRegion, h.left]
    · refine ⟨.inputRegion p.right (if ub then some p.rightBias else none), ?_, ?_⟩
      · rw [if_neg (c := k = m.inputDim) (by omega)]
        simp
      · simp [ShortRegion, h.right, hk]
  unfold MPS.forward
  cases h1 : followPath m.path x with
  | error e => exact ⟨e, rfl⟩
  | ok x1 =>
    rw [CM.bind_ok (CM.lift_apply _ _)]
    cases h2 : m.embedInput x1 with
    | error e => exact ⟨e, rfl⟩
    | ok e =>
      rw [CM.bind_ok (CM.lift_apply _ _)]
      have hsh := embed_shape m x1 e h2
      unfold linearForward
      rw [assert_true _ (by simp [Tensor.ndim, hsh]), CM.bind_ok (CM.lift_apply _ _)]
      rw [assert_true _ (by rw [hsh, (mps_facts k ub p m h).2.2.1]; rfl), CM.bind_ok (CM.lift_apply _ _)]
      obtain ⟨err, herr⟩ := runModules_short e (by simp [Tensor.ndim, hsh]) m.modules hshort 0 g
      exact ⟨err, CM.fst_bind_err herr⟩

/-- C55: a label site can be evaluated exactly when neither side of the output site has exactly one pixel. -/
theorem C55_evaluates_iff [CommRing K] (k : ℕ) (ub : Bool) (p : Params K) (m : MPS K) (h : IsMps k ub p m)
    (hD : m.periodic = true ∨ 1 ≤ m.bondDim) (x e : Tensor K) (he : Embedded m x e)
    (g : Option ℕ) (hg : BatchKnown k (e.shape.getD 0 0) g) :
    (∃ y, (m.forward x g).1 = .ok y) ↔ k ≠ 1 ∧ m.inputDim - k ≠ 1 := by
  constructor
  · rintro ⟨y, hy⟩
    refine ⟨fun h1 => ?_, fun h1 => ?_⟩
    · obtain ⟨er, hr⟩ := C55_short_region_fails k ub p m h (Or.inl h1) x g
      rw [hr] at hy
      cases hy
    · obtain ⟨er, hr⟩ := C55_short_region_fails k ub p m h (Or.inr h1) x g
      rw [hr] at hy
      cases hy
  · intro hs
    obtain ⟨y, hy, _⟩ := C55_evaluates k ub p m h hD hs x e he g hg
    exact ⟨y, hy⟩

/-- C55: the exception is AssertionError when the single pixel comes first. -/
theorem C55_one_pixel_first [CommRing K] (ub : Bool) (p : Params K) (m : MPS K) (h : IsMps 1 ub p m) (x e : Tensor K) (he : Embedded m x e)
    (g : Option ℕ) : m.forward x g = (.error .assertion, g) := by
  rw [forward_of_embedded m x e he]
  obtain ⟨x1, _, e2⟩ := he
  have hsh := embed_shape m x1 e e2
  unfold linearForward
  rw [assert_true _ (by simp [Tensor.ndim, hsh]), CM.bind_ok (CM.lift_apply _ _)]
  rw [assert_true _ (by rw [hsh, (mps_facts 1 ub p m h).2.2.1]; rfl), CM.bind_ok (CM.lift_apply _ _)]
  refine CM.bind_err ?_
  rw [h.modules, if_neg (by decide)]
  simp only [List.cons_append, List.nil_append, runModules]
  exact CM.bind_err (short_forward p.left _ (by simp [h.left]) e (by simp [Tensor.ndim, hsh]) 0 g)

/-- C55: the default label site for 1, 2 or 3 pixels leaves a region of one pixel. -/
theorem C55_default_small (d : Draws) (a : MpsArgs) (ha : a.inputDim = 1 ∨ a.inputDim = 2 ∨ a.inputDim = 3) (hl : a.labelSite = none)
    (m : MPS ℝ) (hm : MPS.init d a = .ok m) (x : Tensor ℝ) (g : Option ℕ) : ∃ err, (m.forward x g).1 = .error err := by
  have hp : ∃ path, checkPath a.path a.inputDim = .ok path := by
    unfold MPS.init at hm
    obtain ⟨_, _, hm⟩ := bind_ok_inv hm
    obtain ⟨_, _, hm⟩ := bind_ok_inv hm
    obtain ⟨_, _, hm⟩ := bind_ok_inv hm
    obtain ⟨path, hp, _⟩ := bind_ok_inv hm
    exact ⟨path, hp⟩
  obtain ⟨path, hp⟩ := hp
  obtain ⟨m', p, h1, h2, h3, _⟩ := C55_construction d a (a.inputDim / 2) (by omega) (Or.inr ⟨hl, rfl⟩) path hp
  rw [hm] at h1
  cases h1
  refine C55_short_region_fails _ _ p m h2 ?_ x g
  rw [h3]
  omega

/-! ### C58 -/

/-- C58: with the other pixels fixed, every output is an affine function of the feature vector of any single pixel, linear
without bias matrices. -/
theorem C58_multi_affine [CommRing K] (k : ℕ) (ub : Bool) (p : Params K) (m : MPS K) (h : IsMps k ub p m) (hpath : m.path = none)
    (hD : m.periodic = true ∨ 1 ≤ m.bondDim) (hs : NoShortRegion m.inputDim k) (B : ℕ) (x : Tensor K)
    (hx : x.shape = [B, m.inputDim, m.featureDim]) (q : ℕ) (hq : q < m.inputDim) (g : Option ℕ) (hg : BatchKnown k B g) :
    ∃ (c0 : ℕ → ℕ → K) (c : ℕ → ℕ → ℕ → K), (ub = false → ∀ b o, c0 b o = 0) ∧ ∀ v : ℕ → ℕ → K,
      ∃ y, (m.forward (setPixel x q v) g).1 = .ok y ∧ y.shape = [B, m.outputDim] ∧ ∀ b < B, ∀ o < m.outputDim,
        y.get [b, o] = c0 b o + ∑ f ∈ Finset.range m.featureDim, c b o f * v b f := by
  set D := m.bondDim with hDdef
  set F := m.featureDim with hFdef
  set n := m.inputDim with hndef
  have hkn : k ≤ n := h.label
  -- the matrices before and after the pixel
  have hsplit : ∀ b o, ∃ as bs : List (Mat K), (∀ A ∈ as, A.r = D ∧ A.c = D) ∧ (∀ A ∈ bs, A.r = D ∧ A.c = D) ∧
      ∀ v, mpsMats D F n k ub p (setPixel x q v) b o =
        as ++ affMat D F (p.core k q) (v b) (p.bias ub k q) :: bs := by
    intro b o
    have hother : ∀ v i, i ≠ q → pixelMat D F k ub p (setPixel x q v) b i = pixelMat D F k ub p x b i := by
      intro v i hi
      refine pixelMat_congr D F k ub p _ _ b b i ?_
      intro f _
      simp [setPixel, hi]
    have hself : ∀ v, pixelMat D F k ub p (setPixel x q v) b q = affMat D F (p.core k q) (v b) (p.bias ub k q) := by
      intro v
      unfold pixelMat
      congr 1
      funext f
      simp [setPixel]
    have hrange : ∀ v i j, (q < i ∨ j ≤ q) → pixelMats D F k ub p (setPixel x q v) b i j = pixelMats D F k ub p x b i j := by
      intro v i j hij
      unfold pixelMats
      refine List.map_congr_left ?_
      intro s hs'
      have hs' := List.mem_range'_1.1 hs'
      exact hother v s (by omega)
    have hin : ∀ v i j, i ≤ q → q < j → pixelMats D F k ub p (setPixel x q v) b i j =
        pixelMats D F k ub p x b i q ++ affMat D F (p.core k q) (v b) (p.bias ub k q) :: pixelMats D F k ub p x b (q + 1) j := by
      intro v i j h1 h2
      rw [pixelMats_split D F k ub p _ b i q j h1 (by omega), pixelMats_split D F k ub p _ b q (q + 1) j (by omega) (by omega)]
      rw [hrange v i q (Or.inr (le_refl _)), hrange v (q + 1) j (Or.inl (by omega))]
      congr 1
      rw [← hself v]
      simp [pixelMats]
    by_cases hqk : q < k
    · refine ⟨pixelMats D F k ub p x b 0 q, pixelMats D F k ub p x b (q + 1) k ++ outMat D p o :: pixelMats D F k ub p x b k n,
        pixelMats_size D F k ub p x b 0 q, ?_, ?_⟩
      · intro A hA
        simp only [List.mem_append, List.mem_cons] at hA
        rcases hA with hA | rfl | hA
        · exact pixelMats_size D F k ub p x b _ _ A hA
        · exact ⟨rfl, rfl⟩
        · exact pixelMats_size D F k ub p x b _ _ A hA
      · intro v
        unfold mpsMats
        rw [hin v 0 k (by omega) hqk, hrange v k n (Or.inl hqk)]
        simp
    · refine ⟨pixelMats D F k ub p x b 0 k ++ outMat D p o :: pixelMats D F k ub p x b k q, pixelMats D F k ub p x b (q + 1) n,
        ?_, pixelMats_size D F k ub p x b _ _, ?_⟩
      · intro A hA
        simp only [List.mem_append, List.mem_cons] at hA
        rcases hA with hA | rfl | hA
        · exact pixelMats_size D F k ub p x b _ _ A hA
        · exact ⟨rfl, rfl⟩
        · exact pixelMats_size D F k ub p x b _ _ A hA
      · intro v
        unfold mpsMats
        rw [hin v k n (by omega) hq, hrange v 0 k (Or.inr (by omega))]
        simp
  choose as bs has hbs hmats using hsplit
  have hlin := fun b o => prodL_linear D (as b o) (bs b o) (has b o) (hbs b o)
  choose P Q hPQ using hlin
  -- entries of the product
  let E0 : ℕ → ℕ → ℕ → ℕ → K := fun b o i j => ∑ a ∈ Finset.range D, ∑ c ∈ Finset.range D, P b o i a * p.bias ub k q a c * Q b o c j
  let E1 : ℕ → ℕ → ℕ → ℕ → ℕ → K := fun b o i j f => ∑ a ∈ Finset.range D, ∑ c ∈ Finset.range D, P b o i a * p.core k q a c f * Q b o c j
  have hent : ∀ v b o, ∃ R, orderedProd (mpsMats D F n k ub p (setPixel x q v) b o) = some R ∧ ∀ i < D, ∀ j < D,
      R.e i j = E0 b o i j + ∑ f ∈ Finset.range F, E1 b o i j f * v b f := by
    intro v b o
    obtain ⟨R, r1, r2⟩ := hPQ b o (fun l r => ∑ f ∈ Finset.range F, p.core k q l r f * v b f + p.bias ub k q l r)
    refine ⟨R, ?_, ?_⟩
    · rw [orderedProd_eq, hmats b o v]
      exact r1
    · intro i hi j hj
      rw [r2 i hi j hj]
      have hstep : ∀ a c, P b o i a * (∑ f ∈ Finset.range F, p.core k q a c f * v b f + p.bias ub k q a c) * Q b o c j =
          P b o i a * p.bias ub k q a c * Q b o c j + ∑ f ∈ Finset.range F, P b o i a * p.core k q a c f * Q b o c j * v b f := by
        intro a c
        rw [mul_add, add_mul, add_comm, Finset.mul_sum, Finset.sum_mul]
        congr 1
        refine Finset.sum_congr rfl ?_
        intro f _
        ring
      simp only [hstep, E0, E1, Finset.sum_add_distrib, Finset.sum_mul]
      congr 1
      rw [Finset.sum_comm (s := Finset.range F)]
      refine Finset.sum_congr rfl ?_
      intro a _
      rw [Finset.sum_comm (s := Finset.range F)]
  refine ⟨fun b o => if m.periodic then ∑ i ∈ Finset.range D, E0 b o i i else E0 b o 0 0,
    fun b o f => if m.periodic then ∑ i ∈ Finset.range D, E1 b o i i f else E1 b o 0 0 f, ?_, ?_⟩
  · intro hub b o
    subst hub
    have : ∀ i j, E0 b o i j = 0 := by
      intro i j
      simp only [E0, Params.bias]
      simp
    simp [this]
  · intro v
    have hsh : (setPixel x q v).shape = [B, n, F] := hx
    obtain ⟨y, g1, y1, y2, y3⟩ := mps_forward k ub p m h hD hs (setPixel x q v) (setPixel x q v)
      ⟨setPixel x q v, by rw [hpath]; rfl, embed_embedded m B _ hsh⟩ B (by rw [hsh]; rfl) g hg
    refine ⟨y, by rw [y1], y2, ?_⟩
    intro b hb o ho
    rw [y3 b hb o ho]
    obtain ⟨R, r1, r2⟩ := hent v b o
    unfold mpsValue
    rw [r1]
    simp only
    cases hper : m.periodic with
    | false =>
      have h1 : 0 < D := hD.resolve_left (by simp [hper])
      simp only [Bool.false_eq_true, if_false]
      exact r2 0 h1 0 h1
    | true =>
      simp only [if_true]
      have h3 : ∑ f ∈ Finset.range F, (∑ i ∈ Finset.range D, E1 b o i i f) * v b f =
          ∑ i ∈ Finset.range D, ∑ f ∈ Finset.range F, E1 b o i i f * v b f := by
        simp only [Finset.sum_mul]
        exact Finset.sum_comm
      rw [h3, ← Finset.sum_add_distrib]
      refine Finset.sum_congr rfl ?_
      intro i hi
      have hi := Finset.mem_range.1 hi
      exact r2 i hi i hi

end TorchMPS
