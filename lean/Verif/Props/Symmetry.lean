import Verif.Spec.Symmetry
import Verif.Props.Gauge
import Verif.Props.MpsInput
import Verif.Props.TiMps
import Mathlib.Data.Matrix.Block
import Mathlib.LinearAlgebra.Matrix.Trace
/-
C107: reflected models, selected and mixed classes, sums of models.
-/
namespace TorchMPS
open Spec
variable {K : Type}

/-! ### reflection -/

theorem seqProd_reverse [CommSemiring K] {D : ℕ} (A B : ℕ → Matrix (Fin D) (Fin D) K) (N : ℕ) (h : ∀ j < N, B (N - 1 - j) = (A j).transpose) :
    seqProd B N = (seqProd A N).transpose := by
  unfold seqProd
  rw [Matrix.transpose_list_prod, List.map_map, ← List.map_reverse]
  congr 1
  refine List.ext_getElem (by simp) ?_
  intro j h1 h2
  simp only [List.length_map, List.length_range] at h1
  have := h (N - 1 - j) (by omega)
  simp only [List.getElem_map, List.getElem_range, List.getElem_reverse, List.length_range, Function.comp]
  rw [← this]
  congr 1
  omega

theorem posMat_reflected [CommSemiring K] {D F O n k : ℕ} {ub : Bool} {p p' : Params K} (h : Reflected D F O n k ub p p') (hk : k ≤ n) (e e' : Tensor K) (b o : ℕ)
    (ho : o < O) (he : ∀ i < n, ∀ f < F, e'.get [b, n - 1 - i, f] = e.get [b, i, f]) (j : ℕ) (hj : j < n + 1) :
    toMatrix D D (posMat D F (n - k) ub p' e' b o (n + 1 - 1 - j)) = (toMatrix D D (posMat D F k ub p e b o j)).transpose := by
  have pix : ∀ i < n, toMatrix D D (pixelMat D F (n - k) ub p' e' b (n - 1 - i)) = (toMatrix D D (pixelMat D F k ub p e b i)).transpose := by
    intro i hi
    unfold pixelMat affMat
    rw [toMatrix_of, toMatrix_of]
    ext l r
    simp only [entryMat, Matrix.transpose_apply]
    rw [h.bias i hi r r.2 l l.2]
    congr 1
    refine Finset.sum_congr rfl ?_
    intro f hf
    have hf := Finset.mem_range.1 hf
    beta_reduce
    rw [h.core i hi r r.2 l l.2 f hf, he i hi f hf]
  have out : toMatrix D D (outMat D p' o) = (toMatrix D D (outMat D p o)).transpose := by
    unfold outMat
    rw [toMatrix_of, toMatrix_of]
    ext l r
    simp only [entryMat, Matrix.transpose_apply]
    exact h.out o ho r r.2 l l.2
  unfold posMat
  by_cases h1 : j < k
  · rw [if_pos h1, if_neg (by omega), if_neg (by omega), show n + 1 - 1 - j - 1 = n - 1 - j by omega]
    exact pix j (by omega)
  · rw [if_neg h1]
    by_cases h2 : j = k
    · rw [if_pos h2, if_neg (by omega), if_pos (by omega)]
      exact out
    · rw [if_neg h2, if_pos (by omega), show n + 1 - 1 - j = n - 1 - (j - 1) by omega]
      exact pix (j - 1) (by omega)

theorem mpsValue_reflected [CommRing K] {D F O n k : ℕ} {ub : Bool} (per : Bool) {p p' : Params K} (h : Reflected D F O n k ub p p') (hk : k ≤ n) (hD : per = true ∨ 1 ≤ D)
    (e e' : Tensor K) (b o : ℕ) (ho : o < O) (he : ∀ i < n, ∀ f < F, e'.get [b, n - 1 - i, f] = e.get [b, i, f]) :
    mpsValue D F n (n - k) ub per p' e' b o = mpsValue D F n k ub per p e b o := by
  have hc : chainMatrix D F n (n - k) ub p' e' b o = (chainMatrix D F n k ub p e b o).transpose := by
    unfold chainMatrix
    exact seqProd_reverse _ _ (n + 1) (fun j hj => posMat_reflected h hk e e' b o ho he j hj)
  cases per with
  | true => rw [(mpsValue_chain D F n (n - k) (by omega) ub true p' e' b o).1 rfl, (mpsValue_chain D F n k hk ub true p e b o).1 rfl, hc, Matrix.trace_transpose]
  | false =>
    have hD : 1 ≤ D := hD.resolve_left (by simp)
    rw [(mpsValue_chain D F n (n - k) (by omega) ub false p' e' b o).2 rfl hD, (mpsValue_chain D F n k hk ub false p e b o).2 rfl hD, hc, Matrix.transpose_apply]

/-- C107: reading the pixels from the other end. A model whose cores are in opposite order, with the two bond indices exchanged and the output moved from site `k` to site
`n - k`, gives for the input with the pixels in opposite order the outputs of the original model, for both boundary conditions, all inputs (scalars or feature vectors) and
whatever happened before. -/
theorem C107_reflection [CommRing K] (k : ℕ) (ub : Bool) (p p' : Params K) (m m' : MPS K) (h : IsMps k ub p m) (h' : IsMps (m.inputDim - k) ub p' m')
    (hm : SameInputs m m') (hb : m'.bondDim = m.bondDim) (hpath : m.path = none) (hD : m.periodic = true ∨ 1 ≤ m.bondDim) (hs : NoShortRegion m.inputDim k)
    (hr : Reflected m.bondDim m.featureDim m.outputDim m.inputDim k ub p p')
    (x : Tensor K) (hx : Embeddable m x) (g g' : Option ℕ) (hg1 : BatchKnown k (x.shape.getD 0 0) g) (hg2 : BatchKnown (m.inputDim - k) (x.shape.getD 0 0) g') :
    ∃ y y', (m.forward x g).1 = .ok y ∧ (m'.forward (reverseInput m.inputDim x) g').1 = .ok y' ∧ y.shape = [x.shape.getD 0 0, m.outputDim] ∧ y.Eqv y' := by
  obtain ⟨m1, m2, m3, m4, m5, m6⟩ := hm
  have hk := h.label
  have hx' : Embeddable m' (reverseInput m.inputDim x) := by
    unfold Embeddable at hx ⊢
    rw [m1, m3, m6]
    rcases hx with hx | ⟨hx, hx2⟩
    · exact Or.inl hx
    · refine Or.inr ⟨hx, ?_⟩
      cases hf : m.featureMap with
      | none => rw [hf] at hx2; exact hx2
      | some φ =>
        rw [hf] at hx2
        refine ⟨hx2.1, hx2.2.1, ?_⟩
        intro b hb i hi
        exact hx2.2.2 b hb (m.inputDim - 1 - i) (by omega)
  obtain ⟨e, e1, e2, e3⟩ := C57_embedding m x hx
  obtain ⟨e', f1, f2, f3⟩ := C57_embedding m' _ hx'
  have he : Embedded m x e := ⟨x, by rw [hpath]; rfl, e1⟩
  have he' : Embedded m' (reverseInput m.inputDim x) e' := ⟨_, by rw [m5, hpath]; rfl, f1⟩
  obtain ⟨y, _, y1, y2, y3⟩ := mps_forward k ub p m h hD hs x e he (x.shape.getD 0 0) (by rw [e2]; rfl) g hg1
  obtain ⟨y', _, z1, z2, z3⟩ := mps_forward (m.inputDim - k) ub p' m' h' (by rw [m4, hb]; exact hD)
    (by rw [m1]; exact ⟨hs.2, by have := hs.1; omega⟩) _ e' he' (x.shape.getD 0 0) (by rw [f2]; rfl) g' hg2
  rw [m2] at z2
  refine ⟨y, y', by rw [y1], by rw [z1], y2, by rw [y2, z2], ?_⟩
  intro idx hidx
  rw [y2] at hidx
  obtain _ | ⟨b, _ | ⟨o, _ | ⟨_, _⟩⟩⟩ := idx <;> simp at hidx
  obtain ⟨hb', ho⟩ := hidx
  rw [y3 b (by simpa using hb') o ho, z3 b (by simpa using hb') o (by rw [m2]; exact ho), m1, m3, m4, hb]
  refine (mpsValue_reflected m.periodic hr hk hD e e' b o ho ?_).symm
  intro i hi f hf
  rw [f3 b (by simpa [reverseInput] using hb') (m.inputDim - 1 - i) (by omega) f (by rw [m3]; exact hf), e3 b (by simpa using hb') i hi f hf, m6]
  have hi' : m.inputDim - 1 - (m.inputDim - 1 - i) = i := by omega
  unfold featureEntry reverseInput
  simp [hi']

/-! ### classes -/

theorem mpsValue_classes [CommRing K] (D F n k : ℕ) (ub per : Bool) (p p' : Params K) (e : Tensor K) (b o o' : ℕ)
    (hl : p'.left = p.left) (hlb : p'.leftBias = p.leftBias) (hr : p'.right = p.right) (hrb : p'.rightBias = p.rightBias)
    (ho : ∀ l < D, ∀ r < D, p'.out.get [o', l, r] = p.out.get [o, l, r]) : mpsValue D F n k ub per p' e b o' = mpsValue D F n k ub per p e b o := by
  have h1 : ∀ i, pixelMat D F k ub p' e b i = pixelMat D F k ub p e b i := by
    intro i
    unfold pixelMat
    congr 1
    · funext l r f
      unfold Params.core
      rw [hl, hr]
    · funext l r
      unfold Params.bias
      rw [hlb, hrb]
  have h2 : outMat D p' o' = outMat D p o := mat_of_congr _ _ _ _ (fun l hl r hr => ho l hl r hr)
  have h3 : mpsMats D F n k ub p' e b o' = mpsMats D F n k ub p e b o := by
    unfold mpsMats pixelMats
    rw [h2]
    congr 1
    · exact List.map_congr_left (fun i _ => h1 i)
    · congr 1
      exact List.map_congr_left (fun i _ => h1 i)
  unfold mpsValue
  rw [h3]

/-- C107: classes can be rearranged, repeated and left out in the output core: if slice `c` of the output core of `m'` is slice `σ c` of that of `m` (all other
parameters being the same), output `c` of `m'` is output `σ c` of `m`. -/
theorem C107_classes [CommRing K] (k : ℕ) (ub : Bool) (p p' : Params K) (m m' : MPS K) (h : IsMps k ub p m) (h' : IsMps k ub p' m')
    (hm : m'.inputDim = m.inputDim ∧ m'.featureDim = m.featureDim ∧ m'.bondDim = m.bondDim ∧ m'.periodic = m.periodic ∧ m'.path = m.path ∧ m'.featureMap = m.featureMap)
    (hD : m.periodic = true ∨ 1 ≤ m.bondDim) (hs : NoShortRegion m.inputDim k)
    (hp : p'.left = p.left ∧ p'.leftBias = p.leftBias ∧ p'.right = p.right ∧ p'.rightBias = p.rightBias) (σ : ℕ → ℕ)
    (hσ : ∀ c < m'.outputDim, σ c < m.outputDim ∧ ∀ l < m.bondDim, ∀ r < m.bondDim, p'.out.get [c, l, r] = p.out.get [σ c, l, r])
    (x e : Tensor K) (he : Embedded m x e) (g g' : Option ℕ) (hg1 : BatchKnown k (e.shape.getD 0 0) g) (hg2 : BatchKnown k (e.shape.getD 0 0) g') :
    ∃ y y', (m.forward x g).1 = .ok y ∧ (m'.forward x g').1 = .ok y' ∧ y'.shape = [e.shape.getD 0 0, m'.outputDim] ∧
      ∀ b < e.shape.getD 0 0, ∀ c < m'.outputDim, y'.get [b, c] = y.get [b, σ c] := by
  obtain ⟨m1, m3, mb, m4, m5, m6⟩ := hm
  have he' : Embedded m' x e := by
    obtain ⟨x', e1, e2⟩ := he
    refine ⟨x', by rw [m5]; exact e1, ?_⟩
    unfold MPS.embedInput at e2 ⊢
    rw [m1, m3, m6]
    exact e2
  obtain ⟨y, _, y1, y2, y3⟩ := mps_forward k ub p m h hD hs x e he _ rfl g hg1
  obtain ⟨y', _, z1, z2, z3⟩ := mps_forward k ub p' m' h' (by rw [m4, mb]; exact hD) (by rw [m1]; exact hs) x e he' _ rfl g' hg2
  refine ⟨y, y', by rw [y1], by rw [z1], z2, ?_⟩
  intro b hb c hc
  rw [z3 b hb c hc, y3 b hb (σ c) (hσ c hc).1, m1, m3, mb, m4]
  exact mpsValue_classes _ _ _ _ _ _ p p' e b (σ c) c hp.1 hp.2.1 hp.2.2.1 hp.2.2.2 (hσ c hc).2

/-! ### sums -/

/-- `C` is block-diagonal with the blocks `A` and `B` -/
def IsBlocks [Zero K] {D₁ D₂ : ℕ} (A : Matrix (Fin D₁) (Fin D₁) K) (B : Matrix (Fin D₂) (Fin D₂) K) (C : Matrix (Fin (D₁ + D₂)) (Fin (D₁ + D₂)) K) : Prop :=
  C.submatrix finSumFinEquiv finSumFinEquiv = Matrix.fromBlocks A 0 0 B

theorem isBlocks_entry [Zero K] (D₁ D₂ : ℕ) (X Y Z : ℕ → ℕ → K) (h : ∀ l < D₁ + D₂, ∀ r < D₁ + D₂, Z l r = block D₁ X Y l r) :
    IsBlocks (entryMat D₁ D₁ X) (entryMat D₂ D₂ Y) (entryMat (D₁ + D₂) (D₁ + D₂) Z) := by
  unfold IsBlocks
  ext i j
  rcases i with i | i <;> rcases j with j | j <;>
    simp only [Matrix.submatrix_apply, entryMat, finSumFinEquiv_apply_left, finSumFinEquiv_apply_right, Matrix.fromBlocks_apply₁₁, Matrix.fromBlocks_apply₁₂,
      Matrix.fromBlocks_apply₂₁, Matrix.fromBlocks_apply₂₂, Matrix.zero_apply, Fin.val_castAdd, Fin.val_natAdd] <;>
    rw [h _ (by omega) _ (by omega)] <;> simp [block]

theorem isBlocks_mul [CommSemiring K] {D₁ D₂ : ℕ} {A A' : Matrix (Fin D₁) (Fin D₁) K} {B B' : Matrix (Fin D₂) (Fin D₂) K}
    {C C' : Matrix (Fin (D₁ + D₂)) (Fin (D₁ + D₂)) K} (h : IsBlocks A B C) (h' : IsBlocks A' B' C') : IsBlocks (A * A') (B * B') (C * C') := by
  unfold IsBlocks at *
  rw [← Matrix.submatrix_mul_equiv C C' _ finSumFinEquiv _, h, h', Matrix.fromBlocks_multiply]
  simp

theorem isBlocks_one [CommSemiring K] (D₁ D₂ : ℕ) : IsBlocks (1 : Matrix (Fin D₁) (Fin D₁) K) (1 : Matrix (Fin D₂) (Fin D₂) K) 1 := by
  unfold IsBlocks
  rw [Matrix.submatrix_one_equiv, Matrix.fromBlocks_one]

theorem isBlocks_seqProd [CommSemiring K] {D₁ D₂ : ℕ} (A : ℕ → Matrix (Fin D₁) (Fin D₁) K) (B : ℕ → Matrix (Fin D₂) (Fin D₂) K)
    (C : ℕ → Matrix (Fin (D₁ + D₂)) (Fin (D₁ + D₂)) K) (N : ℕ) (h : ∀ j < N, IsBlocks (A j) (B j) (C j)) : IsBlocks (seqProd A N) (seqProd B N) (seqProd C N) := by
  induction N with
  | zero => simpa [seqProd] using isBlocks_one D₁ D₂
  | succ N ih =>
    rw [seqProd_succ, seqProd_succ, seqProd_succ]
    exact isBlocks_mul (ih (fun j hj => h j (by omega))) (h N (by omega))

theorem isBlocks_trace [CommSemiring K] {D₁ D₂ : ℕ} {A : Matrix (Fin D₁) (Fin D₁) K} {B : Matrix (Fin D₂) (Fin D₂) K}
    {C : Matrix (Fin (D₁ + D₂)) (Fin (D₁ + D₂)) K} (h : IsBlocks A B C) : C.trace = A.trace + B.trace := by
  unfold IsBlocks at h
  unfold Matrix.trace
  rw [← Equiv.sum_comp finSumFinEquiv (fun i => Matrix.diag C i), Fintype.sum_sum_type]
  congr 1
  · refine Finset.sum_congr rfl (fun i _ => ?_)
    exact congrFun (congrFun h (Sum.inl i)) (Sum.inl i)
  · refine Finset.sum_congr rfl (fun i _ => ?_)
    exact congrFun (congrFun h (Sum.inr i)) (Sum.inr i)

theorem posMat_blocks [CommSemiring K] {D₁ D₂ F O n k : ℕ} {ub : Bool} {p₁ p₂ p : Params K} (h : SideBySide D₁ D₂ F O n k ub p₁ p₂ p) (hk : k ≤ n) (e : Tensor K)
    (b o : ℕ) (ho : o < O) (j : ℕ) (hj : j < n + 1) :
    IsBlocks (toMatrix D₁ D₁ (posMat D₁ F k ub p₁ e b o j)) (toMatrix D₂ D₂ (posMat D₂ F k ub p₂ e b o j)) (toMatrix (D₁ + D₂) (D₁ + D₂) (posMat (D₁ + D₂) F k ub p e b o j)) := by
  have pix : ∀ i < n, IsBlocks (toMatrix D₁ D₁ (pixelMat D₁ F k ub p₁ e b i)) (toMatrix D₂ D₂ (pixelMat D₂ F k ub p₂ e b i))
      (toMatrix (D₁ + D₂) (D₁ + D₂) (pixelMat (D₁ + D₂) F k ub p e b i)) := by
    intro i hi
    unfold pixelMat affMat
    rw [toMatrix_of, toMatrix_of, toMatrix_of]
    refine isBlocks_entry _ _ _ _ _ ?_
    intro l hl r hr
    rw [h.bias i hi l hl r hr]
    have : ∑ f ∈ Finset.range F, p.core k i l r f * e.get [b, i, f] =
        ∑ f ∈ Finset.range F, block D₁ (fun a b => p₁.core k i a b f) (fun a b => p₂.core k i a b f) l r * e.get [b, i, f] :=
      Finset.sum_congr rfl (fun f hf => by rw [h.core i hi l hl r hr f (Finset.mem_range.1 hf)])
    rw [this]
    unfold block
    split_ifs <;> simp
  have out : IsBlocks (toMatrix D₁ D₁ (outMat D₁ p₁ o)) (toMatrix D₂ D₂ (outMat D₂ p₂ o)) (toMatrix (D₁ + D₂) (D₁ + D₂) (outMat (D₁ + D₂) p o)) := by
    unfold outMat
    rw [toMatrix_of, toMatrix_of, toMatrix_of]
    exact isBlocks_entry _ _ _ _ _ (fun l hl r hr => h.out o ho l hl r hr)
  unfold posMat
  by_cases h1 : j < k
  · simp only [if_pos h1]
    exact pix j (by omega)
  · simp only [if_neg h1]
    by_cases h2 : j = k
    · simp only [if_pos h2]
      exact out
    · simp only [if_neg h2]
      exact pix (j - 1) (by omega)

theorem chain_blocks [CommSemiring K] {D₁ D₂ F O n k : ℕ} {ub : Bool} {p₁ p₂ p : Params K} (h : SideBySide D₁ D₂ F O n k ub p₁ p₂ p) (hk : k ≤ n) (e : Tensor K)
    (b o : ℕ) (ho : o < O) : IsBlocks (chainMatrix D₁ F n k ub p₁ e b o) (chainMatrix D₂ F n k ub p₂ e b o) (chainMatrix (D₁ + D₂) F n k ub p e b o) := by
  unfold chainMatrix
  exact isBlocks_seqProd _ _ _ _ (fun j hj => posMat_blocks h hk e b o ho j hj)

/-- C107: with periodic boundaries, two models side by side (all cores block-diagonal, the bond dimensions added) give the sums of their outputs: sums of models are models. -/
theorem C107_sum [CommRing K] (k : ℕ) (ub : Bool) (p₁ p₂ p : Params K) (m₁ m₂ m : MPS K) (h₁ : IsMps k ub p₁ m₁) (h₂ : IsMps k ub p₂ m₂) (h : IsMps k ub p m)
    (hm₂ : SameInputs m₁ m₂) (hm : SameInputs m₁ m) (hb : m.bondDim = m₁.bondDim + m₂.bondDim) (hper : m₁.periodic = true) (hs : NoShortRegion m₁.inputDim k)
    (hd : SideBySide m₁.bondDim m₂.bondDim m₁.featureDim m₁.outputDim m₁.inputDim k ub p₁ p₂ p)
    (x e : Tensor K) (he : Embedded m₁ x e) (g₁ g₂ g : Option ℕ) (hg₁ : BatchKnown k (e.shape.getD 0 0) g₁) (hg₂ : BatchKnown k (e.shape.getD 0 0) g₂)
    (hg : BatchKnown k (e.shape.getD 0 0) g) :
    ∃ y₁ y₂ y, (m₁.forward x g₁).1 = .ok y₁ ∧ (m₂.forward x g₂).1 = .ok y₂ ∧ (m.forward x g).1 = .ok y ∧ y.shape = [e.shape.getD 0 0, m₁.outputDim] ∧
      ∀ b < e.shape.getD 0 0, ∀ o < m₁.outputDim, y.get [b, o] = y₁.get [b, o] + y₂.get [b, o] := by
  obtain ⟨y₁, _, a1, a2, a3⟩ := mps_forward k ub p₁ m₁ h₁ (Or.inl hper) hs x e he _ rfl g₁ hg₁
  obtain ⟨y₂, _, b1, b2, b3⟩ := mps_forward k ub p₂ m₂ h₂ (Or.inl (by rw [hm₂.2.2.2.1]; exact hper)) (by rw [hm₂.1]; exact hs) x e (embedded_same m₁ m₂ hm₂ x e he) _ rfl g₂ hg₂
  obtain ⟨y, _, c1, c2, c3⟩ := mps_forward k ub p m h (Or.inl (by rw [hm.2.2.2.1]; exact hper)) (by rw [hm.1]; exact hs) x e (embedded_same m₁ m hm x e he) _ rfl g hg
  rw [hm.2.1] at c2
  refine ⟨y₁, y₂, y, by rw [a1], by rw [b1], by rw [c1], c2, ?_⟩
  intro b hb' o ho
  rw [a3 b hb' o ho, b3 b hb' o (by rw [hm₂.2.1]; exact ho), c3 b hb' o (by rw [hm.2.1]; exact ho), hm₂.1, hm₂.2.2.1, hm₂.2.2.2.1, hm.1, hm.2.2.1, hm.2.2.2.1, hper, hb,
    (mpsValue_chain _ _ _ _ h₁.label _ _ _ _ _ _).1 rfl, (mpsValue_chain _ _ _ _ h₁.label _ _ _ _ _ _).1 rfl, (mpsValue_chain _ _ _ _ h₁.label _ _ _ _ _ _).1 rfl]
  exact isBlocks_trace (chain_blocks hd h₁.label e b o ho)

/-- C107: with open boundaries the second of two models side by side has no influence: the outputs are those of the first. -/
theorem C107_sum_open [CommRing K] (k : ℕ) (ub : Bool) (p₁ p₂ p : Params K) (m₁ m : MPS K) (D₂ : ℕ) (h₁ : IsMps k ub p₁ m₁) (h : IsMps k ub p m)
    (hm : SameInputs m₁ m) (hb : m.bondDim = m₁.bondDim + D₂) (hper : m₁.periodic = false) (hD : 1 ≤ m₁.bondDim) (hs : NoShortRegion m₁.inputDim k)
    (hd : SideBySide m₁.bondDim D₂ m₁.featureDim m₁.outputDim m₁.inputDim k ub p₁ p₂ p)
    (x e : Tensor K) (he : Embedded m₁ x e) (g₁ g : Option ℕ) (hg₁ : BatchKnown k (e.shape.getD 0 0) g₁) (hg : BatchKnown k (e.shape.getD 0 0) g) :
    ∃ y₁ y, (m₁.forward x g₁).1 = .ok y₁ ∧ (m.forward x g).1 = .ok y ∧ y.Eqv y₁ := by
  obtain ⟨y₁, _, a1, a2, a3⟩ := mps_forward k ub p₁ m₁ h₁ (Or.inr hD) hs x e he _ rfl g₁ hg₁
  obtain ⟨y, _, c1, c2, c3⟩ := mps_forward k ub p m h (Or.inr (by omega)) (by rw [hm.1]; exact hs) x e (embedded_same m₁ m hm x e he) _ rfl g hg
  rw [hm.2.1] at c2
  refine ⟨y₁, y, by rw [a1], by rw [c1], by rw [a2, c2], ?_⟩
  intro idx hidx
  rw [c2] at hidx
  obtain _ | ⟨b, _ | ⟨o, _ | ⟨_, _⟩⟩⟩ := idx <;> simp at hidx
  obtain ⟨hb', ho⟩ := hidx
  rw [a3 b (by simpa using hb') o ho, c3 b (by simpa using hb') o (by rw [hm.2.1]; exact ho), hm.1, hm.2.2.1, hm.2.2.2.1, hper, hb,
    (mpsValue_chain _ _ _ _ h₁.label _ _ _ _ _ _).2 rfl hD, (mpsValue_chain _ _ _ _ h₁.label _ _ _ _ _ _).2 rfl (by omega)]
  have := congrFun (congrFun (chain_blocks hd h₁.label e b o ho) (Sum.inl ⟨0, hD⟩)) (Sum.inl ⟨0, hD⟩)
  simpa using this

theorem tiState_blocks [CommSemiring K] (m₁ m₂ m : TiMps K) (h : TiSideBySide m₁ m₂ m) (h₁ : m₁.featureDim = m.featureDim) (h₂ : m₂.featureDim = m.featureDim)
    (x : ℕ → ℕ → K) (n : ℕ) : ∀ r < m.bondDim, tiState m x n r = if r < m₁.bondDim then tiState m₁ x n r else tiState m₂ x n (r - m₁.bondDim) := by
  induction n with
  | zero => intro r hr; exact h.init r hr
  | succ n ih =>
    intro r hr
    simp only [tiState]
    have hb := h.bond
    rw [hb, Finset.sum_range_add]
    have e1 : ∀ l < m.bondDim, ∑ f ∈ Finset.range m.featureDim, m.core.get [l, r, f] * x n f + tiBiasAt m l r =
        block m₁.bondDim (fun a b => ∑ f ∈ Finset.range m₁.featureDim, m₁.core.get [a, b, f] * x n f + tiBiasAt m₁ a b)
          (fun a b => ∑ f ∈ Finset.range m₂.featureDim, m₂.core.get [a, b, f] * x n f + tiBiasAt m₂ a b) l r := by
      intro l hl
      rw [h.bias l hl r hr, h₁, h₂]
      have : ∑ f ∈ Finset.range m.featureDim, m.core.get [l, r, f] * x n f = ∑ f ∈ Finset.range m.featureDim,
          block m₁.bondDim (fun a b => m₁.core.get [a, b, f]) (fun a b => m₂.core.get [a, b, f]) l r * x n f :=
        Finset.sum_congr rfl (fun f hf => by rw [h.core l hl r hr f (Finset.mem_range.1 hf)])
      rw [this]
      unfold block
      split_ifs <;> simp
    have s1 : ∀ l ∈ Finset.range m₁.bondDim, tiState m x n l * (∑ f ∈ Finset.range m.featureDim, m.core.get [l, r, f] * x n f + tiBiasAt m l r) =
        tiState m₁ x n l * (if r < m₁.bondDim then ∑ f ∈ Finset.range m₁.featureDim, m₁.core.get [l, r, f] * x n f + tiBiasAt m₁ l r else 0) := by
      intro l hl
      have hl := Finset.mem_range.1 hl
      rw [ih l (by omega), e1 l (by omega), if_pos hl]
      simp [block, hl]
    have s2 : ∀ l ∈ Finset.range m₂.bondDim, tiState m x n (m₁.bondDim + l) *
          (∑ f ∈ Finset.range m.featureDim, m.core.get [m₁.bondDim + l, r, f] * x n f + tiBiasAt m (m₁.bondDim + l) r) =
        tiState m₂ x n l * (if r < m₁.bondDim then 0 else ∑ f ∈ Finset.range m₂.featureDim, m₂.core.get [l, r - m₁.bondDim, f] * x n f + tiBiasAt m₂ l (r - m₁.bondDim)) := by
      intro l hl
      have hl := Finset.mem_range.1 hl
      rw [ih _ (by omega), e1 _ (by omega), if_neg (by omega)]
      simp [block]
    rw [Finset.sum_congr rfl s1, Finset.sum_congr rfl s2]
    split_ifs <;> simp

theorem tiValue_blocks [CommSemiring K] (m₁ m₂ m : TiMps K) (h : TiSideBySide m₁ m₂ m) (h₁ : m₁.featureDim = m.featureDim) (h₂ : m₂.featureDim = m.featureDim)
    (x : ℕ → ℕ → K) (n o : ℕ) (ho : o < m.outputDim) : tiValue m n x o = tiValue m₁ n x o + tiValue m₂ n x o := by
  unfold tiValue
  have hb := h.bond
  rw [hb, Finset.sum_range_add]
  congr 1
  · refine Finset.sum_congr rfl ?_
    intro l hl
    have hl := Finset.mem_range.1 hl
    rw [tiState_blocks m₁ m₂ m h h₁ h₂ x n l (by omega), h.term l (by omega) o ho, if_pos hl, if_pos hl]
  · refine Finset.sum_congr rfl ?_
    intro l hl
    have hl := Finset.mem_range.1 hl
    rw [tiState_blocks m₁ m₂ m h h₁ h₂ x n _ (by omega), h.term _ (by omega) o ho, if_neg (by omega), if_neg (by omega), Nat.add_sub_cancel_left]

theorem ti_same [CommRing K] (m m' : TiMps K) (h : SameTiInputs m m') (B n : ℕ) (inp : TiInput K) :
    (TiAccepts m B n inp → TiAccepts m' B n inp) ∧ tiEntry m' inp = tiEntry m inp := by
  obtain ⟨h1, h2, h3, h4, h5⟩ := h
  have e1 : ∀ (v : ℕ → ℕ → K), TiEmbeds m' B n v = TiEmbeds m B n v := by
    intro v
    unfold TiEmbeds
    rw [h2, h3]
  have e2 : ∀ (v : K) (f : ℕ), tiFeature m' v f = tiFeature m v f := by
    intro v f
    unfold tiFeature
    rw [h3]
  constructor
  · intro hi
    cases inp with
    | batch t =>
      simp only [TiAccepts] at hi ⊢
      rw [e1, h2]
      exact hi
    | list ts =>
      simp only [TiAccepts] at hi ⊢
      rw [e1, h2, h4, h5]
      exact hi
    | other => exact hi
  · funext b i f
    cases inp with
    | batch t => simp only [tiEntry, e2]
    | list ts => simp only [tiEntry, itemEntry, e2]
    | other => rfl

/-- C107: two translation-invariant models side by side (core and bias block-diagonal, initial vectors and terminal matrices one after the other) give the sums of their
outputs, for every accepted input, sequences of different lengths included. -/
theorem C107_sum_ti [CommRing K] (m₁ m₂ m : TiMps K) (h₁ : IsTi m₁) (h₂ : IsTi m₂) (h : IsTi m) (hm₂ : SameTiInputs m₁ m₂) (hm : SameTiInputs m₁ m)
    (hd : TiSideBySide m₁ m₂ m) (inp : TiInput K) (B n : ℕ) (hi : TiAccepts m₁ B n inp) (hn : 1 ≤ n) (g₁ g₂ g : Option ℕ) :
    ∃ y₁ y₂ y, (m₁.forward inp g₁).1 = .ok y₁ ∧ (m₂.forward inp g₂).1 = .ok y₂ ∧ (m.forward inp g).1 = .ok y ∧ y.shape = [B, m₁.outputDim] ∧
      ∀ b < B, ∀ o < m₁.outputDim, y.get [b, o] = y₁.get [b, o] + y₂.get [b, o] := by
  obtain ⟨i2, t2⟩ := ti_same m₁ m₂ hm₂ B n inp
  obtain ⟨i3, t3⟩ := ti_same m₁ m hm B n inp
  obtain ⟨y₁, a1, a2, a3⟩ := C66_value m₁ h₁ inp B n hi hn g₁
  obtain ⟨y₂, b1, b2, b3⟩ := C66_value m₂ h₂ inp B n (i2 hi) hn g₂
  obtain ⟨y, c1, c2, c3⟩ := C66_value m h inp B n (i3 hi) hn g
  rw [hm.1] at c2
  refine ⟨y₁, y₂, y, by rw [a1], by rw [b1], by rw [c1], c2, ?_⟩
  intro b hb o ho
  rw [a3 b hb o ho, b3 b hb o (by rw [hm₂.1]; exact ho), c3 b hb o (by rw [hm.1]; exact ho), t2, t3]
  exact tiValue_blocks m₁ m₂ m hd hm.2.1.symm (by rw [hm.2.1, hm₂.2.1]) _ n o (by rw [hm.1]; exact ho)

/-! ### examples -/

/-- parameters of a model with three pixels on the left and two on the right of the output, two outputs, bond and feature dimension 2, no two entries related -/
def symParams : Params ℤ :=
  ⟨⟨[3, 2, 2, 2], fun i => i.getD 0 0 + 2 * i.getD 1 0 - 3 * i.getD 2 0 + 5 * i.getD 3 0⟩, ⟨[1, 2, 2], fun i => i.getD 1 0 - 7 * i.getD 2 0⟩,
    ⟨[2, 2, 2], fun i => 1 + i.getD 0 0 + 4 * i.getD 1 0 - 2 * i.getD 2 0⟩,
    ⟨[2, 2, 2, 2], fun i => i.getD 0 0 - 2 * i.getD 1 0 + 3 * i.getD 2 0 + i.getD 3 0⟩, ⟨[1, 2, 2], fun i => 2 - i.getD 1 0 + i.getD 2 0⟩⟩

/-- `symParams` read from the other end -/
def symReflected : Params ℤ :=
  ⟨⟨[2, 2, 2, 2], fun i => symParams.right.get [1 - i.getD 0 0, i.getD 2 0, i.getD 1 0, i.getD 3 0]⟩, ⟨[1, 2, 2], fun i => symParams.rightBias.get [0, i.getD 2 0, i.getD 1 0]⟩,
    ⟨[2, 2, 2], fun i => symParams.out.get [i.getD 0 0, i.getD 2 0, i.getD 1 0]⟩,
    ⟨[3, 2, 2, 2], fun i => symParams.left.get [2 - i.getD 0 0, i.getD 2 0, i.getD 1 0, i.getD 3 0]⟩, ⟨[1, 2, 2], fun i => symParams.leftBias.get [0, i.getD 2 0, i.getD 1 0]⟩⟩

/-- a model with given parameters on five pixels -/
def symModel (k D O : ℕ) (per : Bool) (p : Params ℤ) : MPS ℤ :=
  ⟨5, O, D, 2, per, false, none, none, [.inputRegion p.left (some p.leftBias), .outputSite p.out, .inputRegion p.right (some p.rightBias)]⟩

/-- the hypotheses of the reflection are met, and the parameters do change -/
example (per : Bool) : IsMps 3 true symParams (symModel 3 2 2 per symParams) ∧ IsMps (5 - 3) true symReflected (symModel 2 2 2 per symReflected) ∧
    SameInputs (symModel 3 2 2 per symParams) (symModel 2 2 2 per symReflected) ∧ NoShortRegion 5 3 ∧ Reflected 2 2 2 5 3 true symParams symReflected ∧
    Embeddable (symModel 3 2 2 per symParams) ⟨[4, 5], fun i => i.getD 1 0⟩ := by
  refine ⟨⟨by simp [symModel], rfl, rfl, rfl, rfl, rfl, rfl⟩, ⟨by simp [symModel], rfl, rfl, rfl, rfl, rfl, rfl⟩, ⟨rfl, rfl, rfl, rfl, rfl, rfl⟩, by simp [NoShortRegion], ?_, Or.inr ⟨rfl, rfl⟩⟩
  refine ⟨?_, ?_, ?_⟩
  · intro i hi l _ r _ f _
    unfold Params.core
    interval_cases i <;> simp [symReflected]
  · intro i hi l _ r _
    unfold Params.bias
    interval_cases i <;> simp [symReflected]
  · intro o _ l _ r _
    simp [symReflected]

/-- all entries of two tensors in block-diagonal slices; `a` is the first bond axis -/
def blockTensor (D : ℕ) (sh : Shape) (a : ℕ) (t u : Tensor ℤ) : Tensor ℤ :=
  ⟨sh, fun i => if i.getD a 0 < D then (if i.getD (a + 1) 0 < D then t.get i else 0)
    else if i.getD (a + 1) 0 < D then 0 else u.get ((i.set a (i.getD a 0 - D)).set (a + 1) (i.getD (a + 1) 0 - D))⟩

/-- `symParams` twice, side by side -/
def symDouble : Params ℤ :=
  ⟨blockTensor 2 [3, 4, 4, 2] 1 symParams.left symParams.left, blockTensor 2 [1, 4, 4] 1 symParams.leftBias symParams.leftBias,
    blockTensor 2 [2, 4, 4] 1 symParams.out symParams.out, blockTensor 2 [2, 4, 4, 2] 1 symParams.right symParams.right,
    blockTensor 2 [1, 4, 4] 1 symParams.rightBias symParams.rightBias⟩

/-- the hypotheses of the sums are met -/
example (per : Bool) : IsMps 3 true symDouble (symModel 3 4 2 per symDouble) ∧ SameInputs (symModel 3 2 2 per symParams) (symModel 3 4 2 per symDouble) ∧
    SideBySide 2 2 2 2 5 3 true symParams symParams symDouble := by
  refine ⟨⟨by simp [symModel], rfl, rfl, rfl, rfl, rfl, rfl⟩, ⟨rfl, rfl, rfl, rfl, rfl, rfl⟩, ?_, ?_, ?_⟩
  · intro i _ l _ r _ f _
    by_cases h : i < 3
    · simp only [Params.core, if_pos h]; rfl
    · simp only [Params.core, if_neg h]; rfl
  · intro i _ l _ r _
    by_cases h : i < 3
    · simp only [block, Params.bias, if_pos h, if_true]; rfl
    · simp only [block, Params.bias, if_neg h, if_true]; rfl
  · intro o _ l _ r _
    rfl

/-- exchanging the two classes -/
example : IsMps 3 true { symParams with out := ⟨[2, 2, 2], fun i => symParams.out.get [1 - i.getD 0 0, i.getD 1 0, i.getD 2 0]⟩ }
      (symModel 3 2 2 true { symParams with out := ⟨[2, 2, 2], fun i => symParams.out.get [1 - i.getD 0 0, i.getD 1 0, i.getD 2 0]⟩ }) :=
  ⟨by simp [symModel], rfl, rfl, rfl, rfl, rfl, rfl⟩

/-- a translation-invariant model with bond dimension 2 and the identity as fixed bias, and itself twice, side by side -/
def symTi : TiMps ℤ :=
  ⟨2, 2, 2, false, true, true, none, ⟨[2, 2, 2], fun i => i.getD 0 0 - 2 * i.getD 1 0 + 3 * i.getD 2 0⟩, ⟨[2], fun i => 1 + i.getD 0 0⟩, ⟨[2, 2], fun i => i.getD 0 0 - i.getD 1 0⟩,
    some (eyeMat 2)⟩

def symTiDouble : TiMps ℤ :=
  ⟨2, 4, 2, false, true, true, none, blockTensor 2 [4, 4, 2] 0 symTi.core symTi.core,
    ⟨[4], fun i => if i.getD 0 0 < 2 then symTi.initVec.get [i.getD 0 0] else symTi.initVec.get [i.getD 0 0 - 2]⟩,
    ⟨[4, 2], fun i => if i.getD 0 0 < 2 then symTi.termMat.get [i.getD 0 0, i.getD 1 0] else symTi.termMat.get [i.getD 0 0 - 2, i.getD 1 0]⟩, some (eyeMat 4)⟩

/-- the hypotheses of the sum of translation-invariant models are met -/
example : IsTi symTi ∧ IsTi symTiDouble ∧ SameTiInputs symTi symTiDouble ∧ TiSideBySide symTi symTi symTiDouble := by
  refine ⟨⟨rfl, rfl, rfl, fun _ => ⟨_, rfl, rfl⟩, ?_⟩, ⟨rfl, rfl, rfl, fun _ => ⟨_, rfl, rfl⟩, ?_⟩, ⟨rfl, rfl, rfl, rfl, rfl⟩, ⟨rfl, fun _ _ _ _ _ _ => rfl, ?_, fun _ _ => rfl, fun _ _ _ _ => rfl⟩⟩
  · intro _ _ l _ r _
    simp [tiBiasAt, symTi, eyeMat]
  · intro _ _ l _ r _
    simp [tiBiasAt, symTiDouble, eyeMat]
  · intro l hl r hr
    have hl : l < 4 := hl
    have hr : r < 4 := hr
    interval_cases l <;> interval_cases r <;> simp [tiBiasAt, symTiDouble, symTi, eyeMat, block]

end TorchMPS
