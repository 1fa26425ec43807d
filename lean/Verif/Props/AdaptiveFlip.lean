import Verif.Lemmas.AdBonds
import Verif.Props.Adaptive
/-
C61-C64: flips of the merge state.
-/
namespace TorchMPS
open Spec

/-! ### C63 -/

theorem geoMean_exp (D F O n : ℕ) (a : Cores ℝ) (h0 : outNorm D O a.C ≠ 0) (h : ∀ q < n, coreNorm D F (a.A q) ≠ 0) :
    geoMean D F O n a = Real.exp ((Real.log (outNorm D O a.C) + ∑ q ∈ Finset.range n, Real.log (coreNorm D F (a.A q))) / (n + 1)) := by
  have hp0 : 0 < outNorm D O a.C := lt_of_le_of_ne (outNorm_nonneg _ _ _) h0.symm
  have hp : ∀ q ∈ Finset.range n, 0 < coreNorm D F (a.A q) := fun q hq =>
    lt_of_le_of_ne (coreNorm_nonneg _ _ _) (h q (Finset.mem_range.1 hq)).symm
  have hprod : 0 < ∏ i ∈ Finset.range n, coreNorm D F (a.A i) := Finset.prod_pos hp
  unfold geoMean
  rw [Real.rpow_def_of_pos (mul_pos hp0 hprod), Real.log_mul h0 hprod.ne', Real.log_prod (fun q hq => (hp q hq).ne')]
  congr 1
  ring

/-- C63: the rescaling of the cores of any unmerged chain at a flip. If all cores have non-zero norm then the factors multiply to 1,
afterwards every core has as its norm the geometric mean of the previous norms, and the function computed by the chain is the same.
Otherwise all scales are NaN. -/
theorem C63_rescale (D F O k n : ℕ) (hk : k ≤ n) (a : Cores ℝ) (ms : List (Module ℝ)) (h : Unmerged D F O k n a ms) :
    ((outNorm D O a.C = 0 ∨ ∃ q < n, coreNorm D F (a.A q) = 0) → rescaleCores ms = .error .nan) ∧
    (outNorm D O a.C ≠ 0 → (∀ q < n, coreNorm D F (a.A q) ≠ 0) →
      ∃ ms' c c0, rescaleCores ms = .ok ms' ∧ Unmerged D F O k n (a.scale c c0) ms' ∧
        c0 * ∏ q ∈ Finset.range n, c q = 1 ∧ 0 < c0 ∧ (∀ q, 0 < c q) ∧
        outNorm D O (a.scale c c0).C = geoMean D F O n a ∧
        (∀ q < n, coreNorm D F ((a.scale c c0).A q) = geoMean D F O n a) ∧
        ∀ per e b o, chainValue D F k n per (a.scale c c0) e b o = chainValue D F k n per a e b o) := by
  refine ⟨?_, ?_⟩
  · intro hz
    rcases rescale_unmerged D F O k n hk a ms h with ⟨r1, _⟩ | ⟨ms', r1, r2, r3, _⟩
    · exact r1
    · rcases hz with hz | ⟨q, q1, q2⟩
      · exact absurd hz r2
      · exact absurd q2 (r3 q q1)
  · intro h0 hq
    rcases rescale_unmerged D F O k n hk a ms h with ⟨_, hz | ⟨q, q1, q2⟩⟩ | ⟨ms', r1, r2, r3, r4⟩
    · exact absurd hz h0
    · exact absurd q2 (hq q q1)
    · have hls := logScale_eq D F O k n hk a ms h
      obtain ⟨b1, b2⟩ := scales_balanced D F O n a (logScale ms) h0 hq
      refine ⟨ms', _, _, r1, r4, scale_prod n _ (fun q => Real.log (coreNorm D F (a.A q))) _ hls, Real.exp_pos _, fun _ => Real.exp_pos _, ?_, ?_,
        fun per e b o => scales_one D F O k n hk per a ms h e b o⟩
      · rw [b1, geoMean_exp D F O n a h0 hq, hls]
      · intro q hq'
        rw [b2 q hq', geoMean_exp D F O n a h0 hq, hls]

/-! ### well-formed states -/

theorem listAt_shape (k : ℕ) (m : AdMps) (h : IsAdMps k m) (p : ℕ) (hp : p ≤ 1) :
    MergedShape m.mps.bondDim m.mps.featureDim m.mps.outputDim p k m.mps.inputDim (m.region.listAt p) := by
  have h01 : p = 0 ∨ p = 1 := by omega
  rcases h01 with rfl | rfl
  · exact h.list0
  · exact h.list1

theorem listAt_set (r : AdRegion) (p : ℕ) (l : List (Module ℝ)) : (r.setList p l).listAt p = l := by
  unfold AdRegion.setList AdRegion.listAt
  split <;> rfl

theorem setList_eq (r : AdRegion) (p : ℕ) (hp : p ≤ 1) (l : List (Module ℝ)) : (r.setList (1 - p) l).list0 = (if p = 1 then l else r.list0) ∧
    (r.setList (1 - p) l).list1 = (if p = 0 then l else r.list1) := by
  have h01 : p = 0 ∨ p = 1 := by omega
  rcases h01 with rfl | rfl <;> simp [AdRegion.setList]

theorem setList_rest (r : AdRegion) (p : ℕ) (l : List (Module ℝ)) : (r.setList p l).threshold = r.threshold ∧ (r.setList p l).cutoff = r.cutoff := by
  unfold AdRegion.setList
  split <;> exact ⟨rfl, rfl⟩

/-- the model after a flip to the merged list `l` with new bonds `bs`, and a call with `B` samples -/
def afterFlip (m : AdMps) (B : ℕ) (l : List (Module ℝ)) (bs : List BondEntry) : AdMps :=
  ⟨m.mps, { m.region.setList (1 - m.region.offset) l with
      offset := 1 - m.region.offset, stray := none, counter := m.region.counter - m.region.threshold + B },
    (assignBonds (none :: bs) m.bondList m.svList).1, (assignBonds (none :: bs) m.bondList m.svList).2⟩

/-- What a call of `forward` does which finds the flip due and not failing. -/
theorem flip_call (svd : Mat ℝ → SVD) (hsvd : ∀ A, IsSVD A (svd A)) (pop : List Char → Char) (hpop : ∀ x xs, pop (x :: xs) ∈ x :: xs)
    (k : ℕ) (m : AdMps) (h : IsAdMps k m) (hD : 1 ≤ m.mps.bondDim) (hdue : m.region.threshold ≤ m.region.counter)
    (hstuck : ¬ Stuck m.region.offset k m.mps.inputDim) (x e : Tensor ℝ) (he : Embedded m.mps x e) (g : Option ℕ) :
    ((m.forward svd pop x g = (.error .runtime, m, g) ∧ Vanishing svd m.mps.bondDim m.region.cutoff (m.region.listAt m.region.offset)) ∨
     (m.forward svd pop x g = (.error .nan, m, g) ∧ ¬ Vanishing svd m.mps.bondDim m.region.cutoff (m.region.listAt m.region.offset) ∧
        (0 < m.region.cutoff → ∃ u ∈ m.region.listAt m.region.offset, LoneZero u))) ∨
    ∃ l bs a,
      MergedChain m.mps.bondDim m.mps.featureDim m.mps.outputDim (1 - m.region.offset) k m.mps.inputDim a l ∧
      Balanced m.mps.bondDim m.mps.featureDim m.mps.outputDim m.mps.inputDim a ∧
      ¬ Vanishing svd m.mps.bondDim m.region.cutoff (m.region.listAt m.region.offset) ∧
      (∀ u ∈ m.region.listAt m.region.offset, ¬ LoneZero u) ∧
      List.Forall₂ (BondOk m.mps.bondDim m.region.cutoff) ((m.region.listAt m.region.offset).flatMap (bondPlan svd)) bs ∧
      ((Lossless svd m.mps.bondDim m.region.cutoff (m.region.listAt m.region.offset) →
          ∃ a0, HoldsCores k a0 m ∧ ∀ per e b o, chainValue m.mps.bondDim m.mps.featureDim k m.mps.inputDim per a e b o =
            chainValue m.mps.bondDim m.mps.featureDim k m.mps.inputDim per a0 e b o) ∧
        ∃ ms' a0, List.Forall₂ (Truncated svd m.mps.bondDim m.mps.featureDim m.mps.outputDim m.region.cutoff) (m.region.listAt m.region.offset) ms' ∧
          MergedChain m.mps.bondDim m.mps.featureDim m.mps.outputDim m.region.offset k m.mps.inputDim a0 ms' ∧
          ∀ per e b o, chainValue m.mps.bondDim m.mps.featureDim k m.mps.inputDim per a e b o =
            chainValue m.mps.bondDim m.mps.featureDim k m.mps.inputDim per a0 e b o) ∧
      (BatchKnown k (e.shape.getD 0 0) g ∨ m.region.offset = 1 → ∃ y g', m.forward svd pop x g = (.ok y,
          afterFlip m (e.shape.getD 0 0) l bs, g') ∧
        y.shape = [e.shape.getD 0 0, m.mps.outputDim] ∧
        ∀ b < e.shape.getD 0 0, ∀ o < m.mps.outputDim,
          y.get [b, o] = chainValue m.mps.bondDim m.mps.featureDim k m.mps.inputDim m.mps.periodic a e b o) ∧
      ∀ y m' g', m.forward svd pop x g = (.ok y, m', g') →
        m' = afterFlip m (e.shape.getD 0 0) l bs := by
  have hn := h.size
  have hk := h.label
  have hoff := h.offset
  unfold AdMps.forward
  rw [ad_forward_eq svd pop m x e he]
  simp only [AdRegion.maybeFlip]
  rw [if_pos hdue]
  rcases flip_cases svd hsvd pop hpop m.mps.bondDim m.mps.featureDim m.mps.outputDim k m.mps.inputDim hD hk hn m.region hoff hstuck
      (listAt_shape k m h _ hoff) (listAt_shape k m h _ (by omega)) with ⟨f1, f2⟩ | ⟨f1, f2, f3⟩ | ⟨l, bs, a, f1, f2, fb, f3, f4, f5, f6⟩
  · left; left
    rw [f1]
    exact ⟨rfl, f2⟩
  · left; right
    rw [f1]
    exact ⟨rfl, f2, f3⟩
  · right
    rw [f1]
    have hact : AdRegion.active (afterFlip m (e.shape.getD 0 0) l bs).region = l := by
      unfold AdRegion.active
      exact listAt_set m.region (1 - m.region.offset) l
    simp only [afterFlip] at hact
    have hbl : (none :: bs).length = m.bondList.length := by
      rw [h.bonds, List.length_cons, ← f5.length_eq,
        (chain_bonds svd _ _ _ _ k m.mps.inputDim hoff hk _ (listAt_shape k m h _ hoff)).1]
    refine ⟨l, bs, a, f2, fb, f3, f4, f5, f6, ?_, ?_⟩
    · intro hg
      obtain ⟨y, g', y1, y2, y3⟩ := merged_value m.mps.bondDim m.mps.featureDim m.mps.outputDim (1 - m.region.offset) k m.mps.inputDim _ (by omega) hk
        (by omega) a l f2 m.mps.periodic m.mps.parallel (Or.inr hD) e (embedded_shape _ x e he) g
        (hg.elim (fun hg => hg.elim (fun h => Or.inr (by omega)) Or.inl) (fun h => Or.inr (by omega)))
      refine ⟨y, g', ?_, y2, y3⟩
      simp only
      rw [hact, y1]
      simp only
      rw [if_pos hbl]
      rfl
    · intro y m' g' hf
      simp only at hf
      rw [hact] at hf
      split at hf
      · simp at hf
      · rw [if_pos hbl] at hf
        simp only [Prod.mk.injEq] at hf
        exact hf.2.1.symm

/-- A flip that is due and finds two lone pixel cores. -/
theorem stuck_call (svd : Mat ℝ → SVD) (hsvd : ∀ A, IsSVD A (svd A)) (pop : List Char → Char) (hpop : ∀ x xs, pop (x :: xs) ∈ x :: xs)
    (k : ℕ) (m : AdMps) (h : IsAdMps k m) (hD : 1 ≤ m.mps.bondDim) (hdue : m.region.threshold ≤ m.region.counter)
    (hstuck : Stuck m.region.offset k m.mps.inputDim) (x e : Tensor ℝ) (he : Embedded m.mps x e) (g : Option ℕ) :
    ∃ er m' g', m.forward svd pop x g = (.error er, m', g') ∧
      (er = .assertion ∨ (er = .runtime ∧ Vanishing svd m.mps.bondDim m.region.cutoff (m.region.listAt m.region.offset)) ∨
        (er = .nan ∧ (0 < m.region.cutoff → ∃ u ∈ m.region.listAt m.region.offset, LoneZero u))) := by
  unfold AdMps.forward
  rw [ad_forward_eq svd pop m x e he]
  simp only [AdRegion.maybeFlip]
  rw [if_pos hdue]
  have hoff := h.offset
  rcases flip_stuck svd hsvd pop hpop m.mps.bondDim m.mps.featureDim m.mps.outputDim k m.mps.inputDim hD h.label m.region hoff hstuck
      (listAt_shape k m h _ hoff) (listAt_shape k m h _ (by omega)) with ⟨f1, f2⟩ | ⟨f1, f2⟩ | ⟨us, f1⟩
  · rw [f1]
    exact ⟨_, _, _, rfl, Or.inr (Or.inl ⟨rfl, f2⟩)⟩
  · rw [f1]
    exact ⟨_, _, _, rfl, Or.inr (Or.inr ⟨rfl, f2⟩)⟩
  · rw [f1]
    exact ⟨_, _, _, rfl, Or.inl rfl⟩

theorem assign_length (es : List BondEntry) (bs : List ℕ) (ss : List (Tensor ℝ)) :
    (assignBonds es bs ss).1.length = bs.length ∧ (assignBonds es bs ss).2.length = ss.length := by
  induction es generalizing bs ss with
  | nil => exact ⟨rfl, rfl⟩
  | cons e es ih =>
    match bs, ss with
    | [], ss => exact ⟨rfl, rfl⟩
    | b :: bs, [] => exact ⟨rfl, rfl⟩
    | b :: bs, s :: ss =>
      obtain ⟨h1, h2⟩ := ih bs ss
      simp only [assignBonds]
      cases e <;> simp [h1, h2]

theorem assign_get (es : List BondEntry) (bs : List ℕ) (ss : List (Tensor ℝ)) (hb : es.length = bs.length) (hs : es.length = ss.length) (d : Tensor ℝ) (j : ℕ) :
    (assignBonds es bs ss).1.getD j 0 = ((es.getD j none).map Prod.fst).getD (bs.getD j 0) ∧
    (assignBonds es bs ss).2.getD j d = ((es.getD j none).map Prod.snd).getD (ss.getD j d) := by
  induction es generalizing bs ss j with
  | nil => exact ⟨rfl, rfl⟩
  | cons e es ih =>
    match bs, ss, hb, hs with
    | b :: bs, s :: ss, hb, hs =>
      obtain ⟨h1, h2⟩ := ih bs ss (by simpa using hb) (by simpa using hs) (j - 1)
      simp only [assignBonds]
      cases j with
      | zero => cases e <;> simp
      | succ j =>
        simp only [Nat.add_sub_cancel] at h1 h2
        cases e <;> simp only [List.getD_cons_succ, h1, h2] <;> exact ⟨trivial, trivial⟩

theorem after_wf (k : ℕ) (m : AdMps) (h : IsAdMps k m) (B : ℕ) (l : List (Module ℝ)) (bs : List BondEntry)
    (hl : MergedShape m.mps.bondDim m.mps.featureDim m.mps.outputDim (1 - m.region.offset) k m.mps.inputDim l) : IsAdMps k (afterFlip m B l bs) := by
  have hoff := h.offset
  obtain ⟨e0, e1⟩ := setList_eq m.region m.region.offset hoff l
  obtain ⟨a1, a2⟩ := assign_length (none :: bs) m.bondList m.svList
  refine ⟨h.size, h.label, by simp [afterFlip], rfl, ?_, ?_, a1.trans h.bonds, a2.trans h.svs⟩
  · show MergedShape _ _ _ 0 k _ (m.region.setList (1 - m.region.offset) l).list0
    rw [e0]
    split
    · rename_i hp
      rw [hp] at hl
      exact hl
    · exact h.list0
  · show MergedShape _ _ _ 1 k _ (m.region.setList (1 - m.region.offset) l).list1
    rw [e1]
    split
    · rename_i hp
      rw [hp] at hl
      exact hl
    · exact h.list1

theorem quiet_call (svd : Mat ℝ → SVD) (pop : List Char → Char) (m m' : AdMps) (x e y : Tensor ℝ) (g g' : Option ℕ) (he : Embedded m.mps x e)
    (hc : m.region.counter < m.region.threshold) (h : m.forward svd pop x g = (.ok y, m', g')) :
    m' = { m with region := { m.region with counter := m.region.counter + e.shape.getD 0 0 } } := by
  unfold AdMps.forward at h
  rw [ad_forward_eq svd pop m x e he] at h
  simp only [AdRegion.maybeFlip] at h
  rw [if_neg (by omega)] at h
  simp only at h
  split at h
  · simp at h
  · simp only [Prod.mk.injEq] at h
    exact h.2.1.symm

theorem count_wf (k : ℕ) (m : AdMps) (h : IsAdMps k m) (B : ℕ) : IsAdMps k { m with region := { m.region with counter := B } } :=
  ⟨h.size, h.label, h.offset, h.stray, h.list0, h.list1, h.bonds, h.svs⟩

theorem retuned_shaped (D F O : ℕ) (κ : Kind) (m m' : Module ℝ) (h : κ.Shaped D F O m) (hr : Retuned m m') : κ.Shaped D F O m' := by
  obtain ⟨t, h1, rfl⟩ := hr
  cases κ <;> cases m <;> first | exact h.elim | skip
  · exact h1.trans h
  · exact h1.trans h
  · exact h1.trans h
  · exact ⟨h.1, h1.trans h.2⟩

theorem retuned_shape (D F O p k n : ℕ) (l l' : List (Module ℝ)) (h : MergedShape D F O p k n l) (hr : List.Forall₂ Retuned l l') :
    MergedShape D F O p k n l' := by
  unfold MergedShape at h ⊢
  generalize layout p k n = ks at h
  induction h generalizing l' with
  | nil => cases hr; exact .nil
  | cons h1 _ ih =>
    cases hr with
    | cons r1 r2 => exact .cons (retuned_shaped D F O _ _ _ h1 r1) (ih _ r2)

theorem train_wf (k : ℕ) (m m' : AdMps) (h : IsAdMps k m) (ht : Trained m m') : IsAdMps k m' := by
  obtain ⟨l0, l1, rfl, t0, t1⟩ := ht
  exact ⟨h.size, h.label, h.offset, h.stray, retuned_shape _ _ _ _ _ _ _ _ h.list0 t0, retuned_shape _ _ _ _ _ _ _ _ h.list1 t1, h.bonds, h.svs⟩

theorem register_same (m : MPS ℝ) (φ : Option (ℝ → Tensor ℝ)) (m' : MPS ℝ) (h : m.registerFeatureMap φ = .ok m') :
    ∃ f, m' = { m with featureMap := f } := by
  unfold MPS.registerFeatureMap at h
  cases φ with
  | none => exact ⟨none, (Except.ok.inj h).symm⟩
  | some f =>
    simp only at h
    split at h
    · simp at h
    · exact ⟨some f, (Except.ok.inj h).symm⟩

/-- A successful call: nothing is flipped, or the flip was not stuck and went through. -/
theorem call_cases (svd : Mat ℝ → SVD) (hsvd : ∀ A, IsSVD A (svd A)) (pop : List Char → Char) (hpop : ∀ x xs, pop (x :: xs) ∈ x :: xs)
    (k : ℕ) (m m' : AdMps) (h : IsAdMps k m) (hD : 1 ≤ m.mps.bondDim) (x e y : Tensor ℝ) (g g' : Option ℕ) (he : Embedded m.mps x e)
    (hf : m.forward svd pop x g = (.ok y, m', g')) :
    (m.region.counter < m.region.threshold ∧ m' = { m with region := { m.region with counter := m.region.counter + e.shape.getD 0 0 } }) ∨
    (m.region.threshold ≤ m.region.counter ∧ ¬ Stuck m.region.offset k m.mps.inputDim ∧ ∃ l bs a, m' = afterFlip m (e.shape.getD 0 0) l bs ∧
      MergedChain m.mps.bondDim m.mps.featureDim m.mps.outputDim (1 - m.region.offset) k m.mps.inputDim a l ∧
      Balanced m.mps.bondDim m.mps.featureDim m.mps.outputDim m.mps.inputDim a ∧
      List.Forall₂ (BondOk m.mps.bondDim m.region.cutoff) ((m.region.listAt m.region.offset).flatMap (bondPlan svd)) bs) := by
  by_cases hc : m.region.counter < m.region.threshold
  · exact Or.inl ⟨hc, quiet_call svd pop m m' x e y g g' he hc hf⟩
  · right
    have hns : ¬ Stuck m.region.offset k m.mps.inputDim := by
      intro hs
      obtain ⟨er, m2, g2, z, _⟩ := stuck_call svd hsvd pop hpop k m h hD (by omega) hs x e he g
      rw [hf] at z
      simp at z
    refine ⟨by omega, hns, ?_⟩
    rcases flip_call svd hsvd pop hpop k m h hD (by omega) hns x e he g with (⟨z, _⟩ | ⟨z, _⟩) | ⟨l, bs, a, c1, cb, c2, c3, c4, c5, c6, c7⟩
    · rw [hf] at z
      simp at z
    · rw [hf] at z
      simp at z
    · exact ⟨l, bs, a, c7 y m' g' hf, c1, cb, c4⟩

/-! ### C61 -/

/-- C61 (well-formedness): the structure fixed at construction is the same after any history. -/
theorem C61_structure (svd : Mat ℝ → SVD) (hsvd : ∀ A, IsSVD A (svd A)) (pop : List Char → Char) (hpop : ∀ x xs, pop (x :: xs) ∈ x :: xs)
    (k : ℕ) (m m' : AdMps) (g g' : Option ℕ) (Bs : List ℕ) (fs : List Bool) (h : IsAdMps k m) (hD : 1 ≤ m.mps.bondDim)
    (hh : History svd pop m g Bs fs m' g') :
    IsAdMps k m' ∧ (∃ f, m'.mps = { m.mps with featureMap := f }) ∧ m'.region.cutoff = m.region.cutoff ∧ m'.region.threshold = m.region.threshold := by
  induction hh with
  | nil m g => exact ⟨h, ⟨m.mps.featureMap, rfl⟩, rfl, rfl⟩
  | @call m g x e y m' g' Bs fs m'' g'' he hf hh ih =>
    rcases call_cases svd hsvd pop hpop k m m' h hD x e y g g' he hf with ⟨_, rfl⟩ | ⟨_, _, l, bs, a, rfl, h2, _, _⟩
    · exact ih (count_wf k m h _) hD
    · obtain ⟨i1, i2, i3, i4⟩ := ih (after_wf k m h _ l bs (merged_shape h2)) hD
      obtain ⟨s1, s2⟩ := setList_rest m.region (1 - m.region.offset) l
      exact ⟨i1, i2, i3.trans s2, i4.trans s1⟩
  | @failed m g x e er m' g' Bs fs m'' g'' he hc hf hh ih =>
    have hm' := ad_failed svd pop m m' x e er g g' he hc hf
    subst hm'
    exact ih (count_wf k m h _) hD
  | @rejected m g x er m' g' Bs fs m'' g'' he hf hh ih =>
    have hm' := ad_rejected svd pop m m' x er g g' he hf
    subst hm'
    exact ih h hD
  | @train m g m' Bs fs m'' g'' ht hh ih =>
    have hw := train_wf k m m' h ht
    obtain ⟨l0, l1, rfl, t0, t1⟩ := ht
    exact ih hw hD
  | other hh ih => exact ih h hD
  | @register m g φ mps' Bs fs m'' g'' hr hh ih =>
    obtain ⟨f, rfl⟩ := register_same m.mps φ mps' hr
    exact ih ⟨h.size, h.label, h.offset, h.stray, h.list0, h.list1, h.bonds, h.svs⟩ hD

/-- C61 fails if one of the two regions has exactly two sites: no history has two flips, because the flip from one of the two merge states
raises an exception, AssertionError unless a merged core vanishes or a lone core is zero. -/
theorem C61_two_sites (svd : Mat ℝ → SVD) (hsvd : ∀ A, IsSVD A (svd A)) (pop : List Char → Char) (hpop : ∀ x xs, pop (x :: xs) ∈ x :: xs)
    (k : ℕ) (m : AdMps) (h : IsAdMps k m) (hD : 1 ≤ m.mps.bondDim) (hk : k = 2 ∨ m.mps.inputDim - k = 2) :
    (∃ p ≤ 1, ∀ m', IsAdMps k m' → m'.mps.inputDim = m.mps.inputDim → 1 ≤ m'.mps.bondDim → m'.region.offset = p →
      m'.region.threshold ≤ m'.region.counter → ∀ x e, Embedded m'.mps x e → ∀ g, ∃ er,
      (m'.forward svd pop x g).1 = .error er ∧
      (er = .assertion ∨ (er = .runtime ∧ Vanishing svd m'.mps.bondDim m'.region.cutoff (m'.region.listAt p)) ∨
        (er = .nan ∧ (0 < m'.region.cutoff → ∃ u ∈ m'.region.listAt p, LoneZero u)))) ∧
    ∀ g Bs fs m' g', History svd pop m g Bs fs m' g' → fs.count true ≤ 1 := by
  obtain ⟨p, hp, hpS⟩ : ∃ p ≤ 1, Stuck p k m.mps.inputDim := by
    rcases hk with hk | hk
    · exact ⟨1, le_rfl, Or.inl ⟨rfl, hk⟩⟩
    · exact ⟨k % 2, by omega, Or.inr ⟨rfl, hk⟩⟩
  refine ⟨⟨p, hp, ?_⟩, ?_⟩
  · rintro m' h' hn hD' rfl hdue x e he g
    obtain ⟨er, m2, g2, z1, z2⟩ := stuck_call svd hsvd pop hpop k m' h' hD' hdue (by rw [hn]; exact hpS) x e he g
    exact ⟨er, by rw [z1], z2⟩
  · intro g Bs fs m' g' hh
    have key : fs.count true ≤ if m.region.offset = p then 0 else 1 := by
      induction hh with
      | nil m g => simp
      | @call m g x e y m' g' Bs fs m'' g'' he hf hh ih =>
        rcases call_cases svd hsvd pop hpop k m m' h hD x e y g g' he hf with ⟨_, rfl⟩ | ⟨_, hns, l, bs, a, rfl, h2, _, _⟩
        · have := ih (count_wf k m h _) hD hk hpS
          simp only [ne_eq, not_true_eq_false, decide_false]
          rw [List.count_cons_of_ne (by simp)]
          exact this
        · have := ih (after_wf k m h _ l bs (merged_shape h2)) hD hk hpS
          have hoff := h.offset
          have hne : m.region.offset ≠ p := by
            intro hx
            rw [hx] at hns
            exact hns hpS
          have e1 : (afterFlip m (e.shape.getD 0 0) l bs).region.offset = p := by
            show 1 - m.region.offset = p
            omega
          rw [e1, if_pos rfl] at this
          rw [if_neg hne]
          rw [List.count_cons]
          split <;> omega
      | @failed m g x e er m' g' Bs fs m'' g'' he hc hf hh ih =>
        have hm' := ad_failed svd pop m m' x e er g g' he hc hf
        subst hm'
        rw [List.count_cons_of_ne (by simp)]
        exact ih (count_wf k m h _) hD hk hpS
      | @rejected m g x er m' g' Bs fs m'' g'' he hf hh ih =>
        have hm' := ad_rejected svd pop m m' x er g g' he hf
        subst hm'
        exact ih h hD hk hpS
      | @train m g m' Bs fs m'' g'' ht hh ih =>
        have hw := train_wf k m m' h ht
        obtain ⟨l0, l1, rfl, t0, t1⟩ := ht
        exact ih hw hD hk hpS
      | other hh ih => exact ih h hD hk hpS
      | @register m g φ mps' Bs fs m'' g'' hr hh ih =>
        obtain ⟨f, rfl⟩ := register_same m.mps φ mps' hr
        exact ih ⟨h.size, h.label, h.offset, h.stray, h.list0, h.list1, h.bonds, h.svs⟩ hD hk hpS
    exact key.trans (by split <;> omega)

/-! ### C62 -/

theorem forall2_getD {α β : Type} {R : α → β → Prop} {l : List α} {l' : List β} (h : List.Forall₂ R l l') (d : α) (d' : β) (j : ℕ) (hj : j < l.length) :
    R (l.getD j d) (l'.getD j d') := by
  induction h generalizing j with
  | nil => simp at hj
  | cons h1 _ ih =>
    cases j with
    | zero => exact h1
    | succ j => exact ih j (by simpa using hj)

/-- C62: what a successful call does to the bond records. A flip from offset `p` refreshes exactly the bonds `p+1`, `p+3`, ... up to
`input_dim`, with the number of singular values kept (between 1 and bond_dim) and the singular values of the merged core around that bond;
without a flip nothing changes. (Index `j - 1` of the list of all bonds of the active list is the bond number `j`.) -/
theorem C62_call (svd : Mat ℝ → SVD) (hsvd : ∀ A, IsSVD A (svd A)) (pop : List Char → Char) (hpop : ∀ x xs, pop (x :: xs) ∈ x :: xs)
    (k : ℕ) (m m' : AdMps) (h : IsAdMps k m) (hD : 1 ≤ m.mps.bondDim) (x e y : Tensor ℝ) (g g' : Option ℕ) (he : Embedded m.mps x e)
    (hf : m.forward svd pop x g = (.ok y, m', g')) :
    (m.region.counter < m.region.threshold → m'.bondList = m.bondList ∧ m'.svList = m.svList) ∧
    (m.region.threshold ≤ m.region.counter → ∀ j (d : Tensor ℝ),
      if 1 ≤ j ∧ j ≤ m.mps.inputDim ∧ j % 2 ≠ m.region.offset then
        ∃ sv, ((m.region.listAt m.region.offset).flatMap (bondPlan svd)).getD (j - 1) none = some sv ∧
          m'.bondList.getD j 0 = kept m.mps.bondDim m.region.cutoff sv ∧ 1 ≤ m'.bondList.getD j 0 ∧ m'.bondList.getD j 0 ≤ m.mps.bondDim ∧
          (m'.svList.getD j d).shape = [m.mps.bondDim] ∧ ∀ i < m.mps.bondDim, (m'.svList.getD j d).get [i] = sv.getD i 0
      else m'.bondList.getD j 0 = m.bondList.getD j 0 ∧ m'.svList.getD j d = m.svList.getD j d) := by
  rcases call_cases svd hsvd pop hpop k m m' h hD x e y g g' he hf with ⟨hc, rfl⟩ | ⟨hc, hns, l, bs, a, rfl, h2, _, h3⟩
  · exact ⟨fun _ => ⟨rfl, rfl⟩, fun hx => absurd hx (by omega)⟩
  · refine ⟨fun hx => absurd hx (by omega), fun _ j d => ?_⟩
    have hoff := h.offset
    obtain ⟨p1, p2⟩ := chain_bonds svd _ _ _ _ k m.mps.inputDim hoff h.label _ (listAt_shape k m h _ hoff)
    have hlen : (none :: bs).length = m.mps.inputDim + 2 := by
      rw [List.length_cons, ← h3.length_eq, p1]
    obtain ⟨a1, a2⟩ := assign_get (none :: bs) m.bondList m.svList (by rw [hlen, h.bonds]) (by rw [hlen, h.svs]) d j
    have e1 : (afterFlip m (e.shape.getD 0 0) l bs).bondList = (assignBonds (none :: bs) m.bondList m.svList).1 := rfl
    have e2 : (afterFlip m (e.shape.getD 0 0) l bs).svList = (assignBonds (none :: bs) m.bondList m.svList).2 := rfl
    rw [e1, e2, a1, a2]
    cases j with
    | zero =>
      rw [if_neg (by omega)]
      exact ⟨rfl, rfl⟩
    | succ j =>
      simp only [List.getD_cons_succ, Nat.add_sub_cancel]
      by_cases hj : j < m.mps.inputDim + 1
      · have hb := forall2_getD h3 none none j (by rw [p1]; exact hj)
        have hs := p2 j
        by_cases hup : 1 ≤ j + 1 ∧ j + 1 ≤ m.mps.inputDim ∧ (j + 1) % 2 ≠ m.region.offset
        · rw [if_pos hup]
          rw [decide_eq_true (by omega)] at hs
          revert hb hs
          generalize ((m.region.listAt m.region.offset).flatMap (bondPlan svd)).getD j none = pl
          generalize bs.getD j none = be
          intro hb hs
          match pl, be, hb with
          | some sv, some (b, v), hb =>
            obtain ⟨b1, b2, b3, b4⟩ := hb
            refine ⟨sv, rfl, b1, b2, ?_, b3, b4⟩
            show b ≤ _
            rw [b1]
            exact (List.length_filter_le _ _).trans (by rw [List.length_range])
          | none, _, _ => simp at hs
        · rw [if_neg hup]
          rw [decide_eq_false (by omega)] at hs
          revert hb hs
          generalize ((m.region.listAt m.region.offset).flatMap (bondPlan svd)).getD j none = pl
          generalize bs.getD j none = be
          intro hb hs
          match pl, be, hb with
          | none, none, _ => exact ⟨rfl, rfl⟩
          | some _, _, _ => simp at hs
      · rw [if_neg (by omega), List.getD_eq_default bs none (by rw [List.length_cons] at hlen; omega)]
        exact ⟨rfl, rfl⟩

/-- C62: in every history, `bond_list` keeps its `input_dim + 2` entries, all of them stay between 1 and bond_dim, and the two end
entries never change. -/
theorem C62_history (svd : Mat ℝ → SVD) (hsvd : ∀ A, IsSVD A (svd A)) (pop : List Char → Char) (hpop : ∀ x xs, pop (x :: xs) ∈ x :: xs)
    (k : ℕ) (m m' : AdMps) (g g' : Option ℕ) (Bs : List ℕ) (fs : List Bool) (h : IsAdMps k m) (hD : 1 ≤ m.mps.bondDim)
    (hb : ∀ b ∈ m.bondList, 1 ≤ b ∧ b ≤ m.mps.bondDim) (hh : History svd pop m g Bs fs m' g') :
    m'.bondList.length = m.mps.inputDim + 2 ∧ m'.svList.length = m.mps.inputDim + 2 ∧ (∀ b ∈ m'.bondList, 1 ≤ b ∧ b ≤ m.mps.bondDim) ∧
    m'.bondList.getD 0 0 = m.bondList.getD 0 0 ∧ m'.bondList.getD (m.mps.inputDim + 1) 0 = m.bondList.getD (m.mps.inputDim + 1) 0 := by
  induction hh with
  | nil m g => exact ⟨h.bonds, h.svs, hb, rfl, rfl⟩
  | @call m g x e y m' g' Bs fs m'' g'' he hf hh ih =>
    obtain ⟨u1, u2⟩ := C62_call svd hsvd pop hpop k m m' h hD x e y g g' he hf
    have hw : IsAdMps k m' ∧ m'.mps = m.mps := by
      rcases call_cases svd hsvd pop hpop k m m' h hD x e y g g' he hf with ⟨_, rfl⟩ | ⟨_, _, l, bs, a, rfl, h2, _, _⟩
      · exact ⟨count_wf k m h _, rfl⟩
      · exact ⟨after_wf k m h _ l bs (merged_shape h2), rfl⟩
    obtain ⟨hw, hm⟩ := hw
    have hrange : (∀ b ∈ m'.bondList, 1 ≤ b ∧ b ≤ m.mps.bondDim) ∧ m'.bondList.getD 0 0 = m.bondList.getD 0 0 ∧
        m'.bondList.getD (m.mps.inputDim + 1) 0 = m.bondList.getD (m.mps.inputDim + 1) 0 := by
      by_cases hc : m.region.counter < m.region.threshold
      · rw [(u1 hc).1]
        exact ⟨hb, rfl, rfl⟩
      · have hd := u2 (by omega)
        refine ⟨?_, ?_, ?_⟩
        · intro b hbm
          obtain ⟨j, hj, rfl⟩ := List.getElem_of_mem hbm
          have := hd j ⟨[], fun _ => 0⟩
          rw [List.getD_eq_getElem _ _ hj] at this
          split at this
          · obtain ⟨sv, _, _, q1, q2, _⟩ := this
            exact ⟨q1, q2⟩
          · rw [this.1, List.getD_eq_getElem _ _ (by rw [h.bonds]; have := hw.bonds; rw [hm] at this; omega)]
            exact hb _ (List.getElem_mem _)
        · have := hd 0 ⟨[], fun _ => 0⟩
          rw [if_neg (by omega)] at this
          exact this.1
        · have := hd (m.mps.inputDim + 1) ⟨[], fun _ => 0⟩
          rw [if_neg (by omega)] at this
          exact this.1
    obtain ⟨r1, r2, r3⟩ := hrange
    rw [hm] at ih
    obtain ⟨i1, i2, i3, i4, i5⟩ := ih hw hD r1
    exact ⟨i1, i2, i3, i4.trans r2, i5.trans r3⟩
  | @failed m g x e er m' g' Bs fs m'' g'' he hc hf hh ih =>
    have hm' := ad_failed svd pop m m' x e er g g' he hc hf
    subst hm'
    exact ih (count_wf k m h _) hD hb
  | @rejected m g x er m' g' Bs fs m'' g'' he hf hh ih =>
    have hm' := ad_rejected svd pop m m' x er g g' he hf
    subst hm'
    exact ih h hD hb
  | @train m g m' Bs fs m'' g'' ht hh ih =>
    have hw := train_wf k m m' h ht
    obtain ⟨l0, l1, rfl, t0, t1⟩ := ht
    exact ih hw hD hb
  | other hh ih => exact ih h hD hb
  | @register m g φ mps' Bs fs m'' g'' hr hh ih =>
    obtain ⟨f, rfl⟩ := register_same m.mps φ mps' hr
    exact ih ⟨h.size, h.label, h.offset, h.stray, h.list0, h.list1, h.bonds, h.svs⟩ hD hb

/-- C62: a newly constructed model satisfies the hypothesis on `bond_list`. -/
theorem C62_construction (d : Draws) (a : MpsArgs) (cutoff : ℝ) (threshold : ℕ) (m : AdMps) (hD : 1 ≤ a.bondDim)
    (h : AdMps.init d a cutoff threshold = .ok m) :
    m.bondList = initBonds a.inputDim a.bondDim a.periodic ∧ ∀ b ∈ m.bondList, 1 ≤ b ∧ b ≤ a.bondDim := by
  have e : m.bondList = initBonds a.inputDim a.bondDim a.periodic := by
    unfold AdMps.init at h
    obtain ⟨k, _, h⟩ := bind_ok_inv h
    obtain ⟨ms, _, h⟩ := bind_ok_inv h
    obtain ⟨r, _, h⟩ := bind_ok_inv h
    obtain ⟨_, _, h⟩ := bind_ok_inv h
    obtain ⟨path, _, h⟩ := bind_ok_inv h
    rw [← Except.ok.inj h]
  refine ⟨e, ?_⟩
  rw [e]
  unfold initBonds
  intro b hb
  split at hb
  · rw [List.eq_of_mem_replicate hb]
    exact ⟨hD, le_rfl⟩
  · rcases List.mem_cons.1 hb with rfl | hb
    · exact ⟨le_rfl, hD⟩
    · rcases List.mem_append.1 hb with hb | hb
      · rw [List.eq_of_mem_replicate hb]
        exact ⟨hD, le_rfl⟩
      · rw [List.mem_singleton.1 hb]
        exact ⟨le_rfl, hD⟩

/-! ### C64 -/

/-- C64: if every singular value dropped by the flip is zero, the call that flips returns the very outputs the model would return if the
flip were not due yet, for every input. (The flip must not fail: a merged core of zeros or a lone core of zeros makes it fail.) -/
theorem C64_lossless (svd : Mat ℝ → SVD) (hsvd : ∀ A, IsSVD A (svd A)) (pop : List Char → Char) (hpop : ∀ x xs, pop (x :: xs) ∈ x :: xs)
    (k : ℕ) (m : AdMps) (h : IsAdMps k m) (hD : 1 ≤ m.mps.bondDim) (hdue : m.region.threshold ≤ m.region.counter)
    (hstuck : ¬ Stuck m.region.offset k m.mps.inputDim)
    (hcut : 0 < m.region.cutoff) (hv : ¬ Vanishing svd m.mps.bondDim m.region.cutoff (m.region.listAt m.region.offset))
    (hz : ∀ u ∈ m.region.listAt m.region.offset, ¬ LoneZero u)
    (hl : Lossless svd m.mps.bondDim m.region.cutoff (m.region.listAt m.region.offset))
    (x e : Tensor ℝ) (he : Embedded m.mps x e) (g : Option ℕ) (hg : BatchKnown k (e.shape.getD 0 0) g) :
    ∃ y y', (m.forward svd pop x g).1 = .ok y ∧ (m.forward svd pop x g).2.1.region.offset = 1 - m.region.offset ∧
      (({ m with region := { m.region with threshold := m.region.counter + 1 } } : AdMps).forward svd pop x g).1 = .ok y' ∧ y.Eqv y' := by
  rcases flip_call svd hsvd pop hpop k m h hD hdue hstuck x e he g with (⟨_, z1⟩ | ⟨_, _, z2⟩) | ⟨l, bs, a, c1, cb, c2, c3, c4, c5, c6, c7⟩
  · exact absurd z1 hv
  · obtain ⟨u, u1, u2⟩ := z2 hcut
    exact absurd u2 (hz u u1)
  · obtain ⟨y, g', y1, y2, y3⟩ := c6 (Or.inl hg)
    obtain ⟨a0, b1, b2⟩ := c5.1 hl
    obtain ⟨y', w1, w2, w3⟩ := C59_forward svd pop k a0 { m with region := { m.region with threshold := m.region.counter + 1 } }
      ⟨h.size, h.label, h.offset, h.stray, h.list0, h.list1, h.bonds, h.svs⟩ b1 (Nat.lt_succ_self _) (Or.inr hD) x e he g (Or.inl hg)
    refine ⟨y, y', by rw [y1], by rw [y1]; rfl, w1, by rw [y2, w2], ?_⟩
    intro idx hidx
    rw [y2] at hidx
    match idx, hidx with
    | [b, o], hidx =>
      simp at hidx
      rw [y3 b hidx.1 o hidx.2, w3 b hidx.1 o hidx.2]
      exact b2 _ _ _ _
    | [], hidx => simp at hidx
    | [_], hidx => simp at hidx
    | _ :: _ :: _ :: _, hidx => simp at hidx

/-- C63: after every successful flip, the new merged list holds cores of equal non-zero norm. -/
theorem C63_balanced (svd : Mat ℝ → SVD) (hsvd : ∀ A, IsSVD A (svd A)) (pop : List Char → Char) (hpop : ∀ x xs, pop (x :: xs) ∈ x :: xs)
    (k : ℕ) (m m' : AdMps) (h : IsAdMps k m) (hD : 1 ≤ m.mps.bondDim) (hdue : m.region.threshold ≤ m.region.counter)
    (x e y : Tensor ℝ) (g g' : Option ℕ) (he : Embedded m.mps x e) (hf : m.forward svd pop x g = (.ok y, m', g')) :
    ∃ a, HoldsCores k a m' ∧ Balanced m'.mps.bondDim m'.mps.featureDim m'.mps.outputDim m'.mps.inputDim a := by
  rcases call_cases svd hsvd pop hpop k m m' h hD x e y g g' he hf with ⟨hc, rfl⟩ | ⟨_, hns, l, bs, a, rfl, h2, h3, _⟩
  · omega
  · refine ⟨a, ?_, h3⟩
    have : (afterFlip m (e.shape.getD 0 0) l bs).region.listAt (afterFlip m (e.shape.getD 0 0) l bs).region.offset = l :=
      listAt_set m.region (1 - m.region.offset) l
    unfold HoldsCores
    rw [this]
    exact h2

end TorchMPS
