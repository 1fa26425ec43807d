import Verif.Lemmas.FlipError
import Verif.Props.AdaptiveTrunc
/-
C90: how much a flip which drops singular values changes the outputs.
-/
namespace TorchMPS
open Spec
open scoped Matrix.Norms.Frobenius

theorem featureNorm_nonneg (F : ℕ) (e : Tensor ℝ) (b i : ℕ) : 0 ≤ featureNorm F e b i := Real.sqrt_nonneg _

theorem drop_eq (D : ℕ) (cutoff : ℝ) (sv : List ℝ) (n0 n1 n2 n3 : ℕ) (P : ℕ → (ℕ → ℕ → ℕ → ℝ) → (ℕ → ℕ → ℕ → ℝ) → ℕ → ℕ → ℕ → ℕ → ℝ)
    (T T' : ℕ → ℕ → ℕ → ℕ → ℝ) (h : CutDown D cutoff sv n0 n1 n2 n3 P T T') :
    droppedNorm D cutoff sv = Real.sqrt (∑ i ∈ Finset.range n0, ∑ j ∈ Finset.range n1, ∑ k ∈ Finset.range n2, ∑ f ∈ Finset.range n3, (T' i j k f - T i j k f) ^ 2) := by
  unfold droppedNorm
  rw [← h.2.1]
  unfold dist4
  congr 1
  refine Finset.sum_congr rfl fun i _ => Finset.sum_congr rfl fun j _ => Finset.sum_congr rfl fun k _ => Finset.sum_congr rfl fun f _ => by ring

/-- one slice of a tensor is at most as large as the tensor -/
theorem slice_le (O : ℕ) (f : ℕ → ℝ) (hf : ∀ o, 0 ≤ f o) (o : ℕ) (ho : o < O) : Real.sqrt (f o) ≤ Real.sqrt (∑ o ∈ Finset.range O, f o) :=
  Real.sqrt_le_sqrt (Finset.single_le_sum (f := f) (fun _ _ => hf _) (Finset.mem_range.2 ho))

theorem nearP_pairs (D F : ℕ) (e : Tensor ℝ) (b i c : ℕ) (T T' : ℕ → ℕ → ℕ → ℕ → ℕ → ℝ) (δ : ℕ → ℝ)
    (hδ : ∀ s < c, δ s = Real.sqrt (∑ l ∈ Finset.range D, ∑ r ∈ Finset.range D, ∑ f ∈ Finset.range F, ∑ f' ∈ Finset.range F, (T' s l r f f' - T s l r f f') ^ 2)) :
    NearProd D ((List.range c).map (fun s => pairMat D F (T s) (fun f => e.get [b, i + 2 * s, f]) (fun f => e.get [b, i + 2 * s + 1, f])))
      ((List.range c).map (fun s => pairMat D F (T' s) (fun f => e.get [b, i + 2 * s, f]) (fun f => e.get [b, i + 2 * s + 1, f])))
      ((List.range c).map (fun s => norm4 D D F F (T s))) ((List.range c).map δ)
      (∏ q ∈ Finset.range (2 * c), featureNorm F e b (i + q)) := by
  induction c with
  | zero => simpa using NearProd.nil
  | succ c ih =>
    have ih := ih (fun s hs => hδ s (by omega))
    rw [List.range_succ, List.map_append, List.map_append, List.map_append, List.map_append, show 2 * (c + 1) = 2 * c + 1 + 1 by ring, Finset.prod_range_succ, Finset.prod_range_succ, mul_assoc]
    refine nearP_append ih ?_
    simp only [List.map_cons, List.map_nil]
    rw [← mul_one (featureNorm F e b (i + 2 * c) * featureNorm F e b (i + (2 * c + 1)))]
    refine .cons ⟨rfl, rfl⟩ ⟨rfl, rfl⟩ (Real.sqrt_nonneg _) ?_ (mul_nonneg (featureNorm_nonneg ..) (featureNorm_nonneg ..)) ?_ ?_ .nil
    · rw [hδ c (by omega)]; exact Real.sqrt_nonneg _
    · have := pair_norm D F (T c) (fun f => e.get [b, i + 2 * c, f]) (fun f => e.get [b, i + 2 * c + 1, f])
      simpa [norm4, dist4, featureNorm, add_assoc] using this
    · rw [pair_sub, hδ c (by omega)]
      exact pair_norm D F _ _ _

theorem nearP_aff (D F : ℕ) (e : Tensor ℝ) (b i : ℕ) (A A' : ℕ → ℕ → ℕ → ℝ) (a d : ℝ) (ha : 0 ≤ a) (hd : 0 ≤ d)
    (h1 : Real.sqrt (∑ l ∈ Finset.range D, ∑ r ∈ Finset.range D, ∑ f ∈ Finset.range F, A l r f ^ 2) ≤ a)
    (h2 : Real.sqrt (∑ l ∈ Finset.range D, ∑ r ∈ Finset.range D, ∑ f ∈ Finset.range F, (A' l r f - A l r f) ^ 2) ≤ d) :
    NearProd D [affMat D F A (fun f => e.get [b, i, f]) (fun _ _ => 0)] [affMat D F A' (fun f => e.get [b, i, f]) (fun _ _ => 0)] [a] [d]
      (∏ q ∈ Finset.range 1, featureNorm F e b (i + q)) := by
  rw [Finset.prod_range_one, add_zero, ← mul_one (featureNorm F e b i)]
  refine .cons ⟨rfl, rfl⟩ ⟨rfl, rfl⟩ ha hd (featureNorm_nonneg ..) ?_ ?_ .nil
  · exact (aff_norm D F _ _).trans (mul_le_mul_of_nonneg_right h1 (featureNorm_nonneg ..))
  · rw [aff_sub]
    exact (aff_norm D F _ _).trans (mul_le_mul_of_nonneg_right h2 (featureNorm_nonneg ..))

theorem nearP_module (svd : Mat ℝ → SVD) (D F O : ℕ) (cutoff : ℝ) (κ : Kind) (m m' : Module ℝ) (hs : κ.Shaped D F O m) (ht : Truncated svd D F O cutoff m m')
    (e : Tensor ℝ) (b o i : ℕ) (ho : o < O) :
    NearProd D (moduleMats D F e b o i m) (moduleMats D F e b o i m') (moduleNorms D F O m) (moduleDrops svd D cutoff m)
      (∏ q ∈ Finset.range m.len, featureNorm F e b (i + q)) ∧ m'.len = m.len := by
  cases m with
  | inputRegion t bb => cases κ <;> exact hs.elim
  | inputSite t =>
    simp only [Truncated] at ht
    subst ht
    refine ⟨?_, rfl⟩
    exact nearP_aff D F e b i _ _ _ 0 (Real.sqrt_nonneg _) le_rfl le_rfl (by simp)
  | outputSite t =>
    simp only [Truncated] at ht
    subst ht
    refine ⟨?_, rfl⟩
    have : (∏ q ∈ Finset.range (Module.outputSite t).len, featureNorm F e b (i + q)) = 1 * 1 := by simp [Module.len]
    rw [this]
    refine .cons ⟨rfl, rfl⟩ ⟨rfl, rfl⟩ (Real.sqrt_nonneg _) le_rfl zero_le_one ?_ (by simp) .nil
    rw [mul_one, frob_toMatrix]
    exact slice_le O (fun o => ∑ l ∈ Finset.range D, ∑ r ∈ Finset.range D, t.get [o, l, r] ^ 2)
      (fun o => Finset.sum_nonneg fun _ _ => Finset.sum_nonneg fun _ _ => sq_nonneg _) o ho
  | mergedInput t =>
    cases m' <;> simp only [Truncated] at ht <;> first | (cases ht; done) | skip
    rename_i t'
    obtain ⟨h1, h2⟩ := ht
    refine ⟨?_, by simp [Module.len, h1]⟩
    simp only [moduleMats, moduleNorms, moduleDrops, Module.len, h1]
    exact nearP_pairs D F e b i (t.shape.getD 0 0) (fun s l r f f' => t.get [s, l, r, f, f']) (fun s l r f f' => t'.get [s, l, r, f, f'])
      (fun s => droppedNorm D cutoff (pairSvs svd (t.select 0 s))) (fun s hs => drop_eq _ _ _ _ _ _ _ _ _ _ (h2 s hs))
  | mergedOutput t lb =>
    have go : ∀ (t' : Tensor ℝ) (sv : List ℝ) (P : ℕ → (ℕ → ℕ → ℕ → ℝ) → (ℕ → ℕ → ℕ → ℝ) → ℕ → ℕ → ℕ → ℕ → ℝ),
        CutDown D cutoff sv O D D F P (fun o l r f => t.get [o, l, r, f]) (fun o l r f => t'.get [o, l, r, f]) →
        NearProd D [affMat D F (fun l r f => t.get [o, l, r, f]) (fun f => e.get [b, i, f]) (fun _ _ => 0)]
          [affMat D F (fun l r f => t'.get [o, l, r, f]) (fun f => e.get [b, i, f]) (fun _ _ => 0)]
          [norm4 O D D F (fun o l r f => t.get [o, l, r, f])] [droppedNorm D cutoff sv]
          (∏ q ∈ Finset.range 1, featureNorm F e b (i + q)) := by
      intro t' sv P hc
      refine nearP_aff D F e b i _ _ _ _ (Real.sqrt_nonneg _) (Real.sqrt_nonneg _) ?_ ?_
      · have := slice_le O (fun o => ∑ l ∈ Finset.range D, ∑ r ∈ Finset.range D, ∑ f ∈ Finset.range F, t.get [o, l, r, f] ^ 2)
          (fun o => Finset.sum_nonneg fun _ _ => Finset.sum_nonneg fun _ _ => Finset.sum_nonneg fun _ _ => sq_nonneg _) o ho
        simpa [norm4, dist4] using this
      · rw [drop_eq _ _ _ _ _ _ _ _ _ _ hc]
        exact slice_le O (fun o => ∑ l ∈ Finset.range D, ∑ r ∈ Finset.range D, ∑ f ∈ Finset.range F, (t'.get [o, l, r, f] - t.get [o, l, r, f]) ^ 2)
          (fun o => Finset.sum_nonneg fun _ _ => Finset.sum_nonneg fun _ _ => Finset.sum_nonneg fun _ _ => sq_nonneg _) o ho
    cases lb <;> cases m' <;> simp only [Truncated] at ht <;> first | (cases ht; done) | skip
    · rename_i t' lb'
      cases lb' <;> simp only [Truncated] at ht
      · exact ⟨go t' _ _ ht.2, rfl⟩
      · simp at ht
    · rename_i t' lb'
      cases lb' <;> simp only [Truncated] at ht
      · simp at ht
      · exact ⟨go t' _ _ ht.2, rfl⟩

theorem nearP_chain (svd : Mat ℝ → SVD) (D F O : ℕ) (cutoff : ℝ) (ks : List Kind) (ms ms' : List (Module ℝ)) (hs : List.Forall₂ (fun κ m => κ.Shaped D F O m) ks ms)
    (ht : List.Forall₂ (Truncated svd D F O cutoff) ms ms') (e : Tensor ℝ) (b o i : ℕ) (ho : o < O) :
    NearProd D (chainMats D F e b o i ms) (chainMats D F e b o i ms') (ms.flatMap (moduleNorms D F O)) (ms.flatMap (moduleDrops svd D cutoff))
      (∏ q ∈ Finset.range (modulesLen ms), featureNorm F e b (i + q)) := by
  induction ht generalizing ks i with
  | nil => simpa [chainMats, modulesLen] using NearProd.nil
  | @cons m m' ms ms' h1 _ ih =>
    cases hs with
    | @cons κ _ ks _ s1 s2 =>
      obtain ⟨n1, n2⟩ := nearP_module svd D F O cutoff κ m m' s1 h1 e b o i ho
      have n3 := ih ks s2 (i + m.len)
      have := nearP_append n1 n3
      simp only [chainMats, List.flatMap_cons, n2]
      convert this using 1
      rw [show modulesLen (m :: ms) = m.len + modulesLen ms by simp [modulesLen], Finset.prod_range_add]
      simp only [add_assoc]

theorem forward_undue (svd : Mat ℝ → SVD) (pop : List Char → Char) (m : AdMps) (hc : m.region.counter < m.region.threshold) (x e : Tensor ℝ)
    (he : Embedded m.mps x e) (g : Option ℕ) : (m.forward svd pop x g).1 = (linearForward m.region.active m.mps.periodic m.mps.parallel e g).1 := by
  unfold AdMps.forward AdRegion.maybeFlip
  rw [ad_forward_eq svd pop m x e he]
  simp only [if_neg (not_le.2 hc)]
  have e1 : ∀ c, AdRegion.active { m.region with counter := c } = m.region.active := fun c => rfl
  rw [e1]
  generalize linearForward m.region.active m.mps.periodic m.mps.parallel e g = z
  obtain ⟨z, g'⟩ := z
  cases z <;> rfl

/-- C90: A call that flips the merge state returns outputs which differ from those the call would have returned without the flip by at most
`c * (∏ norms of the feature vectors) * (∏ (N + δ) - ∏ N)`, where `N` are the norms of the cores of the merge state given up, `δ` the roots of the sums of squares of the singular values
dropped of each of them (0 for lone cores), and `c = 1` for open boundaries, `√D` for periodic ones. -/
theorem C90_change (svd : Mat ℝ → SVD) (hsvd : ∀ A, IsSVD A (svd A)) (pop : List Char → Char) (hpop : ∀ x xs, pop (x :: xs) ∈ x :: xs)
    (k : ℕ) (m : AdMps) (h : IsAdMps k m) (hD : 1 ≤ m.mps.bondDim) (hdue : m.region.threshold ≤ m.region.counter)
    (hstuck : ¬ Stuck m.region.offset k m.mps.inputDim)
    (hcut : 0 < m.region.cutoff) (hv : ¬ Vanishing svd m.mps.bondDim m.region.cutoff (m.region.listAt m.region.offset))
    (hz : ∀ u ∈ m.region.listAt m.region.offset, ¬ LoneZero u) (x e : Tensor ℝ) (he : Embedded m.mps x e) (g : Option ℕ)
    (hg : BatchKnown k (e.shape.getD 0 0) g) :
    ∃ y y', (m.forward svd pop x g).1 = .ok y ∧ (m.forward svd pop x g).2.1.region.offset = 1 - m.region.offset ∧
      (({ m with region := { m.region with threshold := m.region.counter + 1 } } : AdMps).forward svd pop x g).1 = .ok y' ∧
      y.shape = [e.shape.getD 0 0, m.mps.outputDim] ∧ y'.shape = y.shape ∧
      ∀ b < e.shape.getD 0 0, ∀ o < m.mps.outputDim, |y.get [b, o] - y'.get [b, o]| ≤
        (if m.mps.periodic then Real.sqrt m.mps.bondDim else 1) * (∏ i ∈ Finset.range m.mps.inputDim, featureNorm m.mps.featureDim e b i) *
          productChange ((m.region.listAt m.region.offset).flatMap (moduleNorms m.mps.bondDim m.mps.featureDim m.mps.outputDim))
            ((m.region.listAt m.region.offset).flatMap (moduleDrops svd m.mps.bondDim m.region.cutoff)) := by
  obtain ⟨ms', t1, t2⟩ := C64_truncation svd hsvd pop hpop k m h hD hdue hstuck hcut hv hz
  obtain ⟨y, y2, y1, yo, w1, w2⟩ := t2 x e he g hg
  have hoff := h.offset
  have hsh := listAt_shape k m h _ hoff
  have hesh := embedded_shape _ x e he
  have hn : 1 ≤ m.mps.inputDim := by have := h.size; omega
  have hg' : g = some (e.shape.getD 0 0) ∨ ¬ (k = 0 ∧ m.region.offset = 1) := hg.elim (fun h => Or.inr (by omega)) Or.inl
  -- the modules cut down have the same shapes
  have hsh' : MergedShape m.mps.bondDim m.mps.featureDim m.mps.outputDim m.region.offset k m.mps.inputDim ms' := by
    unfold MergedShape at hsh ⊢
    generalize m.region.listAt m.region.offset = ms at hsh t1
    generalize layout m.region.offset k m.mps.inputDim = ks at hsh
    clear w1 t2
    induction t1 generalizing ks with
    | nil => cases hsh; exact .nil
    | @cons u u' us us' c1 _ ih =>
      cases hsh with
      | @cons κ _ ks _ s1 s2 =>
        refine .cons ?_ (ih ks s2)
        cases κ <;> cases u <;> first | exact s1.elim | skip
        · simp only [Truncated] at c1; subst c1; exact s1
        · cases u' <;> simp only [Truncated] at c1 <;> first | (cases c1; done) | skip
          exact c1.1.trans s1
        · simp only [Truncated] at c1; subst c1; exact s1
        · rename_i t lb
          cases lb <;> cases u' <;> simp only [Truncated] at c1 <;> first | (cases c1; done) | skip
          all_goals
            rename_i t' lb'
            cases lb' <;> simp only [Truncated] at c1 <;> first | exact ⟨s1.1, c1.1.trans s1.2⟩ | simp at c1
  obtain ⟨z, gz, z1, z2, z3⟩ := merged_eval m.mps.bondDim m.mps.featureDim m.mps.outputDim m.region.offset k m.mps.inputDim (e.shape.getD 0 0) hoff h.label hn _ hsh
    m.mps.periodic m.mps.parallel (Or.inr hD) e hesh g hg'
  obtain ⟨z', gz', z1', z2', z3'⟩ := merged_eval m.mps.bondDim m.mps.featureDim m.mps.outputDim m.region.offset k m.mps.inputDim (e.shape.getD 0 0) hoff h.label hn _ hsh'
    m.mps.periodic m.mps.parallel (Or.inr hD) e hesh g hg'
  have hq : (({ m with region := { m.region with threshold := m.region.counter + 1 } } : AdMps).forward svd pop x g).1 = .ok z := by
    have fu := forward_undue svd pop ({ m with region := { m.region with threshold := m.region.counter + 1 } } : AdMps) (Nat.lt_succ_self _) x e he g
    rw [fu]
    have : AdRegion.active { m.region with threshold := m.region.counter + 1 } = m.region.listAt m.region.offset := by
      unfold AdRegion.active
      rw [h.stray]
      rfl
    rw [this, z1]
  have hy2 : y2 = z' := by
    have hwo : (withActive m ms').region.counter = m.region.counter := by
      unfold withActive AdRegion.setList
      split <;> rfl
    rw [forward_undue svd pop (withActive m ms') (by rw [hwo]; exact Nat.lt_succ_self _) x e he g] at w1
    have : (withActive m ms').region.active = ms' := by
      have h1 : (withActive m ms').region.stray = none := by
        unfold withActive AdRegion.setList
        split <;> exact h.stray
      have h2 : (withActive m ms').region.offset = m.region.offset := by
        unfold withActive AdRegion.setList
        split <;> rfl
      unfold AdRegion.active
      rw [h1, h2]
      exact listAt_set m.region m.region.offset ms'
    rw [this] at w1
    have hmp : (withActive m ms').mps = m.mps := rfl
    rw [hmp, z1'] at w1
    simpa using w1.symm
  subst hy2
  have hys : y.shape = [e.shape.getD 0 0, m.mps.outputDim] := w2.1.trans z2'
  refine ⟨y, z, y1, yo, hq, hys, z2.trans hys.symm, ?_⟩
  intro b hb o ho
  have hyb : y.get [b, o] = y2.get [b, o] := w2.2 [b, o] (by rw [hys]; simpa [InRange, ho] using hb)
  rw [hyb]
  obtain ⟨M, M1, M2⟩ := z3 b hb o ho
  obtain ⟨M', M1', M2'⟩ := z3' b hb o ho
  have near := nearP_chain svd m.mps.bondDim m.mps.featureDim m.mps.outputDim m.region.cutoff _ _ ms' hsh t1 e b o 0 ho
  rw [(merged_facts _ _ _ _ _ _ hoff h.label hn _ hsh).2.2.2.1] at near
  simp only [zero_add] at near
  obtain ⟨d1, d2, -⟩ := nearP_size near
  have toM : ∀ (l : List (Mat ℝ)) (M : Mat ℝ), (∀ A ∈ l, A.r = m.mps.bondDim ∧ A.c = m.mps.bondDim) → orderedProd l = some M →
      toMatrix m.mps.bondDim m.mps.bondDim M = (l.map (toMatrix m.mps.bondDim m.mps.bondDim)).prod := by
    intro l M hl hM
    cases l with
    | nil => simp [orderedProd] at hM
    | cons A l =>
      simp only [orderedProd, Option.some.injEq] at hM
      rw [← hM]
      exact toMatrix_matProd _ A l fun a ha => (hl a ha).2
  have hne : chainMats m.mps.bondDim m.mps.featureDim e b o 0 (m.region.listAt m.region.offset) ≠ [] := by
    intro hnil
    rw [hnil] at M1
    simp [orderedProd] at M1
  have bound := nearP_prod near hne
  rw [← toM _ M d1 M1, ← toM _ M' d2 M1'] at bound
  rw [M2, M2']
  cases m.mps.periodic with
  | true =>
    simp only [if_true]
    have e1 : ∀ M : Mat ℝ, ∑ i ∈ Finset.range m.mps.bondDim, M.e i i = ∑ i, toMatrix m.mps.bondDim m.mps.bondDim M i i := by
      intro M
      rw [← Fin.sum_univ_eq_sum_range (fun i => M.e i i)]
      rfl
    rw [e1, e1, ← Finset.sum_sub_distrib, mul_assoc]
    refine (trace_le_frob _ (toMatrix m.mps.bondDim m.mps.bondDim M' - toMatrix m.mps.bondDim m.mps.bondDim M)).trans ?_
    exact mul_le_mul_of_nonneg_left bound (Real.sqrt_nonneg _)
  | false =>
    simp only [Bool.false_eq_true, if_false, one_mul]
    exact (entry_le_frob _ (toMatrix m.mps.bondDim m.mps.bondDim M' - toMatrix m.mps.bondDim m.mps.bondDim M) ⟨0, hD⟩ ⟨0, hD⟩).trans bound

theorem zip_mono : ∀ (N δ : List ℝ) (c : ℝ), (∀ a ∈ N, 0 ≤ a) → (∀ d ∈ δ, 0 ≤ d ∧ d ≤ c) → N.length = δ.length →
    0 ≤ (List.zipWith (· + ·) N δ).prod ∧ (List.zipWith (· + ·) N δ).prod ≤ (List.zipWith (· + ·) N (N.map fun _ => c)).prod
  | [], [], _, _, _, _ => by simp
  | [], _ :: _, _, _, _, h => by simp at h
  | _ :: _, [], _, _, _, h => by simp at h
  | a :: N, d :: δ, c, hN, hδ, hl => by
    obtain ⟨h0, h1⟩ := zip_mono N δ c (fun a ha => hN a (List.mem_cons_of_mem _ ha)) (fun d hd => hδ d (List.mem_cons_of_mem _ hd)) (by simpa using hl)
    have ha := hN a List.mem_cons_self
    obtain ⟨hd0, hd1⟩ := hδ d List.mem_cons_self
    simp only [List.zipWith_cons_cons, List.map_cons, List.prod_cons]
    exact ⟨mul_nonneg (by linarith) h0, mul_le_mul (by linarith) h1 h0 (by linarith)⟩

theorem dropped_le (D : ℕ) (cutoff : ℝ) (hcut : 0 < cutoff) (s : List ℝ) (h : s.Pairwise (fun a b => b ≤ a)) (h0 : ∀ x ∈ s, 0 ≤ x)
    (hr : ∀ k, D ≤ k → s.getD k 0 = 0) : droppedNorm D cutoff s ≤ cutoff * Real.sqrt D := by
  unfold droppedNorm
  rw [show cutoff * Real.sqrt D = Real.sqrt (cutoff ^ 2 * D) by rw [Real.sqrt_mul (sq_nonneg _), Real.sqrt_sq hcut.le]]
  refine Real.sqrt_le_sqrt ?_
  have hnn : ∀ k, 0 ≤ s.getD k 0 := by
    intro k
    by_cases hk : k < s.length
    · rw [List.getD_eq_getElem _ _ hk]; exact h0 _ (List.getElem_mem _)
    · rw [List.getD_eq_default _ _ (by omega)]
  have hk : ∀ k ∈ Finset.Ico (kept D cutoff s) s.length, s.getD k 0 ^ 2 ≤ if k < D then cutoff ^ 2 else 0 := by
    intro k hk
    rw [Finset.mem_Ico] at hk
    by_cases hD : k < D
    · rw [if_pos hD]
      have : s.getD k 0 < cutoff := by
        by_contra hc
        have := kept_iff D cutoff s h h0 k hD (not_lt.1 hc)
        omega
      exact pow_le_pow_left₀ (hnn k) this.le 2
    · rw [if_neg hD, hr k (by omega)]
      simp
  refine (Finset.sum_le_sum hk).trans ?_
  rw [← Finset.sum_filter, Finset.sum_const, nsmul_eq_mul, mul_comm]
  refine mul_le_mul_of_nonneg_left ?_ (sq_nonneg _)
  have : ((Finset.Ico (kept D cutoff s) s.length).filter (fun k => k < D)).card ≤ (Finset.range D).card :=
    Finset.card_le_card fun k hk => by
      rw [Finset.mem_filter] at hk
      exact Finset.mem_range.2 hk.2
  rw [Finset.card_range] at this
  exact_mod_cast this

theorem drops_le (svd : Mat ℝ → SVD) (hsvd : ∀ A, IsSVD A (svd A)) (D : ℕ) (cutoff : ℝ) (hcut : 0 < cutoff) (u : Module ℝ)
    (hr : ∀ sv, some sv ∈ bondPlan svd u → ∀ k, D ≤ k → sv.getD k 0 = 0) :
    ∀ d ∈ moduleDrops svd D cutoff u, 0 ≤ d ∧ d ≤ cutoff * Real.sqrt D := by
  have hc : 0 ≤ cutoff * Real.sqrt D := mul_nonneg hcut.le (Real.sqrt_nonneg _)
  have one : ∀ A, some (svd A).s ∈ bondPlan svd u → 0 ≤ droppedNorm D cutoff (svd A).s ∧ droppedNorm D cutoff (svd A).s ≤ cutoff * Real.sqrt D :=
    fun A hA => ⟨Real.sqrt_nonneg _, dropped_le D cutoff hcut _ (hsvd A).sorted (hsvd A).nonneg (hr _ hA)⟩
  intro d hd
  cases u with
  | inputRegion t b => simp [moduleDrops] at hd
  | inputSite t => simp [moduleDrops] at hd; subst hd; exact ⟨le_rfl, hc⟩
  | outputSite t => simp [moduleDrops] at hd; subst hd; exact ⟨le_rfl, hc⟩
  | mergedInput t =>
    simp only [moduleDrops, List.mem_map, List.mem_range] at hd
    obtain ⟨s, hs, rfl⟩ := hd
    refine one _ ?_
    simp only [bondPlan, List.mem_flatMap, List.mem_range]
    exact ⟨s, hs, List.mem_cons_self⟩
  | mergedOutput t lb =>
    cases lb
    · simp only [moduleDrops, List.mem_cons, List.not_mem_nil, or_false] at hd
      subst hd
      exact one _ (by simp only [bondPlan]; exact List.mem_cons_self)
    · simp only [moduleDrops, List.mem_cons, List.not_mem_nil, or_false] at hd
      subst hd
      exact one _ (by simp only [bondPlan]; exact List.mem_cons_self)

theorem norms_nonneg (D F O : ℕ) (u : Module ℝ) : ∀ a ∈ moduleNorms D F O u, 0 ≤ a := by
  intro a ha
  cases u <;> simp only [moduleNorms, List.mem_map, List.mem_cons, List.not_mem_nil, or_false] at ha
  all_goals first | (subst ha; exact Real.sqrt_nonneg _) | (obtain ⟨s, _, rfl⟩ := ha; exact Real.sqrt_nonneg _)

theorem norms_drops (svd : Mat ℝ → SVD) (D F O : ℕ) (cutoff : ℝ) (u : Module ℝ) : (moduleNorms D F O u).length = (moduleDrops svd D cutoff u).length := by
  cases u with
  | mergedOutput t lb => cases lb <;> simp [moduleNorms, moduleDrops]
  | _ => simp [moduleNorms, moduleDrops]

/-- C90: If the merged cores have no singular values beyond the bond dimension (for example because they are products of two cores), so that only singular values below the cutoff are dropped,
the change is at most that of changing every core by `cutoff * √D`: it goes to zero with the cutoff. -/
theorem C90_cutoff (svd : Mat ℝ → SVD) (hsvd : ∀ A, IsSVD A (svd A)) (pop : List Char → Char) (hpop : ∀ x xs, pop (x :: xs) ∈ x :: xs)
    (k : ℕ) (m : AdMps) (h : IsAdMps k m) (hD : 1 ≤ m.mps.bondDim) (hdue : m.region.threshold ≤ m.region.counter)
    (hstuck : ¬ Stuck m.region.offset k m.mps.inputDim)
    (hcut : 0 < m.region.cutoff) (hv : ¬ Vanishing svd m.mps.bondDim m.region.cutoff (m.region.listAt m.region.offset))
    (hz : ∀ u ∈ m.region.listAt m.region.offset, ¬ LoneZero u)
    (hr : ∀ u ∈ m.region.listAt m.region.offset, ∀ sv, some sv ∈ bondPlan svd u → ∀ j, m.mps.bondDim ≤ j → sv.getD j 0 = 0)
    (x e : Tensor ℝ) (he : Embedded m.mps x e) (g : Option ℕ) (hg : BatchKnown k (e.shape.getD 0 0) g) :
    ∃ y y', (m.forward svd pop x g).1 = .ok y ∧ (m.forward svd pop x g).2.1.region.offset = 1 - m.region.offset ∧
      (({ m with region := { m.region with threshold := m.region.counter + 1 } } : AdMps).forward svd pop x g).1 = .ok y' ∧
      y.shape = [e.shape.getD 0 0, m.mps.outputDim] ∧ y'.shape = y.shape ∧
      ∀ b < e.shape.getD 0 0, ∀ o < m.mps.outputDim, |y.get [b, o] - y'.get [b, o]| ≤
        (if m.mps.periodic then Real.sqrt m.mps.bondDim else 1) * (∏ i ∈ Finset.range m.mps.inputDim, featureNorm m.mps.featureDim e b i) *
          productChange ((m.region.listAt m.region.offset).flatMap (moduleNorms m.mps.bondDim m.mps.featureDim m.mps.outputDim))
            (((m.region.listAt m.region.offset).flatMap (moduleNorms m.mps.bondDim m.mps.featureDim m.mps.outputDim)).map
              fun _ => m.region.cutoff * Real.sqrt m.mps.bondDim) := by
  obtain ⟨y, y', h1, h2, h3, h4, h5, h6⟩ := C90_change svd hsvd pop hpop k m h hD hdue hstuck hcut hv hz x e he g hg
  refine ⟨y, y', h1, h2, h3, h4, h5, fun b hb o ho => (h6 b hb o ho).trans ?_⟩
  refine mul_le_mul_of_nonneg_left ?_ (mul_nonneg (by split <;> first | exact Real.sqrt_nonneg _ | exact zero_le_one)
    (Finset.prod_nonneg fun i _ => featureNorm_nonneg ..))
  unfold productChange
  refine sub_le_sub_right (zip_mono _ _ _ ?_ ?_ ?_).2 _
  · intro a ha
    obtain ⟨u, _, ha⟩ := List.mem_flatMap.1 ha
    exact norms_nonneg _ _ _ u a ha
  · intro d hd
    obtain ⟨u, hu, hd⟩ := List.mem_flatMap.1 hd
    exact drops_le svd hsvd _ _ hcut u (hr u hu) d hd
  · rw [List.length_flatMap, List.length_flatMap]
    congr 1
    exact List.map_congr_left fun u _ => norms_drops svd _ _ _ _ u

/-- The hypotheses of C90_change are met by a new model (label_site 1, input_dim 4, bond_dim 1, threshold 0) trained so that its merged cores are not products of two cores. -/
example (d : Draws) (x : Tensor ℝ) (hx : x.shape = [3, 4, 2]) : ∃ m m', AdMps.init d exAdArgs (1 / 10) 0 = .ok m ∧ Trained m m' ∧
    ∃ y y', (m'.forward someSvd popHead x none).1 = .ok y ∧ (({ m' with region := { m'.region with threshold := m'.region.counter + 1 } } : AdMps).forward someSvd popHead x none).1 = .ok y' ∧
      ∀ b < 3, ∀ o < 2, |y.get [b, o] - y'.get [b, o]| ≤ (∏ i ∈ Finset.range 4, featureNorm 2 x b i) *
          productChange (exTrained.flatMap (moduleNorms 1 2 2)) (exTrained.flatMap (moduleDrops someSvd 1 (1 / 10))) := by
  obtain ⟨m, m', h1, h2, h3, -, h5, h6, h7, h8, h9, h10, h11, h12, h13, h14, h15, h16⟩ := exTrained_meets d
  have hE := h16 x hx
  obtain ⟨y, y', k1, -, k3, -, -, k6⟩ := C90_change someSvd someSvd_spec popHead popHead_mem 1 m' h3 (by omega) h9 h10 (by rw [h11]; norm_num) h13 h14 x x hE none (Or.inl le_rfl)
  refine ⟨m, m', h1, h2, y, y', k1, k3, ?_⟩
  rw [h5, h6, h7, h8, h11, h12, h15] at k6
  simpa [hx] using k6

end TorchMPS
