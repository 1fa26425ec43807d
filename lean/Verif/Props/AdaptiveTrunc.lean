import Verif.Props.AdaptiveMore
/-
C64 for flips that drop singular values other than zero: what the model computes after the flip.
-/
namespace TorchMPS
open Spec

/-- the model with `ms` in place of the merged cores it computes with, and no flip due -/
def withActive (m : AdMps) (ms : List (Module ℝ)) : AdMps :=
  { m with region := { m.region.setList m.region.offset ms with threshold := m.region.counter + 1 } }

/-- C64: a flip replaces every merged core by its cut down to the singular values kept (`Truncated`): the closest pair of cores with that
bond dimension, at a squared distance equal to the sum of the squares of the dropped singular values. For every input, the call that
flips returns what the model with the cores cut down in this way, and no flip due, would return. -/
theorem C64_truncation (svd : Mat ℝ → SVD) (hsvd : ∀ A, IsSVD A (svd A)) (pop : List Char → Char) (hpop : ∀ x xs, pop (x :: xs) ∈ x :: xs)
    (k : ℕ) (m : AdMps) (h : IsAdMps k m) (hD : 1 ≤ m.mps.bondDim) (hdue : m.region.threshold ≤ m.region.counter)
    (hstuck : ¬ Stuck m.region.offset k m.mps.inputDim)
    (hcut : 0 < m.region.cutoff) (hv : ¬ Vanishing svd m.mps.bondDim m.region.cutoff (m.region.listAt m.region.offset))
    (hz : ∀ u ∈ m.region.listAt m.region.offset, ¬ LoneZero u) :
    ∃ ms', List.Forall₂ (Truncated svd m.mps.bondDim m.mps.featureDim m.mps.outputDim m.region.cutoff) (m.region.listAt m.region.offset) ms' ∧
      ∀ (x e : Tensor ℝ), Embedded m.mps x e → ∀ g : Option ℕ, BatchKnown k (e.shape.getD 0 0) g →
        ∃ y y', (m.forward svd pop x g).1 = .ok y ∧ (m.forward svd pop x g).2.1.region.offset = 1 - m.region.offset ∧
          ((withActive m ms').forward svd pop x g).1 = .ok y' ∧ y.Eqv y' := by
  have hoff := h.offset
  rcases flip_cases svd hsvd pop hpop m.mps.bondDim m.mps.featureDim m.mps.outputDim k m.mps.inputDim hD h.label h.size m.region hoff hstuck
      (listAt_shape k m h _ hoff) (listAt_shape k m h _ (by omega)) with ⟨_, z1⟩ | ⟨_, _, z2⟩ | ⟨l, bs, a, f1, f2, fb, f3, f4, f5, f6, ms', a0, q1, q2, q3⟩
  · exact absurd z1 hv
  · obtain ⟨u, u1, u2⟩ := z2 hcut
    exact absurd u2 (hz u u1)
  · refine ⟨ms', q1, ?_⟩
    intro x e he g hg
    rcases flip_call svd hsvd pop hpop k m h hD hdue hstuck x e he g with (⟨_, z1⟩ | ⟨_, _, z2⟩) | ⟨l1, bs1, a1, c1, cb, c2, c3, c4, c5, c6, c7⟩
    · exact absurd z1 hv
    · obtain ⟨u, u1, u2⟩ := z2 hcut
      exact absurd u2 (hz u u1)
    · obtain ⟨y, g', y1, _, _⟩ := c6 (Or.inl hg)
      have hact : AdRegion.active (afterFlip m (e.shape.getD 0 0) l bs).region = l := by
        unfold AdRegion.active
        exact listAt_set m.region (1 - m.region.offset) l
      obtain ⟨y2, g2, v1, v2, v3⟩ := merged_value m.mps.bondDim m.mps.featureDim m.mps.outputDim (1 - m.region.offset) k m.mps.inputDim _ (by omega) h.label
        (by have := h.size; omega) a l f2 m.mps.periodic m.mps.parallel (Or.inr hD) e (embedded_shape _ x e he) g
        (hg.elim (fun h => Or.inr (by omega)) Or.inl)
      have hy : y = y2 := by
        have y1' := y1
        unfold AdMps.forward at y1'
        rw [ad_forward_eq svd pop m x e he] at y1'
        simp only [AdRegion.maybeFlip] at y1'
        rw [if_pos hdue, f1] at y1'
        simp only [afterFlip] at hact
        simp only at y1'
        rw [hact, v1] at y1'
        simp only at y1'
        split at y1'
        · simpa using (congrArg Prod.fst y1').symm
        · simp at y1'
      subst hy
      obtain ⟨y', w1, w2, w3⟩ := C59_forward svd pop k a0 (withActive m ms')
        (by
          have hw : ∀ p ≤ 1, MergedShape m.mps.bondDim m.mps.featureDim m.mps.outputDim p k m.mps.inputDim
              ((withActive m ms').region.listAt p) := by
            intro p hp
            have h1 : p = m.region.offset ∨ p = 1 - m.region.offset := by omega
            rcases h1 with rfl | rfl
            · have : (withActive m ms').region.listAt m.region.offset = ms' := listAt_set m.region m.region.offset ms'
              rw [this]
              exact merged_shape q2
            · have : (withActive m ms').region.listAt (1 - m.region.offset) = m.region.listAt (1 - m.region.offset) := by
                have h01 : m.region.offset = 0 ∨ m.region.offset = 1 := by omega
                unfold withActive AdRegion.setList AdRegion.listAt
                rcases h01 with h0 | h0 <;> simp [h0]
              rw [this]
              exact listAt_shape k m h _ (by omega)
          exact ⟨h.size, h.label, (by show (m.region.setList m.region.offset ms').offset ≤ 1; unfold AdRegion.setList; split <;> exact hoff),
            (by show (m.region.setList m.region.offset ms').stray = none; unfold AdRegion.setList; split <;> exact h.stray),
            hw 0 (by omega), hw 1 le_rfl, h.bonds, h.svs⟩)
        (by
          have ho : (withActive m ms').region.offset = m.region.offset := by
            show (m.region.setList m.region.offset ms').offset = _
            unfold AdRegion.setList
            split <;> rfl
          unfold HoldsCores
          rw [ho]
          have : (withActive m ms').region.listAt m.region.offset = ms' := listAt_set m.region m.region.offset ms'
          rw [this]
          exact q2)
        (by
          show (m.region.setList m.region.offset ms').counter < m.region.counter + 1
          unfold AdRegion.setList
          split <;> exact Nat.lt_succ_self _)
        (Or.inr hD) x e he g (Or.inl hg)
      refine ⟨y, y', by rw [y1], by rw [y1]; rfl, w1, by rw [v2, w2]; rfl, ?_⟩
      intro idx hidx
      rw [v2] at hidx
      match idx, hidx with
      | [b, o], hidx =>
        simp at hidx
        rw [v3 b hidx.1 o hidx.2, w3 b hidx.1 o hidx.2]
        exact q3 _ _ _ _
      | [], hidx => simp at hidx
      | [_], hidx => simp at hidx
      | _ :: _ :: _ :: _, hidx => simp at hidx

/-! ### a flip that drops a singular value -/

theorem sv_top (A : Mat ℝ) (d : SVD) (h : IsSVD A d) (hr : 1 ≤ A.r) (hc : 1 ≤ A.c) : A.e 0 0 ^ 2 ≤ min A.r A.c * d.s.getD 0 0 ^ 2 := by
  have h1 := sv_norm A d h
  have h3 : A.e 0 0 ^ 2 ≤ ∑ i ∈ Finset.range A.r, ∑ j ∈ Finset.range A.c, A.e i j ^ 2 :=
    (Finset.single_le_sum (f := fun j => A.e 0 j ^ 2) (fun j _ => sq_nonneg _) (Finset.mem_range.2 hc)).trans
      (Finset.single_le_sum (f := fun i => ∑ j ∈ Finset.range A.c, A.e i j ^ 2) (fun i _ => Finset.sum_nonneg fun j _ => sq_nonneg _)
        (Finset.mem_range.2 hr))
  refine h3.trans (h1.le.trans ?_)
  have : ∀ k ∈ Finset.range (min A.r A.c), d.s.getD k 0 ^ 2 ≤ d.s.getD 0 0 ^ 2 := by
    intro k _
    have h0 : 0 ≤ d.s.getD k 0 := by
      by_cases hl : k < d.s.length
      · rw [List.getD_eq_getElem _ _ hl]
        exact h.nonneg _ (List.getElem_mem _)
      · rw [List.getD_eq_default _ _ (by omega)]
    have := getD_antitone d.s h.sorted h.nonneg 0 k (Nat.zero_le _)
    gcongr
  refine (Finset.sum_le_sum this).trans ?_
  simp

/-- two by two identity matrix as a tensor -/
def exEye (sh : Shape) (i j : ℕ) : Tensor ℝ := ⟨sh, fun idx => if idx.getD i 0 = idx.getD j 0 then 1 else 0⟩

/-- three merged cores for four pixels and two classes, bond dimension 1: a merged output core and a merged pair of cores which do not split into
two cores with a bond of dimension 1, and a lone core -/
def exTrained : List (Module ℝ) :=
  [.mergedOutput (exEye [2, 1, 1, 2] 0 3) false, .mergedInput (exEye [1, 1, 1, 2, 2] 3 4), .inputSite ⟨[1, 1, 2], fun _ => 1⟩]

theorem exTrained_sv (svd : Mat ℝ → SVD) (hsvd : ∀ A, IsSVD A (svd A)) (u : Module ℝ) (hu : u ∈ exTrained) (sv : List ℝ)
    (hsv : some sv ∈ bondPlan svd u) : ∃ A : Mat ℝ, sv = (svd A).s ∧ A.r = 2 ∧ A.c = 2 ∧ ∀ i < 2, ∀ j < 2, A.e i j = if i = j then 1 else 0 := by
  simp only [exTrained, List.mem_cons, List.not_mem_nil, or_false] at hu
  have h01 : ∀ i < 2, i = 0 ∨ i = 1 := by intro i hi; omega
  rcases hu with rfl | rfl | rfl
  · simp only [bondPlan, List.mem_cons, List.not_mem_nil, or_false, Option.some.injEq, reduceCtorEq, false_or] at hsv
    subst hsv
    refine ⟨_, rfl, ?_, ?_, ?_⟩
    · simp [exEye, flattening, Mat.of, Env.ofOut, Env.set]
    · simp [exEye, flattening, Mat.of, Env.ofOut, Env.set]
    · intro i hi j hj
      rcases h01 i hi with rfl | rfl <;> rcases h01 j hj with rfl | rfl <;>
        simp [exEye, flattening, Mat.of, Env.ofOut, Env.set, unravel]
  · simp only [bondPlan, exEye, List.getD_cons_zero, List.mem_flatMap, List.mem_range, List.mem_cons, List.not_mem_nil, or_false, Option.some.injEq,
      reduceCtorEq] at hsv
    obtain ⟨s, hs1, rfl⟩ := hsv
    have hs0 : s = 0 := by omega
    subst hs0
    refine ⟨_, rfl, ?_, ?_, ?_⟩
    · simp [Tensor.select, flattening, Mat.of, Env.ofOut, Env.set]
    · simp [Tensor.select, flattening, Mat.of, Env.ofOut, Env.set]
    · intro i hi j hj
      rcases h01 i hi with rfl | rfl <;> rcases h01 j hj with rfl | rfl <;>
        simp [Tensor.select, flattening, Mat.of, Env.ofOut, Env.set, unravel]
  · simp [bondPlan] at hsv

theorem exTrained_shape : MergedShape 1 2 2 0 1 4 exTrained := by
  unfold MergedShape exTrained
  have : layout 0 1 4 = [.mout 0 false, .pairs 1 1, .site 3] := by unfold layout; simp [leftKinds, rightKinds]
  rw [this]
  exact .cons ⟨rfl, rfl⟩ (.cons rfl (.cons rfl .nil))

/-- a new model (label_site 1, input_dim 4, bond_dim 1, threshold 0) whose parameters have been changed
so that its merged cores are not products of two cores -/
theorem exTrained_meets (d : Draws) : ∃ m m', AdMps.init d exAdArgs (1 / 10) 0 = .ok m ∧ Trained m m' ∧ IsAdMps 1 m' ∧
    ¬ Lossless someSvd m'.mps.bondDim m'.region.cutoff (m'.region.listAt m'.region.offset) ∧
    m'.mps.bondDim = 1 ∧ m'.mps.featureDim = 2 ∧ m'.mps.outputDim = 2 ∧ m'.mps.inputDim = 4 ∧ m'.region.threshold ≤ m'.region.counter ∧
    ¬ Stuck m'.region.offset 1 m'.mps.inputDim ∧ m'.region.cutoff = 1 / 10 ∧ m'.region.listAt m'.region.offset = exTrained ∧
    ¬ Vanishing someSvd m'.mps.bondDim m'.region.cutoff (m'.region.listAt m'.region.offset) ∧
    (∀ u ∈ m'.region.listAt m'.region.offset, ¬ LoneZero u) ∧ m'.mps.periodic = false ∧ ∀ x : Tensor ℝ, x.shape = [3, 4, 2] → Embedded m'.mps x x := by
  obtain ⟨m, h1, h2, h3, h4, h5, h6, h7, h8, h9, h10, h11, h12, h13, h14, h15, _⟩ :=
    C59_construction d exAdArgs (1 / 10) 0 1 (by decide) (by decide) (Or.inl rfl) none rfl
  have hl0 : m.region.list0.length = 3 := by
    rw [← h15.length_eq]
    unfold layout
    simp [leftKinds, rightKinds, exAdArgs]
  have hsh : MergedShape m.mps.bondDim m.mps.featureDim m.mps.outputDim 0 1 m.mps.inputDim exTrained := by
    rw [h5, h6, h4, h3]
    exact exTrained_shape
  have hret : List.Forall₂ Retuned m.region.list0 exTrained := by
    have hch : MergedChain 1 2 2 0 1 4 (initCores d 1 2 0) m.region.list0 := h15
    unfold MergedChain at hch
    have : layout 0 1 4 = [.mout 0 false, .pairs 1 1, .site 3] := by unfold layout; simp [leftKinds, rightKinds]
    rw [this] at hch
    generalize m.region.list0 = l at hch
    match l, hch with
    | _, .cons (b := a1) ⟨p1, _⟩ (.cons (b := a2) ⟨p2, _⟩ (.cons (b := a3) ⟨p3, _⟩ .nil)) =>
      cases a1 <;> first | exact p1.elim | skip
      cases a2 <;> first | exact p2.elim | skip
      cases a3 <;> first | exact p3.elim | skip
      obtain ⟨rfl, p1⟩ := p1
      exact .cons ⟨exEye [2, 1, 1, 2] 0 3, p1.symm, rfl⟩ (.cons ⟨exEye [1, 1, 1, 2, 2] 3 4, (show _ = _ from p2).symm, rfl⟩
        (.cons ⟨⟨[1, 1, 2], fun _ => 1⟩, (show _ = _ from p3).symm, rfl⟩ .nil))
  have hself : List.Forall₂ Retuned m.region.list1 m.region.list1 := by
    rw [List.forall₂_same]
    intro u _
    refine ⟨u.tensor, rfl, ?_⟩
    cases u <;> rfl
  have hact : AdRegion.listAt { m.region with list0 := exTrained, list1 := m.region.list1 } m.region.offset = exTrained := by
    unfold AdRegion.listAt
    rw [h11]
    rfl
  refine ⟨m, { m with region := { m.region with list0 := exTrained, list1 := m.region.list1 } }, h1, ⟨_, _, rfl, hret, hself⟩,
    ⟨h2.size, h2.label, h2.offset, h2.stray, hsh, h2.list1, h2.bonds, h2.svs⟩, ?_, h5, h6, h4, h3, by rw [h13, h12], by rw [h3]; unfold Stuck; rw [h11]; decide, h14, hact, ?_, ?_, ?_, ?_⟩
  · intro hlos
    have hlos : Lossless someSvd m.mps.bondDim m.region.cutoff
        (AdRegion.listAt { m.region with list0 := exTrained, list1 := m.region.list1 } m.region.offset) := hlos
    rw [hact, h5] at hlos
    have hmem : some (outRightSvs someSvd (exEye [2, 1, 1, 2] 0 3)) ∈ bondPlan someSvd (.mergedOutput (exEye [2, 1, 1, 2] 0 3) false) := by simp [bondPlan]
    obtain ⟨A, hA, hr, hc, he⟩ := exTrained_sv someSvd someSvd_spec (.mergedOutput (exEye [2, 1, 1, 2] 0 3) false) (by simp [exTrained]) _ hmem
    have h1' : (someSvd A).s.getD 1 0 = 0 := by
      rcases hlos _ (by simp [exTrained]) _ hmem 1 with ⟨hx, _⟩ | hx
      · have : (1 : ℕ) < 1 := hx
        omega
      · rw [← hA]; exact hx
    have hrec := (someSvd_spec A).recon
    rw [hr, hc] at hrec
    have r00 := hrec 0 (by omega) 0 (by omega)
    have r01 := hrec 0 (by omega) 1 (by omega)
    have r10 := hrec 1 (by omega) 0 (by omega)
    have r11 := hrec 1 (by omega) 1 (by omega)
    rw [he _ (by omega) _ (by omega)] at r00 r01 r10 r11
    simp only [Finset.sum_range_succ, Finset.sum_range_zero, zero_add, min_self, h1', mul_zero, zero_mul, add_zero, if_true] at r00 r01 r10 r11
    simp only [zero_ne_one, one_ne_zero, if_false] at r01 r10
    have : (1 : ℝ) = 0 := by
      linear_combination r00 + (someSvd A).U.e 0 0 * (someSvd A).s.getD 0 0 * (someSvd A).V.e 0 0 * r11 -
        (someSvd A).U.e 1 0 * (someSvd A).s.getD 0 0 * (someSvd A).V.e 0 0 * r01
    norm_num at this
  · change ¬ Vanishing someSvd m.mps.bondDim m.region.cutoff (AdRegion.listAt { m.region with list0 := exTrained, list1 := m.region.list1 } m.region.offset)
    rw [hact, h5, h14]
    rintro ⟨u, hu, sv, hsv, hx⟩
    obtain ⟨A, rfl, hr, hc, he⟩ := exTrained_sv someSvd someSvd_spec u hu sv hsv
    have h0 := hx 0 (by decide)
    have ht := sv_top A _ (someSvd_spec A) (by omega) (by omega)
    rw [he 0 (by omega) 0 (by omega), hr, hc] at ht
    have hnn : 0 ≤ (someSvd A).s.getD 0 0 := by
      by_cases hl : 0 < (someSvd A).s.length
      · rw [List.getD_eq_getElem _ _ hl]
        exact (someSvd_spec A).nonneg _ (List.getElem_mem _)
      · rw [List.getD_eq_default _ _ (by omega)]
    generalize (someSvd A).s.getD 0 0 = w at h0 ht hnn
    norm_num at ht
    nlinarith
  · change ∀ u ∈ AdRegion.listAt { m.region with list0 := exTrained, list1 := m.region.list1 } m.region.offset, ¬ LoneZero u
    rw [hact]
    intro u hu
    simp only [exTrained, List.mem_cons, List.not_mem_nil, or_false] at hu
    rcases hu with rfl | rfl | rfl
    · exact fun h => h
    · exact fun h => h
    · intro hz
      have := hz [0, 0, 0] (by simp [InRange])
      simp at this
  · exact h7
  · intro x hx
    refine ⟨x, by rw [h9]; rfl, ?_⟩
    unfold MPS.embedInput
    rw [assert_true _ (Or.inr (by simp [Tensor.ndim, hx])), assert_true _ (by simp [hx, h3, exAdArgs])]
    simp [Tensor.ndim, hx, h6, exAdArgs]
    rfl

/-- The hypotheses of C64_truncation are met by a new model (label_site 1, input_dim 4, bond_dim 1, threshold 0) whose parameters have been changed
so that its merged cores are not products of two cores; the flip is not lossless, the first call flips nevertheless and succeeds. -/
example (d : Draws) : ∃ m m', AdMps.init d exAdArgs (1 / 10) 0 = .ok m ∧ Trained m m' ∧ IsAdMps 1 m' ∧
    ¬ Lossless someSvd m'.mps.bondDim m'.region.cutoff (m'.region.listAt m'.region.offset) ∧
    ∃ ms', List.Forall₂ (Truncated someSvd 1 2 2 (1 / 10)) exTrained ms' ∧ ∀ (x : Tensor ℝ), x.shape = [3, 4, 2] → ∀ g : Option ℕ,
      ∃ y y', (m'.forward someSvd popHead x g).1 = .ok y ∧ (m'.forward someSvd popHead x g).2.1.region.offset = 1 - m'.region.offset ∧
        ((withActive m' ms').forward someSvd popHead x g).1 = .ok y' ∧ y.Eqv y' := by
  obtain ⟨m, m', h1, h2, h3, h4, h5, h6, h7, h8, h9, h10, h11, h12, h13, h14, h15, h16⟩ := exTrained_meets d
  obtain ⟨ms', k1, k2⟩ := C64_truncation someSvd someSvd_spec popHead popHead_mem 1 m' h3 (by omega) h9 h10 (by rw [h11]; norm_num) h13 h14
  rw [h5, h6, h7, h11, h12] at k1
  exact ⟨m, m', h1, h2, h3, h4, ms', k1, fun x hx g => k2 x x (h16 x hx) g (Or.inl le_rfl)⟩

end TorchMPS
