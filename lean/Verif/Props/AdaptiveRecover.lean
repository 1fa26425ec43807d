import Verif.Props.AdaptiveTrunc
/-
C78: adaptive models after a flip that failed.
-/
namespace TorchMPS
open Spec

/-- the model computing with the other one of its two lists of merged cores -/
def switched (m : AdMps) : AdMps := { m with region := { m.region with offset := 1 - m.region.offset } }

theorem switched_wf (k : ℕ) (m : AdMps) (h : IsAdMps k m) : IsAdMps k (switched m) :=
  ⟨h.size, h.label, Nat.sub_le _ _, h.stray, h.list0, h.list1, h.bonds, h.svs⟩

/-- When a flip is due, the modules left behind by a failed flip have no influence. -/
theorem stray_irrelevant (svd : Mat ℝ → SVD) (pop : List Char → Char) (m : AdMps) (hdue : m.region.threshold ≤ m.region.counter)
    (us : Option (List (Module ℝ))) (x : Tensor ℝ) (g : Option ℕ) :
    (AdMps.forward svd pop { m with region := { m.region with stray := us } } x g).1 = (m.forward svd pop x g).1 ∧
    ∀ y, (m.forward svd pop x g).1 = .ok y → AdMps.forward svd pop { m with region := { m.region with stray := us } } x g = m.forward svd pop x g := by
  unfold AdMps.forward
  simp only
  cases followPath m.mps.path x >>= m.mps.embedInput with
  | error er => exact ⟨rfl, fun y hy => by simp at hy⟩
  | ok e =>
    simp only [AdRegion.maybeFlip]
    rw [if_pos hdue, if_pos hdue]
    have hfl : (AdRegion.flip svd pop { m.region with stray := us }).1 = (m.region.flip svd pop).1 ∧
        ∀ b, (m.region.flip svd pop).1 = .ok b → AdRegion.flip svd pop { m.region with stray := us } = m.region.flip svd pop := by
      unfold AdRegion.flip
      have hl : ∀ p, AdRegion.listAt { m.region with stray := us } p = m.region.listAt p := fun p => rfl
      simp only [hl]
      cases unmergeList svd pop m.region.cutoff (m.region.listAt m.region.offset) with
      | error er => exact ⟨rfl, fun b hb => by simp at hb⟩
      | ok p => exact ⟨rfl, fun _ _ => rfl⟩
    obtain ⟨f1, f2⟩ := hfl
    rcases hA : AdRegion.flip svd pop m.region with ⟨a1, a2⟩
    rcases hB : AdRegion.flip svd pop { m.region with stray := us } with ⟨b1, b2⟩
    rw [hA, hB] at f1 f2
    simp only at f1 f2
    subst f1
    cases b1 with
    | error er => exact ⟨rfl, fun y hy => by simp at hy⟩
    | ok b =>
      have := f2 b rfl
      simp only [Prod.mk.injEq, true_and] at this
      subst this
      exact ⟨rfl, fun _ _ => rfl⟩

/-- C78: if two lone pixel cores meet on one side of the output core, the flip raises AssertionError (the other reasons for a flip to fail being
absent), and leaves a model behind which has switched to its other list of merged cores without having updated it: whatever is done next,
the next call has the outcome of the model computing with that list, and if it succeeds the state afterwards is the same too. The merged cores
trained since the last flip are lost. -/
theorem C78_reverts (svd : Mat ℝ → SVD) (hsvd : ∀ A, IsSVD A (svd A)) (pop : List Char → Char) (hpop : ∀ x xs, pop (x :: xs) ∈ x :: xs)
    (k : ℕ) (m : AdMps) (h : IsAdMps k m) (hD : 1 ≤ m.mps.bondDim) (hdue : m.region.threshold ≤ m.region.counter)
    (hstuck : Stuck m.region.offset k m.mps.inputDim)
    (hcut : 0 < m.region.cutoff) (hv : ¬ Vanishing svd m.mps.bondDim m.region.cutoff (m.region.listAt m.region.offset))
    (hz : ∀ u ∈ m.region.listAt m.region.offset, ¬ LoneZero u) (x e : Tensor ℝ) (he : Embedded m.mps x e) (g : Option ℕ) :
    ∃ m', m.forward svd pop x g = (.error .assertion, m', g) ∧ IsAdMps k (switched m) ∧
      ∀ (x' : Tensor ℝ) (g' : Option ℕ), (m'.forward svd pop x' g').1 = ((switched m).forward svd pop x' g').1 ∧
        ∀ y, (m'.forward svd pop x' g').1 = .ok y → m'.forward svd pop x' g' = (switched m).forward svd pop x' g' := by
  have hoff := h.offset
  rcases flip_stuck svd hsvd pop hpop m.mps.bondDim m.mps.featureDim m.mps.outputDim k m.mps.inputDim hD h.label m.region hoff hstuck
      (listAt_shape k m h _ hoff) (listAt_shape k m h _ (by omega)) with ⟨_, f2⟩ | ⟨_, f2⟩ | ⟨us, f1⟩
  · exact absurd f2 hv
  · obtain ⟨u, u1, u2⟩ := f2 hcut
    exact absurd u2 (hz u u1)
  · refine ⟨{ switched m with region := { (switched m).region with stray := some us } }, ?_, switched_wf k m h, ?_⟩
    · unfold AdMps.forward
      rw [ad_forward_eq svd pop m x e he]
      simp only [AdRegion.maybeFlip]
      rw [if_pos hdue, f1]
      rfl
    · intro x' g'
      obtain ⟨s1, s2⟩ := stray_irrelevant svd pop (switched m) hdue (some us) x' g'
      exact ⟨s1, fun y hy => s2 y (s1 ▸ hy)⟩

/-- C78: in particular, if the list of merged cores not in use holds the cores `a` (those the model was constructed with, or had at the last flip),
the call after the failed one succeeds and returns the value of the cores `a`: it does not depend on the cores in use before. -/
theorem C78_forgets (svd : Mat ℝ → SVD) (hsvd : ∀ A, IsSVD A (svd A)) (pop : List Char → Char) (hpop : ∀ x xs, pop (x :: xs) ∈ x :: xs)
    (k : ℕ) (m : AdMps) (h : IsAdMps k m) (hD : 1 ≤ m.mps.bondDim) (hdue : m.region.threshold ≤ m.region.counter)
    (hstuck : Stuck m.region.offset k m.mps.inputDim) (hother : ¬ Stuck (1 - m.region.offset) k m.mps.inputDim)
    (hcut : 0 < m.region.cutoff) (hv : ¬ Vanishing svd m.mps.bondDim m.region.cutoff (m.region.listAt m.region.offset))
    (hz : ∀ u ∈ m.region.listAt m.region.offset, ¬ LoneZero u)
    (a : Cores ℝ) (ha : HoldsCores k a (switched m))
    (hs : ∀ u ∈ m.region.listAt (1 - m.region.offset), ∀ sv, some sv ∈ bondPlan svd u →
      ∀ i < m.mps.bondDim, sv.getD i 0 = 0 ∨ m.region.cutoff ≤ sv.getD i 0)
    (hv' : ¬ Vanishing svd m.mps.bondDim m.region.cutoff (m.region.listAt (1 - m.region.offset)))
    (hz' : ∀ u ∈ m.region.listAt (1 - m.region.offset), ¬ LoneZero u)
    (x e : Tensor ℝ) (he : Embedded m.mps x e) (g : Option ℕ) :
    ∃ m', m.forward svd pop x g = (.error .assertion, m', g) ∧
      ∀ (x' e' : Tensor ℝ), Embedded m.mps x' e' → ∀ g' : Option ℕ, BatchKnown k (e'.shape.getD 0 0) g' →
        ∃ y, (m'.forward svd pop x' g').1 = .ok y ∧ y.shape = [e'.shape.getD 0 0, m.mps.outputDim] ∧
          ∀ b < e'.shape.getD 0 0, ∀ o < m.mps.outputDim,
            y.get [b, o] = chainValue m.mps.bondDim m.mps.featureDim k m.mps.inputDim m.mps.periodic a e' b o := by
  obtain ⟨m', r1, r2, r3⟩ := C78_reverts svd hsvd pop hpop k m h hD hdue hstuck hcut hv hz x e he g
  refine ⟨m', r1, ?_⟩
  intro x' e' he' g' hg'
  obtain ⟨y, y1, _, y3, y4⟩ := C64_untrained svd hsvd pop hpop k (switched m) r2 hD a ha hdue hother hcut hs hv' hz' x' e' he' g' hg'
  exact ⟨y, by rw [(r3 x' g').1]; exact y1, y3, y4⟩

/-! ### a model that forgets -/

/-- input_dim 6, output_dim 2, bond_dim 1, feature_dim 2, label_site 4 -/
def exForgetArgs : MpsArgs := ⟨6, 2, 1, 2, false, true, some 4, .none, 0, false⟩

/-- merged cores of the constant entries 2, 3 and 5 -/
def exConst : List (Module ℝ) :=
  [.mergedInput ⟨[2, 1, 1, 2, 2], fun _ => 2⟩, .mergedOutput ⟨[2, 1, 1, 2], fun _ => 3⟩ true, .inputSite ⟨[1, 1, 2], fun _ => 5⟩]

theorem exConst_sv (svd : Mat ℝ → SVD) (hsvd : ∀ A, IsSVD A (svd A)) (u : Module ℝ) (hu : u ∈ exConst) (sv : List ℝ)
    (hsv : some sv ∈ bondPlan svd u) : ∃ A : Mat ℝ, sv = (svd A).s ∧ A.r = 2 ∧ A.c = 2 ∧ 2 ≤ A.e 0 0 := by
  simp only [exConst, List.mem_cons, List.not_mem_nil, or_false] at hu
  rcases hu with rfl | rfl | rfl
  · simp only [bondPlan, List.getD_cons_zero, List.mem_flatMap, List.mem_range, List.mem_cons, List.not_mem_nil, or_false, Option.some.injEq,
      reduceCtorEq] at hsv
    obtain ⟨s, hs1, rfl⟩ := hsv
    refine ⟨_, rfl, ?_, ?_, ?_⟩
    · simp [Tensor.select, flattening, Mat.of, Env.ofOut, Env.set]
    · simp [Tensor.select, flattening, Mat.of, Env.ofOut, Env.set]
    · simp [Tensor.select, flattening, Mat.of, Env.ofOut, Env.set]
  · simp only [bondPlan, List.mem_cons, List.not_mem_nil, or_false, Option.some.injEq, reduceCtorEq] at hsv
    subst hsv
    refine ⟨_, rfl, ?_, ?_, ?_⟩
    · simp [flattening, Mat.of, Env.ofOut, Env.set]
    · simp [flattening, Mat.of, Env.ofOut, Env.set]
    · simp [flattening, Mat.of, Env.ofOut, Env.set]
      norm_num
  · simp [bondPlan] at hsv

/-- The hypotheses of C78_forgets (so those of C78_reverts) are met by a new model with label_site 4, input_dim 6 and threshold 0 whose parameters
have been changed to those of `exConst`: the first call raises AssertionError, the second one returns the value of the *initial* cores. -/
example (d : Draws) (x : Tensor ℝ) (hx : x.shape = [3, 6, 2]) (g : Option ℕ) : ∃ m m', AdMps.init d exForgetArgs (1 / 10) 0 = .ok m ∧ Trained m m' ∧
    m'.region.list0 = exConst ∧
    ∃ m'', m'.forward someSvd popHead x g = (.error .assertion, m'', g) ∧ ∃ y, (m''.forward someSvd popHead x g).1 = .ok y ∧ y.shape = [3, 2] ∧
      ∀ b < 3, ∀ o < 2, y.get [b, o] = chainValue 1 2 4 6 false (initCores d 4 2 0) x b o := by
  obtain ⟨m, h1, h2, h3, h4, h5, h6, h7, h8, h9, h10, h11, h12, h13, h14, h15, h16⟩ :=
    C59_construction d exForgetArgs (1 / 10) 0 4 (by decide) (by decide) (Or.inl rfl) none rfl
  have hA : ∀ i f, (initCores d 4 2 0).A i 0 0 f = 1 := by simp [initCores]
  have hC : ∀ o, (initCores d 4 2 0).C o 0 0 = 1 := by simp [initCores]
  have hlay : layout 0 4 6 = [.pairs 0 2, .mout 4 true, .site 5] := by unfold layout; simp [leftKinds, rightKinds]
  have hch0 : MergedChain 1 2 2 0 4 6 (initCores d 4 2 0) m.region.list0 := h15
  have hch1 : MergedChain 1 2 2 1 4 6 (initCores d 4 2 0) m.region.list1 := h16
  have hsh : MergedShape m.mps.bondDim m.mps.featureDim m.mps.outputDim 0 4 m.mps.inputDim exConst := by
    rw [h5, h6, h4, h3]
    show MergedShape 1 2 2 0 4 6 exConst
    unfold MergedShape exConst
    rw [hlay]
    exact .cons rfl (.cons ⟨rfl, rfl⟩ (.cons rfl .nil))
  have hret : List.Forall₂ Retuned m.region.list0 exConst := by
    unfold MergedChain at hch0
    rw [hlay] at hch0
    generalize m.region.list0 = l at hch0
    match l, hch0 with
    | _, .cons (b := a1) ⟨p1, _⟩ (.cons (b := a2) ⟨p2, _⟩ (.cons (b := a3) ⟨p3, _⟩ .nil)) =>
      cases a1 <;> first | exact p1.elim | skip
      cases a2 <;> first | exact p2.elim | skip
      cases a3 <;> first | exact p3.elim | skip
      obtain ⟨rfl, p2⟩ := p2
      exact .cons ⟨⟨[2, 1, 1, 2, 2], fun _ => 2⟩, (show _ = _ from p1).symm, rfl⟩ (.cons ⟨⟨[2, 1, 1, 2], fun _ => 3⟩, p2.symm, rfl⟩
        (.cons ⟨⟨[1, 1, 2], fun _ => 5⟩, (show _ = _ from p3).symm, rfl⟩ .nil))
  have hself : List.Forall₂ Retuned m.region.list1 m.region.list1 := by
    rw [List.forall₂_same]
    intro u _
    refine ⟨u.tensor, rfl, ?_⟩
    cases u <;> rfl
  have hact : AdRegion.listAt { m.region with list0 := exConst, list1 := m.region.list1 } m.region.offset = exConst := by
    unfold AdRegion.listAt
    rw [h11]
    rfl
  have hina : AdRegion.listAt { m.region with list0 := exConst, list1 := m.region.list1 } (1 - m.region.offset) = m.region.list1 := by
    unfold AdRegion.listAt
    rw [h11]
    rfl
  have hx' : Embedded m.mps x x := by
    refine ⟨x, by rw [h9]; rfl, ?_⟩
    unfold MPS.embedInput
    rw [assert_true _ (Or.inr (by simp [Tensor.ndim, hx])), assert_true _ (by simp [hx, h3, exForgetArgs])]
    simp [Tensor.ndim, hx, h6, exForgetArgs]
    rfl
  have hsv1 : ∀ u ∈ m.region.list1, ∀ sv, some sv ∈ bondPlan someSvd u → 1 ≤ sv.getD 0 0 := by
    intro u hu sv hsv
    obtain ⟨κ, _, q1, q2⟩ := forall2_mem hch1 u hu
    exact ones_sv someSvd someSvd_spec 2 2 (by omega) (by omega) _ hA hC κ u q1 q2 sv hsv
  have key := C78_forgets someSvd someSvd_spec popHead popHead_mem 4 { m with region := { m.region with list0 := exConst, list1 := m.region.list1 } }
    ⟨h2.size, h2.label, h2.offset, h2.stray, hsh, h2.list1, h2.bonds, h2.svs⟩ (by rw [h5]; decide) (by rw [h13, h12])
    (by rw [h3]; unfold Stuck; rw [h11]; decide) (by rw [h3]; unfold Stuck; rw [h11]; decide) (by rw [h14]; norm_num)
    (by
      rw [hact, h5, h14]
      rintro ⟨u, hu, sv, hsv, hx⟩
      obtain ⟨A, rfl, hr, hc, he⟩ := exConst_sv someSvd someSvd_spec u hu sv hsv
      have h0 := hx 0 (by decide)
      have ht := sv_top A _ (someSvd_spec A) (by omega) (by omega)
      rw [hr, hc] at ht
      have hnn : 0 ≤ (someSvd A).s.getD 0 0 := by
        by_cases hl : 0 < (someSvd A).s.length
        · rw [List.getD_eq_getElem _ _ hl]
          exact (someSvd_spec A).nonneg _ (List.getElem_mem _)
        · rw [List.getD_eq_default _ _ (by omega)]
      generalize (someSvd A).s.getD 0 0 = w at h0 ht hnn
      norm_num at ht
      nlinarith)
    (by
      rw [hact]
      intro u hu
      simp only [exConst, List.mem_cons, List.not_mem_nil, or_false] at hu
      rcases hu with rfl | rfl | rfl
      · exact fun h => h
      · exact fun h => h
      · intro hz
        have := hz [0, 0, 0] (by simp [InRange])
        simp at this)
    (initCores d 4 2 0)
    (by
      show MergedChain m.mps.bondDim m.mps.featureDim m.mps.outputDim (1 - m.region.offset) 4 m.mps.inputDim _
        (AdRegion.listAt { m.region with list0 := exConst, list1 := m.region.list1 } (1 - m.region.offset))
      rw [hina, h5, h6, h4, h3, h11]
      exact hch1)
    (by
      rw [hina, h5, h14]
      intro u hu sv hsv i hi
      have := hsv1 u hu sv hsv
      have hi0 : i = 0 := by
        have : i < 1 := hi
        omega
      subst hi0
      right
      linarith)
    (by
      rw [hina, h5, h14]
      rintro ⟨u, hu, sv, hsv, hx⟩
      have := hsv1 u hu sv hsv
      have := hx 0 (by decide)
      linarith)
    (by
      rw [hina]
      intro u hu
      obtain ⟨κ, _, q1, q2⟩ := forall2_mem hch1 u hu
      exact ones_lone 2 2 (by omega) (by omega) _ hA hC κ u q1 q2)
    x x hx' g
  obtain ⟨m'', k1, k2⟩ := key
  refine ⟨m, { m with region := { m.region with list0 := exConst, list1 := m.region.list1 } }, h1, ⟨_, _, rfl, hret, hself⟩, rfl, m'', k1, ?_⟩
  obtain ⟨y, y1, y2, y3⟩ := k2 x x hx' g (Or.inl (by decide))
  rw [hx] at y2 y3
  simp only [h3, h4, h5, h6, h7] at y2 y3
  exact ⟨y, y1, y2, y3⟩

end TorchMPS
