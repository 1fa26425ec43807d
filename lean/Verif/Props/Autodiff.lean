import Verif.Lemmas.AutodiffSeq
/-
C84: gradients through the stabilised matrix reductions and `contract_matseq`.
-/
namespace TorchMPS
open Spec
variable {K : Type} [RCLike K]

theorem dualExp_mul (l : DualNumber ℝ) (p : DualNumber K) : dualExp l * p = dualExpMul l p := by
  refine dual_ext ?_ ?_
  · rw [TrivSqZeroExt.fst_mul]; rfl
  · rw [DualNumber.snd_mul]; rfl

theorem matReduceSeq_dual (dAbs : Mat (DualNumber K) → ℝ) (m : Mat (DualNumber K)) (ms : List (Mat (DualNumber K))) :
    ((dualOps dAbs).reduceSeq m ms).map (fun p => (p.1.primal, p.2.fst)) = matReduceSeq m.primal (ms.map Mat.primal) := by
  rw [← exact_reduceSeq]
  exact (dualOps_sim dAbs).reduceSeq m ms

theorem matReducePar_dual (dAbs : Mat (DualNumber K) → ℝ) (D : ℕ) (ms : List (Mat (DualNumber K))) :
    ((dualOps dAbs).reducePar D ms).map (fun p => (p.1.primal, p.2.fst)) = matReducePar D (ms.map Mat.primal) := by
  rw [← exact_reducePar]
  exact (dualOps_sim dAbs).reducePar D ms

theorem jet_of_smul {P M : Mat (DualNumber K)} {l : DualNumber ℝ} (h : P.smul (dualExp l) = M) (i j : ℕ) : dualExpMul l (P.e i j) = M.e i j := by
  rw [← h, ← dualExp_mul]
  rfl

/-- C84, sequential reduction. Differentiating the stabilised left-to-right reduction gives the same values as without differentiation, and `exp(log_scale) *
product` carries the exact derivative of the matrix product - the product rule over all factors - although the rescaling factors pass through absolute values
and logarithms, and whatever derivative is used for the absolute value (`dAbs`). -/
theorem C84_seq (dAbs : Mat (DualNumber K) → ℝ) (m : Mat (DualNumber K)) (ms : List (Mat (DualNumber K))) (hc : ChainOK (m :: ms)) :
    match (dualOps dAbs).reduceSeq m ms with
    | some (P, l) => matReduceSeq m.primal (ms.map Mat.primal) = some (P.primal, l.fst) ∧
        ∀ i j, dualExpMul l (P.e i j) = jet ((matProd m.primal (ms.map Mat.primal)).e i j) (leibnizEntry (m :: ms) i j)
    | none => matReduceSeq m.primal (ms.map Mat.primal) = none := by
  have hs := matReduceSeq_dual dAbs m ms
  cases hr : (dualOps dAbs).reduceSeq m ms with
  | none => rw [hr] at hs; exact hs.symm
  | some p =>
    obtain ⟨P, l⟩ := p
    rw [hr] at hs
    refine ⟨hs.symm, fun i j => ?_⟩
    rw [jet_of_smul ((dualOps_exact dAbs).reduceSeq m ms hc P l hr)]
    exact dual_ext (by rw [← matProd_primal]; rfl) (matProd_tangent ms m i j)

/-- C84, parallel reduction. The same for the halving reduction. -/
theorem C84_par (dAbs : Mat (DualNumber K) → ℝ) (D : ℕ) (m : Mat (DualNumber K)) (ms : List (Mat (DualNumber K))) :
    match (dualOps dAbs).reducePar D (m :: ms) with
    | some (P, l) => matReducePar D ((m :: ms).map Mat.primal) = some (P.primal, l.fst) ∧
        ∀ i j, dualExpMul l (P.e i j) = jet ((matProd m.primal (ms.map Mat.primal)).e i j) (leibnizEntry (m :: ms) i j)
    | none => matReducePar D ((m :: ms).map Mat.primal) = none := by
  have hs := matReducePar_dual dAbs D (m :: ms)
  cases hr : (dualOps dAbs).reducePar D (m :: ms) with
  | none => rw [hr] at hs; exact hs.symm
  | some p =>
    obtain ⟨P, l⟩ := p
    rw [hr] at hs
    refine ⟨hs.symm, fun i j => ?_⟩
    rw [jet_of_smul ((dualOps_exact dAbs).reducePar D m ms P l hr)]
    exact dual_ext (by rw [← matProd_primal]; rfl) (matProd_tangent ms m i j)

/-- the entries of the product of a curve of chains follow the product of the jets -/
theorem chain_follows {fs : List (ℝ → Mat K)} {m : Mat (DualNumber K)} {ms : List (Mat (DualNumber K))} {t₀ : ℝ}
    (h : List.Forall₂ (fun f D => MatJet f D t₀) fs (m :: ms)) (hc : ChainOK (m :: ms)) (i j : ℕ) (hi : i < (matProd m ms).r) (hj : j < (matProd m ms).c) :
    Follows (fun t => prodEntry (fs.map (· t)) i j) ((matProd m ms).e i j) t₀ := by
  cases h with
  | cons h1 h2 =>
    rename_i g gs
    have := matFollows_matProd gs ms t₀ g m h1.1 (h2.imp (fun _ _ h => h.1)) hc
    exact this.2 i hi j hj

theorem emptyFits_of_ne {L : Type} [Zero L] {ms : TensorSeq L} {lv rv : Option (Tensor L)} (hw : WellRanked ms lv rv) (hne : matsAt ms [] ≠ []) : EmptyFits ms lv rv := by
  cases ms with
  | seq ts => trivial
  | single t =>
    intro h
    exfalso
    apply hne
    obtain ⟨n, r, c, hrc⟩ := exists_three t hw.1
    have hsp := shape_split t 3
    rw [hrc] at hsp
    have hn : t.shape.getD (t.ndim - 3) 0 = n := by unfold Tensor.ndim; rw [hsp]; simp
    rw [matsAt_single t hrc]
    rw [h] at hn
    subst hn
    rfl

theorem matsAt_length {L : Type} [Zero L] (ms : TensorSeq L) (b b' : List ℕ) : (matsAt ms b).length = (matsAt ms b').length := by
  cases ms with
  | single t =>
    simp only [matsAt]
    split <;> simp
  | seq ts => simp [matsAt]

/-- an index of the output is one of the product of the factors -/
theorem entry_range {L : Type} [Zero L] {ms : TensorSeq L} {lv rv : Option (Tensor L)} {b : List ℕ} {m : Mat L} {rest : List (Mat L)}
    (h : chainAt ms lv rv b = m :: rest) (i j : ℕ) (hi : i < m.r) (hj : j < ((m :: rest).getLast (by simp)).c) : (lv ≠ none → i = 0) ∧ (rv ≠ none → j = 0) := by
  refine ⟨?_, ?_⟩
  · intro hl
    obtain ⟨w, rfl⟩ := Option.ne_none_iff_exists'.1 hl
    have : m = rowAt w b := by
      simp only [chainAt, Option.map_some, Option.toList_some, List.cons_append, List.cons.injEq] at h
      exact h.1.symm
    rw [this] at hi
    have : (rowAt w b).r = 1 := rfl
    omega
  · intro hl
    obtain ⟨w, rfl⟩ := Option.ne_none_iff_exists'.1 hl
    have : (m :: rest).getLast (by simp) = colAt w b := by
      have e : (m :: rest).getLast? = some (colAt w b) := by
        rw [← h]
        simp only [chainAt, Option.map_some, Option.toList_some, List.getLast?_append, List.getLast?_singleton, Option.some_or]
      rw [List.getLast?_eq_getLast_of_ne_nil (by simp)] at e
      exact Option.some.inj e
    rw [this] at hj
    have : (colAt w b).c = 1 := rfl
    omega

/-- C84, `contract_matseq`. Let matrices and boundary vectors of any batch shapes move along differentiable curves, with the jet (value and derivative) at `t₀`
in `d`, `dlv`, `drv`. Differentiating `contract_matseq` at `t₀`, sequential or parallel, succeeds whenever the sizes fit, with the same shapes and values (NaN
included) as without differentiation; and at every batch index, wherever the result is not NaN, `exp(log_scale) * product` carries the value and the derivative
at `t₀` of the entries of the product of the factors, whatever derivative is used for the absolute value in the rescaling factors. -/
theorem C84_contract (dAbs : Mat (DualNumber K) → ℝ) (t₀ : ℝ) (f : ℝ → TensorSeq K) (lv rv : ℝ → Option (Tensor K)) (d : TensorSeq (DualNumber K))
    (dlv drv : Option (Tensor (DualNumber K))) (par : Bool) (B : Shape) (hf : SeqFollows f d t₀) (hl : OptFollows lv dlv t₀) (hr : OptFollows rv drv t₀)
    (hw : WellRanked d dlv drv) (hB : IsBroadcast (batchShapes d dlv drv) B) (m0 : Mat (DualNumber K)) (rest0 : List (Mat (DualNumber K)))
    (h0 : chainAt d dlv drv [] = m0 :: rest0) (hchain : ChainOK (m0 :: rest0)) (hne : matsAt d [] ≠ []) :
    ∃ out out₀, (dualOps dAbs).contractMatseq d dlv drv par = .ok out ∧ contractMatseq (f t₀) (lv t₀) (rv t₀) par = .ok out₀ ∧
      out.product.shape = B ++ (if dlv.isNone then [m0.r] else []) ++ (if drv.isNone then [((m0 :: rest0).getLast (by simp)).c] else []) ∧
      out.logScale.shape = B ++ (if dlv.isNone then [1] else []) ++ (if drv.isNone then [1] else []) ∧
      out₀.product.shape = out.product.shape ∧ out₀.logScale.shape = out.logScale.shape ∧
      ∀ b, InRange b B → ∀ i < m0.r, ∀ j < ((m0 :: rest0).getLast (by simp)).c,
        out₀.product.get (outIndex dlv drv b i j) = (out.product.get (outIndex dlv drv b i j)).map (·.fst) ∧
        out₀.logScale.get (outIndex dlv drv b 0 0) = (out.logScale.get (outIndex dlv drv b 0 0)).map (·.fst) ∧
        match out.product.get (outIndex dlv drv b i j), out.logScale.get (outIndex dlv drv b 0 0) with
        | some p, some l => Follows (fun t => prodEntry (chainAt (f t) (lv t) (rv t) b) i j) (dualExpMul l p) t₀
        | none, none => True
        | _, _ => False := by
  have hempty := emptyFits_of_ne hw hne
  obtain ⟨s1, s2, s3, s4, s5, s6, s7, s8⟩ := follows_shapes hf hl hr par t₀
  obtain ⟨out, ho, hp, hls, hv⟩ := (dualOps dAbs).contractMatseq_gen d dlv drv par B hw hB m0 rest0 h0 hchain hempty
  -- the chain of the values has the same sizes
  have hdims : ∀ {b : List ℕ}, (chainAt (f t₀) (lv t₀) (rv t₀) b).map (fun m => (m.r, m.c)) = (chainAt d dlv drv b).map (fun m => (m.r, m.c)) := by
    intro b
    have hopt : ∀ {v : ℝ → Option (Tensor K)} {dv : Option (Tensor (DualNumber K))}, OptFollows v dv t₀ → (v t₀).map Tensor.shape = dv.map Tensor.shape := by
      intro v dv hv
      cases dv with
      | none => rw [hv t₀]; rfl
      | some x =>
        obtain ⟨g, hg, hx⟩ := hv
        rw [hg t₀]
        show some _ = some _
        rw [hx.1 t₀]
    have e1 : ((lv t₀).map (rowAt · b)).toList.map (fun m => (m.r, m.c)) = (dlv.map (rowAt · b)).toList.map (fun m => (m.r, m.c)) := by
      have := hopt hl
      generalize lv t₀ = x at this ⊢
      cases x <;> cases dlv <;> simp at this <;> simp [rowAt, Mat.of, this]
    have e2 : ((rv t₀).map (colAt · b)).toList.map (fun m => (m.r, m.c)) = (drv.map (colAt · b)).toList.map (fun m => (m.r, m.c)) := by
      have := hopt hr
      generalize rv t₀ = x at this ⊢
      cases x <;> cases drv <;> simp at this <;> simp [colAt, Mat.of, this]
    have e3 : (matsAt (f t₀) b).map (fun m => (m.r, m.c)) = (matsAt d b).map (fun m => (m.r, m.c)) := by
      cases d with
      | single d =>
        obtain ⟨g, hg, hd⟩ := hf
        obtain ⟨n, r, c, hrc⟩ := exists_three d hw.1
        rw [hg t₀, matsAt_single_dims _ hrc, matsAt_single_dims _ ((nonBatchShape_congr (hd.1 t₀) 3).trans hrc)]
      | seq ds =>
        obtain ⟨gs, hg, hd⟩ := hf
        rw [hg t₀, matsAt_seq, matsAt_seq, List.map_map, List.map_map, List.map_map]
        have hw' : ∀ t ∈ ds, 2 ≤ t.ndim := hw.1
        clear hg hw hB h0 hne hempty s1 s2 s3 s4 s5 ho hv
        induction hd with
        | nil => rfl
        | cons h1 h2 ih =>
          rename_i g x gs xs
          obtain ⟨r, c, hrc⟩ := exists_two x (hw' x (by simp))
          have hrc' := (nonBatchShape_congr (h1.1 t₀) 2).trans hrc
          simp only [List.map_cons, Function.comp, hrc, hrc']
          congr 1
          exact ih (fun t ht => hw' t (by simp [ht]))
    simp only [chainAt, List.map_append, e1, e2, e3]
  obtain ⟨m0', rest0', h0'⟩ : ∃ m rest, chainAt (f t₀) (lv t₀) (rv t₀) [] = m :: rest := by
    cases hch : chainAt (f t₀) (lv t₀) (rv t₀) [] with
    | nil => have := hdims (b := []); rw [hch, h0] at this; simp at this
    | cons m rest => exact ⟨m, rest, rfl⟩
  have hd0 := hdims (b := [])
  rw [h0, h0'] at hd0
  have hchain' : ChainOK (m0' :: rest0') := by
    rw [chainOK_iff] at hchain ⊢
    have e : ∀ {L : Type} (l : List (Mat L)), List.IsChain (fun a b => a.c = b.r) l ↔ List.IsChain (fun (p q : ℕ × ℕ) => p.2 = q.1) (l.map (fun m => (m.r, m.c))) := by
      intro L l
      rw [List.isChain_map]
    rw [e, hd0, ← e]
    exact hchain
  obtain ⟨out₀, ho₀, hp₀, hls₀, hv₀⟩ := (exactOps K).contractMatseq_gen (f t₀) (lv t₀) (rv t₀) par B (s2 hw) (s1 ▸ hB) m0' rest0' h0' hchain' (s5 hempty)
  have hlast : ((m0' :: rest0').getLast (by simp)).c = ((m0 :: rest0).getLast (by simp)).c := by
    have e1 : ((m0' :: rest0').map (fun m => (m.r, m.c))).getLast? = ((m0 :: rest0).map (fun m => (m.r, m.c))).getLast? := by rw [hd0]
    rw [List.getLast?_map, List.getLast?_map, List.getLast?_eq_getLast_of_ne_nil (by simp),
      List.getLast?_eq_getLast_of_ne_nil (by simp)] at e1
    simp only [Option.map_some, Option.some.injEq, Prod.mk.injEq] at e1
    exact e1.2
  have hfirst : m0'.r = m0.r := by
    simp only [List.map_cons, List.cons.injEq, Prod.mk.injEq] at hd0
    exact hd0.1.1
  refine ⟨out, out₀, ho, by rw [← C83_exact_model]; exact ho₀, hp, hls, ?_, ?_, ?_⟩
  · rw [hp₀, hp, s7, s8, hfirst, hlast]
  · rw [hls₀, hls, s7, s8]
  intro b hb i hi j hj
  obtain ⟨m, rest, val, c1, c2, c3, c4, c5, c6, c7⟩ := hv b hb
  obtain ⟨m', rest', val', c1', c2', c3', c4', c5', c6', c7'⟩ := hv₀ b hb
  obtain ⟨⟨fs, j1, j2⟩, j3, j4, j5⟩ := chainAt_jet hf hl hr hw hB b hb
  have hval : val' = val.map (fun p => (p.1.primal, p.2.fst)) := by
    rw [c7, c7']
    have e := (dualOps_sim dAbs).evalOne (UsesParallel d dlv drv par) (lastAxis d) (dlv.map (rowAt · b)) (matsAt d b) (drv.map (colAt · b))
    rw [s4, j3, j4, j5]
    have s3' : UsesParallel (f t₀) (lv t₀) (rv t₀) par = UsesParallel d dlv drv par := propext s3
    rw [s3']
    exact e.symm
  obtain ⟨z1, z2⟩ := entry_range c1 i j (by rw [c2]; exact hi) (by rw [c4]; exact hj)
  have z1' : lv t₀ ≠ none → i = 0 := by
    intro h
    refine z1 (fun hn => h ?_)
    rw [hn] at s7
    exact Option.isNone_iff_eq_none.1 s7
  have z2' : rv t₀ ≠ none → j = 0 := by
    intro h
    refine z2 (fun hn => h ?_)
    rw [hn] at s8
    exact Option.isNone_iff_eq_none.1 s8
  have g1 := c5 i j z1 z2
  have g2 := c6 0 0
  have g1' := c5' i j z1' z2'
  have g2' := c6' 0 0
  rw [s6] at g1' g2'
  rw [g1, g2, g1', g2', hval]
  refine ⟨by cases val <;> rfl, by cases val <;> rfl, ?_⟩
  cases val with
  | none => trivial
  | some q =>
    obtain ⟨P, l⟩ := q
    simp only [Option.map_some]
    have hx := (dualOps_exact dAbs).evalOne (K := DualNumber K) _ _ _ _ _ m rest (show _ = _ from c1) c3 (by
      intro h
      apply hne
      have := matsAt_length d [] b
      rw [h] at this
      exact List.length_eq_zero_iff.1 this) P l c7.symm
    rw [jet_of_smul hx]
    rw [c1] at j2
    have := chain_follows j2 c3 i j (by rw [matProd_r, c2]; exact hi) (by rw [matProd_c, c4]; exact hj)
    simp only [j1]
    exact this

theorem hasDerivAt_norm' {f : ℝ → K} {f' : K} {t₀ : ℝ} (h : HasDerivAt f f' t₀) (h0 : f t₀ ≠ 0) :
    HasDerivAt (fun t => ‖f t‖) (RCLike.re (star (f t₀ / (‖f t₀‖ : K)) * f')) t₀ := by
  have h1 := (hasDerivAt_logNorm h h0).exp
  have hpos : 0 < ‖f t₀‖ := norm_pos_iff.2 h0
  have hev : (fun t => ‖f t‖) =ᶠ[nhds t₀] fun t => Real.exp (Real.log ‖f t‖) := by
    filter_upwards [h.continuousAt.eventually_ne h0] with t ht
    rw [Real.exp_log (norm_pos_iff.2 ht)]
  refine (h1.congr_of_eventuallyEq hev).congr_deriv ?_
  rw [Real.exp_log hpos, RCLike.star_def, map_div₀, RCLike.conj_ofReal, div_mul_eq_mul_div, div_eq_mul_inv _ ((‖f t₀‖ : ℝ) : K), ← RCLike.ofReal_inv, mul_comm _ (((‖f t₀‖⁻¹ : ℝ) : K)), RCLike.re_ofReal_mul]
  field_simp

/-- C84: where no entry is 0, the derivative that `torch` uses for the rescaling factors is the true one. -/
theorem C84_abs_sum (f : ℝ → Mat K) (D : Mat (DualNumber K)) (t₀ : ℝ) (h : MatFollows f D t₀) (h0 : ∀ i < D.r, ∀ j < D.c, (D.e i j).fst ≠ 0) :
    (f t₀).absSum = D.primal.absSum ∧ HasDerivAt (fun t => (f t).absSum) (torchAbs D) t₀ := by
  have e : ∀ t, (f t).absSum = ∑ i ∈ Finset.range D.r, ∑ j ∈ Finset.range D.c, ‖(f t).e i j‖ := by
    intro t
    unfold Mat.absSum
    rw [(h.1 t).1, (h.1 t).2]
  refine ⟨?_, ?_⟩
  · rw [e]
    refine Finset.sum_congr rfl (fun i hi => Finset.sum_congr rfl (fun j hj => ?_))
    have hij : (f t₀).e i j = (D.e i j).fst := (h.2 i (Finset.mem_range.1 hi) j (Finset.mem_range.1 hj)).1
    rw [hij]
    rfl
  · simp only [e]
    unfold torchAbs
    refine HasDerivAt.fun_sum (fun i hi => HasDerivAt.fun_sum (fun j hj => ?_))
    have hij := h.2 i (Finset.mem_range.1 hi) j (Finset.mem_range.1 hj)
    have := hasDerivAt_norm' hij.2 (fun hz => h0 i (Finset.mem_range.1 hi) j (Finset.mem_range.1 hj) (hij.1.symm.trans hz))
    have hij1 : (f t₀).e i j = (D.e i j).fst := hij.1
    rw [hij1] at this
    exact this

/-- hypotheses of `C84_contract`: two samples of three 2 x 2 matrices and one left vector shared by both samples, all moving along arbitrary differentiable curves -/
example (t₀ : ℝ) (A : ℝ → List ℕ → K) (v : ℝ → List ℕ → K) (dA dv : List ℕ → DualNumber K) (hA : ∀ idx, Follows (fun t => A t idx) (dA idx) t₀)
    (hv : ∀ idx, Follows (fun t => v t idx) (dv idx) t₀) :
    SeqFollows (fun t => .single ⟨[2, 3, 2, 2], A t⟩) (.single ⟨[2, 3, 2, 2], dA⟩) t₀ ∧ OptFollows (fun t => some ⟨[2], v t⟩) (some ⟨[2], dv⟩) t₀ ∧
    OptFollows (fun _ => none) (none : Option (Tensor (DualNumber K))) t₀ ∧ WellRanked (.single ⟨[2, 3, 2, 2], dA⟩) (some ⟨[2], dv⟩) none ∧
    IsBroadcast (batchShapes (.single (⟨[2, 3, 2, 2], dA⟩ : Tensor (DualNumber K))) (some ⟨[2], dv⟩) none) [2] ∧
    ChainOK (chainAt (.single ⟨[2, 3, 2, 2], dA⟩) (some ⟨[2], dv⟩) none []) ∧ matsAt (.single ⟨[2, 3, 2, 2], dA⟩) [] ≠ [] := by
  have hm : matsAt (.single ⟨[2, 3, 2, 2], dA⟩) [] = (List.range 3).map (fun k => Mat.of 2 2 (fun i j => dA ([] ++ [k, i, j]))) := rfl
  refine ⟨⟨fun t => ⟨[2, 3, 2, 2], A t⟩, fun t => rfl, fun t => rfl, fun idx _ => hA idx⟩, ⟨fun t => ⟨[2], v t⟩, fun t => rfl, fun t => rfl, fun idx _ => hv idx⟩,
    fun t => rfl, ⟨by simp [Tensor.ndim], by simp [Tensor.ndim], by simp⟩, ?_, ?_, ?_⟩
  · rw [← shapeBroadcast_ok_iff]; rfl
  · simp [chainAt, hm, List.range_succ, ChainOK, Mat.of, rowAt]
  · simp [hm, List.range_succ]

end TorchMPS
