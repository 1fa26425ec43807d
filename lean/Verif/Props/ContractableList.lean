import Verif.Lemmas.ChainLoop
/-
C47-C50: matrix regions, lists of contractables, the global batch size.
-/
namespace TorchMPS
open Spec
variable {K : Type}

theorem orderedProd_some [Semiring K] {l : List (Mat K)} {m : Mat K} (h : prodL l = some m) : orderedProd l = some m := by
  rw [orderedProd_eq]; exact h

/-! ### C47 -/

theorem single_mul_edge [CommSemiring K] (B : ℕ) (m y : Contractable K) (hm : Piece B m) (hmc : m.cls = .singleMat) (hy : Piece B y)
    (hyc : y.cls = .edgeVec) (hys : y.bondStr = ['b', 'l']) (hb : axis m 'r' = axis y 'l') (g : Option ℕ) :
    ∃ c, star m y g = (.ok c, some B) ∧ Merged B 1 m y c :=
  star_mid_edge B 1 m y hm hy (Or.inr hmc) hyc hys hb g

/-- C47: a matrix region times a right edge vector: multiplying the matrices one by one into the vector gives the
same as first reducing the region to one matrix by the tree of pairwise products. Entry `i` of the result is
`∑ k, M i k * v k`, where `M` is the ordered product of all matrices. -/
theorem C47_right [CommSemiring K] (B : ℕ) (x y : Contractable K) (hx : Piece B x) (hxc : x.cls = .matRegion)
    (hy : Piece B y) (hyc : y.cls = .edgeVec) (hys : y.bondStr = ['b', 'l']) (hb : axis x 'r' = axis y 'l') (g g2 : Option ℕ) :
    ∃ m c d, reduceItem x g = (.ok m, some B) ∧ m.cls = .singleMat ∧ star m y g2 = (.ok c, some B) ∧
      star x y g = (.ok d, some B) ∧
      c.cls = .edgeVec ∧ d.cls = .edgeVec ∧ c.bondStr = ['b', 'l'] ∧ d.bondStr = ['b', 'l'] ∧
      c.tensor.shape = [B, axis x 'l'] ∧ d.tensor.shape = [B, axis x 'l'] ∧
      ∀ b < B, ∃ M, orderedProd (factors x b 0) = some M ∧ ∀ i < axis x 'l',
        c.tensor.get [b, i] = d.tensor.get [b, i] ∧
        d.tensor.get [b, i] = ∑ k ∈ Finset.range (axis y 'l'), M.e i k * y.tensor.get [b, k] := by
  obtain ⟨m, m1, m2, m3, m4, m5, m6⟩ := regionReduce_ok B x hx hxc g
  obtain ⟨c, c1, c2⟩ := single_mul_edge B m y m2 m3 hy hyc hys (by rw [m5, hb]) g2
  obtain ⟨d, d1, d2⟩ := star_region_edge B 1 x y hx hy hxc hyc hys hb g
  have hro := edge_outs y 'l' (Or.inl rfl) hys
  have hnr : 'r' ∉ y.bondStr := by rw [hys]; decide
  have hml := (mid_has B m m2 (Or.inl (Or.inr m3))).1
  have hxl := (mid_has B x hx (Or.inl (Or.inl hxc))).1
  have hc := c2.edge_right (mid_outs B m m2 (Or.inr m3)) hro hml hnr
  have hd := d2.edge_right (mid_outs B x hx (Or.inl hxc)) hro hxl hnr
  have cl : axis c 'l' = axis x 'l' := by rw [c2.left hml, m4]
  have dl : axis d 'l' = axis x 'l' := d2.left hxl
  refine ⟨m, c, d, m1, m3, c1, d1, hc.2, hd.2, hc.1, hd.1, ?_, ?_, ?_⟩
  · rw [edge_shape B 'l' c c2.piece hc.1, cl]
  · rw [edge_shape B 'l' d d2.piece hd.1, dl]
  · intro b hbB
    refine ⟨matOf m b 0, orderedProd_some (m6 b hbB 0), ?_⟩
    intro i hi
    have p1 := c2.prod b hbB 0 (by omega)
    have p2 := d2.prod b hbB 0 (by omega)
    rw [factors_single m (by rw [m3]; decide), factors_single y (by rw [hyc]; decide)] at p1
    rw [factors_single y (by rw [hyc]; decide), prodL_append _ _ ?_ (by simp), m6 b hbB 0] at p2
    · have q1 : (matOf m b 0).mul (matOf y b 0) = matOf c b 0 := by simpa [prodL, matProd] using p1
      have q2 : (matOf m b 0).mul (matOf y b 0) = matOf d b 0 := by simpa [prodL, matProd] using p2
      have e1 : c.tensor.get [b, i] = (matOf c b 0).e i 0 := by
        rw [edge_mat_right c hc.1, cl]
        simp [Mat.of, hi]
      have e2 : d.tensor.get [b, i] = (matOf d b 0).e i 0 := by
        rw [edge_mat_right d hd.1, dl]
        simp [Mat.of, hi]
      refine ⟨by rw [e1, e2, ← q1, ← q2], ?_⟩
      rw [e2, ← q2]
      show ∑ k ∈ Finset.range (matOf m b 0).c, (matOf m b 0).e i k * (matOf y b 0).e k 0 = _
      have hcc : (matOf m b 0).c = axis y 'l' := by
        unfold matOf Mat.of cols
        simp only
        rw [if_pos (mid_has B m m2 (Or.inl (Or.inr m3))).2, m5, hb]
      rw [hcc]
      refine Finset.sum_congr rfl ?_
      intro k hk
      have hk := Finset.mem_range.1 hk
      rw [edge_mat_right y hys]
      simp [Mat.of, hk]
    · intro h
      have := m6 b hbB 0
      rw [h] at this
      simp [prodL] at this

/-- C47: the same from the left. -/
theorem C47_left [CommSemiring K] (B : ℕ) (x y : Contractable K) (hx : Piece B x) (hxc : x.cls = .matRegion)
    (hy : Piece B y) (hyc : y.cls = .edgeVec) (hys : y.bondStr = ['b', 'r']) (hb : axis y 'r' = axis x 'l') (g g2 : Option ℕ) :
    ∃ m c d, reduceItem x g = (.ok m, some B) ∧ m.cls = .singleMat ∧ star y m g2 = (.ok c, some B) ∧
      star y x g = (.ok d, some B) ∧
      c.cls = .edgeVec ∧ d.cls = .edgeVec ∧ c.bondStr = ['b', 'r'] ∧ d.bondStr = ['b', 'r'] ∧
      c.tensor.shape = [B, axis x 'r'] ∧ d.tensor.shape = [B, axis x 'r'] ∧
      ∀ b < B, ∃ M, orderedProd (factors x b 0) = some M ∧ ∀ j < axis x 'r',
        c.tensor.get [b, j] = d.tensor.get [b, j] ∧
        d.tensor.get [b, j] = ∑ k ∈ Finset.range (axis y 'r'), y.tensor.get [b, k] * M.e k j := by
  obtain ⟨m, m1, m2, m3, m4, m5, m6⟩ := regionReduce_ok B x hx hxc g
  obtain ⟨c, c1, c2⟩ := star_edge_mid B 1 y m hy m2 (Or.inr m3) hyc hys (by rw [m4, hb]) g2
  obtain ⟨d, d1, d2⟩ := star_edge_region B 1 y x hy hx hxc hyc hys hb g
  have hro := edge_outs y 'r' (Or.inr rfl) hys
  have hnl : 'l' ∉ y.bondStr := by rw [hys]; decide
  have hmr := (mid_has B m m2 (Or.inl (Or.inr m3))).2
  have hxr := (mid_has B x hx (Or.inl (Or.inl hxc))).2
  have hc := c2.edge_left hro (mid_outs B m m2 (Or.inr m3)) hnl hmr
  have hd := d2.edge_left hro (mid_outs B x hx (Or.inl hxc)) hnl hxr
  have cr : axis c 'r' = axis x 'r' := by rw [c2.right hmr, m5]
  have dr : axis d 'r' = axis x 'r' := d2.right hxr
  refine ⟨m, c, d, m1, m3, c1, d1, hc.2, hd.2, hc.1, hd.1, ?_, ?_, ?_⟩
  · rw [edge_shape B 'r' c c2.piece hc.1, cr]
  · rw [edge_shape B 'r' d d2.piece hd.1, dr]
  · intro b hbB
    refine ⟨matOf m b 0, orderedProd_some (m6 b hbB 0), ?_⟩
    intro j hj
    have p1 := c2.prod b hbB 0 (by omega)
    have p2 := d2.prod b hbB 0 (by omega)
    rw [factors_single m (by rw [m3]; decide), factors_single y (by rw [hyc]; decide)] at p1
    rw [factors_single y (by rw [hyc]; decide), prodL_append _ _ (by simp) ?_, m6 b hbB 0] at p2
    · have q1 : (matOf y b 0).mul (matOf m b 0) = matOf c b 0 := by simpa [prodL, matProd] using p1
      have q2 : (matOf y b 0).mul (matOf m b 0) = matOf d b 0 := by simpa [prodL, matProd] using p2
      have e1 : c.tensor.get [b, j] = (matOf c b 0).e 0 j := by
        rw [edge_mat_left c hc.1, cr]
        simp [Mat.of, hj]
      have e2 : d.tensor.get [b, j] = (matOf d b 0).e 0 j := by
        rw [edge_mat_left d hd.1, dr]
        simp [Mat.of, hj]
      refine ⟨by rw [e1, e2, ← q1, ← q2], ?_⟩
      rw [e2, ← q2]
      show ∑ k ∈ Finset.range (matOf y b 0).c, (matOf y b 0).e 0 k * (matOf m b 0).e k j = _
      have hcc : (matOf y b 0).c = axis y 'r' := by rw [edge_mat_left y hys]; rfl
      rw [hcc]
      refine Finset.sum_congr rfl ?_
      intro k hk
      have hk := Finset.mem_range.1 hk
      rw [edge_mat_left y hys]
      simp [Mat.of, hk]
    · intro h
      have := m6 b hbB 0
      rw [h] at this
      simp [prodL] at this

/-- C47: without matrices both ways fail: RuntimeError for the product, ValueError for the reduction. -/
theorem C47_empty [CommSemiring K] (B D : ℕ) (x y : Contractable K) (hxc : x.cls = .matRegion)
    (hsh : x.tensor.shape = [B, 0, D, D]) (hyc : y.cls = .edgeVec) (g : Option ℕ) :
    star x y g = (.error .runtime, g) ∧ star y x g = (.error .runtime, g) ∧ reduceItem x g = (.error .value, g) := by
  refine ⟨?_, ?_, ?_⟩
  · unfold star
    rw [if_neg (by rw [hxc, hyc]; decide), if_neg (by rw [hxc]; simp)]
    refine orElse_err ?_
    unfold mulMethod
    rw [hxc]
    simp only
    unfold regionMul
    rw [if_neg (by rw [hyc]; simp), hsh]
    rfl
  · unfold star
    rw [if_neg (by rw [hxc, hyc]; decide), if_neg (by rw [hyc]; simp)]
    rw [orElse_none (g' := g)]
    · refine orElse_err ?_
      unfold rmulMethod
      rw [hxc]
      simp only
      unfold regionMul
      rw [if_neg (by rw [hyc]; simp), hsh]
      rfl
    · unfold mulMethod
      rw [hyc]
      simp only [edgeMul]
      rw [if_pos (by rw [hxc]; decide)]
      rfl
  · unfold reduceItem
    rw [if_pos hxc]
    unfold regionReduce
    rw [hsh]
    simp only [List.getD_cons_succ, List.getD_cons_zero, regionLoop]
    rw [CM.bind_ok (CM.lift_apply _ _)]
    unfold mkSingleMat
    have : x.tensor.squeeze 1 = x.tensor := by unfold Tensor.squeeze; rw [hsh]; simp
    rw [this, if_pos (by simp [Tensor.ndim, hsh])]
    rfl

/-! ### C48 -/

theorem reduceList_open [CommSemiring K] (B O : ℕ) (e r : Contractable K) (mids : List (Contractable K)) (par : Bool)
    (H : OpenChain B O e mids r) (g : Option ℕ) :
    ∃ c, reduceList (e :: mids ++ [r]) par g = (.ok (c, if par then e :: mids ++ [r] else [c]), some B) ∧
      c.bondStr = ['b', 'o'] ∧ c.tensor.shape = [B, O] ∧ ∀ b < B, ∀ o < O, ∃ M,
        orderedProd ((e :: mids ++ [r]).flatMap (fun c => factors c b o)) = some M ∧ M.r = 1 ∧ M.c = 1 ∧
        c.tensor.get [b, o] = M.e 0 0 := by
  have fin : ∀ c : Contractable K, Piece B c → c.bondStr = ['b', 'o'] → axis c 'o' = O →
      c.tensor.shape = [B, O] ∧ ∀ b o, (matOf c b o).r = 1 ∧ (matOf c b o).c = 1 ∧ c.tensor.get [b, o] = (matOf c b o).e 0 0 := by
    intro c h1 h2 h3
    have := edge_shape B 'o' c h1 h2
    rw [h3] at this
    refine ⟨this, ?_⟩
    intro b o
    unfold matOf rows cols
    rw [if_neg (by rw [h2]; decide), if_neg (by rw [h2]; decide)]
    refine ⟨rfl, rfl, ?_⟩
    simp [Mat.of, entry, h2, place]
  unfold reduceList prepItems
  cases par with
  | false =>
    obtain ⟨c, c1, c2, c3, c4, c5⟩ := reduceLoop_open B O mids.length mids e r g rfl H (e :: mids ++ [r]).length (by simp)
    obtain ⟨f1, f2⟩ := fin c c2 c3 c4
    refine ⟨c, ?_, c3, f1, ?_⟩
    · simp only [Bool.false_eq_true, if_false]
      rw [CM.bind_ok (show (pure (e :: mids ++ [r]) : CM _) g = (.ok _, g) from rfl), CM.bind_ok c1]
      rfl
    · intro b hb o ho
      exact ⟨matOf c b o, orderedProd_some (c5 b hb o ho), f2 b o⟩
  | true =>
    obtain ⟨mids', m1, m2, m3, m4⟩ := openChain_reduced B O e r mids H
    obtain ⟨g1, m1⟩ := m1 g
    obtain ⟨c, c1, c2, c3, c4, c5⟩ := reduceLoop_open B O mids'.length mids' e r g1 rfl m3 (e :: mids' ++ [r]).length (by simp)
    obtain ⟨f1, f2⟩ := fin c c2 c3 c4
    refine ⟨c, ?_, c3, f1, ?_⟩
    · simp only [if_true]
      rw [CM.bind_ok m1, CM.bind_ok c1]
      rfl
    · intro b hb o ho
      refine ⟨matOf c b o, orderedProd_some ?_, f2 b o⟩
      rw [← c5 b hb o ho]
      exact m4 b hb o

/-- C48: edge vectors at both ends, in between matrix regions and single matrices in any number and order and exactly one
output core: `reduce` succeeds for both values of `parallel_eval` and every previous global batch size, and output `o`
of sample `b` is the only entry of the ordered product of all factors. Afterwards the stored list is unchanged with
`parallel_eval`; without it, the list has been consumed and holds just the result. -/
theorem C48_edges [CommSemiring K] (B O : ℕ) (e r : Contractable K) (mids : List (Contractable K)) (par : Bool)
    (he : Piece B e ∧ e.cls = .edgeVec ∧ e.bondStr = ['b', 'r']) (hr : Piece B r ∧ r.cls = .edgeVec ∧ r.bondStr = ['b', 'l'])
    (hp : ∀ c ∈ mids, Piece B c) (hone : OneOutput O mids) (hj : Joined (e :: mids ++ [r])) (g : Option ℕ) :
    ∃ c, reduceList (e :: mids ++ [r]) par g = (.ok (c, if par then e :: mids ++ [r] else [c]), some B) ∧
      c.bondStr = ['b', 'o'] ∧ c.tensor.shape = [B, O] ∧ ∀ b < B, ∀ o < O, ∃ M,
        orderedProd ((e :: mids ++ [r]).flatMap (fun c => factors c b o)) = some M ∧ M.r = 1 ∧ M.c = 1 ∧
        c.tensor.get [b, o] = M.e 0 0 :=
  reduceList_open B O e r mids par ⟨he, hp, hj, Or.inl ⟨hr.1, hr.2.1, hr.2.2, hone⟩⟩ g

/-- C48: the same with a terminal output matrix instead of output core and right edge vector (the layout of TI_MPS). -/
theorem C48_terminal [CommSemiring K] (B O : ℕ) (e r : Contractable K) (mids : List (Contractable K)) (par : Bool)
    (he : Piece B e ∧ e.cls = .edgeVec ∧ e.bondStr = ['b', 'r'])
    (hr : Piece B r ∧ r.cls = .outputMat ∧ r.bondStr = ['b', 'l', 'o'] ∧ axis r 'o' = O)
    (hp : ∀ c ∈ mids, Piece B c) (hm : ∀ c ∈ mids, IsMid c) (hj : Joined (e :: mids ++ [r])) (g : Option ℕ) :
    ∃ c, reduceList (e :: mids ++ [r]) par g = (.ok (c, if par then e :: mids ++ [r] else [c]), some B) ∧
      c.bondStr = ['b', 'o'] ∧ c.tensor.shape = [B, O] ∧ ∀ b < B, ∀ o < O, ∃ M,
        orderedProd ((e :: mids ++ [r]).flatMap (fun c => factors c b o)) = some M ∧ M.r = 1 ∧ M.c = 1 ∧
        c.tensor.get [b, o] = M.e 0 0 := by
  refine reduceList_open B O e r mids par ⟨he, hp, hj, Or.inr ⟨⟨hr.1, Or.inr hr.2.1, ?_, ?_, ?_, hr.2.2.2⟩, hm⟩⟩ g
  · rw [hr.2.2.1]; decide
  · rw [hr.2.2.1]; decide
  · unfold outs
    rw [if_neg (by rw [hr.2.1]; decide), hr.2.2.1]; decide

theorem reduced_getLast [CommSemiring K] {B : ℕ} {cs ds : List (Contractable K)} (h : List.Forall₂ (Reduced B) cs ds) {a : Contractable K}
    (ha : a ∈ cs.getLast?) : ∃ d ∈ ds.getLast?, Reduced B a d := by
  induction h with
  | nil => simp at ha
  | @cons a' d' cs' ds' h1 h2 ih =>
    cases h2 with
    | nil => simp at ha; subst ha; exact ⟨d', by simp, h1⟩
    | @cons a'' d'' cs'' ds'' h3 h4 =>
      obtain ⟨d, hd, hr⟩ := ih (by simpa using ha)
      exact ⟨d, by simpa using hd, hr⟩

/-- C48: without edge vectors, `reduce(parallel_eval=True)` gives one output core whose matrix for output `o` is the
ordered product of all factors. -/
theorem C48_ring [CommSemiring K] (B O : ℕ) (cs : List (Contractable K)) (hp : ∀ c ∈ cs, Piece B c) (hone : OneOutput O cs)
    (hj : Joined cs) (g : Option ℕ) :
    ∃ c g', reduceList cs true g = (.ok (c, cs), g') ∧ c.cls = .outputCore ∧ c.bondStr = ['b', 'o', 'l', 'r'] ∧
      (∀ a ∈ cs.head?, axis c 'l' = axis a 'l') ∧ (∀ a ∈ cs.getLast?, axis c 'r' = axis a 'r') ∧
      c.tensor.shape = [B, O, axis c 'l', axis c 'r'] ∧ ∀ b < B, ∀ o < O, ∃ M,
        orderedProd (cs.flatMap (fun c => factors c b o)) = some M ∧ M.r = axis c 'l' ∧ M.c = axis c 'r' ∧
        ∀ i < axis c 'l', ∀ j < axis c 'r', c.tensor.get [b, o, i, j] = M.e i j := by
  obtain ⟨ds, d1, d2⟩ := reduceItems_ok B cs hp
  obtain ⟨g1, d1⟩ := d1 g
  have hstr := reduced_one d2 hone
  have hlen : ds.length = (ds.length - 1) + 1 := by
    obtain ⟨as, oc, bs, h, _⟩ := hstr
    rw [h]; simp; omega
  obtain ⟨c, g', c1, _, _, c3, c4, c5, c6, c7, c8⟩ := reduceLoop_ring B O (ds.length - 1) ds g1 hlen (reduced_mids d2).1
    (reduced_joined B _ _ d2 hj) hstr ds.length (by omega)
  have hs := mid_core_str B c c3 c4
  have hsh : c.tensor.shape = [B, O, axis c 'l', axis c 'r'] := by
    rw [← map_axis c c3.labelled.order c3.labelled.distinct, hs]
    simp [c3.batch, c5]
  refine ⟨c, g', ?_, c4, hs, ?_, ?_, hsh, ?_⟩
  · unfold reduceList prepItems
    simp only [if_true]
    rw [CM.bind_ok d1, CM.bind_ok c1]
    rfl
  · intro a ha
    cases d2 with
    | nil => simp at ha
    | @cons a' d' cs' ds' h1 h2 =>
      simp at ha
      subst ha
      rw [c6 d' (by simp), h1.left]
  · intro a ha
    obtain ⟨d, hd, hr⟩ := reduced_getLast d2 ha
    rw [c7 d hd, hr.right]
  · intro b hb o ho
    refine ⟨matOf c b o, orderedProd_some ?_, ?_, ?_, ?_⟩
    · rw [← c8 b hb o ho]
      exact reduced_factors B cs ds d2 b o hb
    · unfold matOf rows; rw [if_pos (by rw [hs]; decide)]; rfl
    · unfold matOf cols; rw [if_pos (by rw [hs]; decide)]; rfl
    · intro i hi j hj
      unfold matOf rows cols
      rw [if_pos (by rw [hs]; decide), if_pos (by rw [hs]; decide)]
      simp [Mat.of, hi, hj, entry, hs, place]

/-- C48: without edge vectors and without `parallel_eval`, a matrix region next to an output core cannot be reduced. -/
theorem C48_ring_sequential_fails [CommSemiring K] (x y : Contractable K) (hx : x.cls = .matRegion) (hy : y.cls = .outputCore)
    (g : Option ℕ) : reduceList [x, y] false g = (.error .type, g) ∧ reduceList [y, x] false g = (.error .type, g) := by
  have h1 : star x y g = (.error .type, g) :=
    C46_unsupported x y (by rw [hx, hy]; exact id) (by rw [hx, hy]; decide) (by rw [hx, hy]; decide) g
  have h2 : star y x g = (.error .type, g) :=
    C46_unsupported y x (by rw [hx, hy]; exact id) (by rw [hx, hy]; decide) (by rw [hx, hy]; decide) g
  have gen : ∀ a b : Contractable K, star a b g = (.error .type, g) → reduceList [a, b] false g = (.error .type, g) := by
    intro a b h
    unfold reduceList prepItems
    simp only [Bool.false_eq_true, if_false]
    rw [CM.bind_ok (show (pure [a, b] : CM _) g = (.ok _, g) from rfl)]
    have : reduceLoop [a, b].length [a, b] g = (.error .type, g) := by
      simp only [List.length_cons, List.length_nil]
      rw [reduceLoop, if_pos (by simp)]
      refine CM.bind_err ?_
      unfold CM.exceptType
      rw [show mulLast [a, b] g = (.error .type, g) from mulLast_err [] a b g g .type h]
      show mulFirst [a, b] g = _
      simp only [mulFirst]
      rw [CM.bind_err h]
    rw [CM.bind_err this]
  exact ⟨gen x y h1, gen y x h2⟩

/-! ### C49 -/

/-- C49: a tensor with an explicit batch axis is always accepted, whatever happened before (so the error message about
different batch sizes is unreachable), and sets the global batch size. -/
theorem C49_batched (m : Make K) (h : m.Batched) (g : Option ℕ) :
    ∃ c, m.run g = (.ok c, some (m.tensor.shape.headD 0)) ∧ c.tensor = m.tensor ∧ c.bondStr = m.str := by
  obtain ⟨h1, h2, h3⟩ := h
  have hd : ∀ sh : Shape, sh.getD 0 0 = sh.headD 0 := by intro sh; cases sh <;> rfl
  have key : ∀ cls (t : Tensor K) s, s.head? = some 'b' → t.shape.length = s.length →
      mkContractable cls t s g = (.ok ⟨cls, t, s⟩, some (t.shape.headD 0)) := by
    intro cls t s a b
    rw [mkContractable_batched cls t s a b g, hd]
  cases m with
  | contractable t s => exact ⟨_, key _ t s h1 h2, rfl, rfl⟩
  | matRegion t =>
    refine ⟨⟨.matRegion, t, ['b', 's', 'l', 'r']⟩, ?_, rfl, rfl⟩
    have h2' : t.shape.length = 4 := h2
    have h3' : t.shape.getD (t.shape.length - 2) 0 = t.shape.getD (t.shape.length - 1) 0 := h3
    simp only [Make.run, mkMatRegion]
    rw [if_neg]
    · exact key _ t _ rfl h2
    · unfold Tensor.ndim
      rintro (h | h)
      · exact h.2 h2'
      · exact h h3'
  | outputCore t =>
    refine ⟨⟨.outputCore, t, ['b', 'o', 'l', 'r']⟩, ?_, rfl, rfl⟩
    simp only [Make.run, mkOutputCore]
    rw [if_neg (by unfold Tensor.ndim; rintro ⟨_, h⟩; exact h h2)]
    exact key _ t _ rfl h2
  | singleMat t =>
    refine ⟨⟨.singleMat, t, ['b', 'l', 'r']⟩, ?_, rfl, rfl⟩
    simp only [Make.run, mkSingleMat]
    rw [if_neg (by unfold Tensor.ndim; rintro ⟨_, h⟩; exact h h2)]
    exact key _ t _ rfl h2
  | outputMat t l =>
    refine ⟨⟨.outputMat, t, ['b', if l then 'r' else 'l', 'o']⟩, ?_, rfl, rfl⟩
    simp only [Make.run, mkOutputMat]
    rw [if_neg (by unfold Tensor.ndim; rintro ⟨_, h⟩; exact h h2)]
    exact key _ t _ rfl h2
  | edgeVec t l =>
    refine ⟨⟨.edgeVec, t, ['b', if l then 'r' else 'l']⟩, ?_, rfl, rfl⟩
    simp only [Make.run, mkEdgeVec]
    rw [if_neg (by unfold Tensor.ndim; rintro ⟨_, h⟩; exact h h2)]
    exact key _ t _ rfl h2
  | scalar t =>
    refine ⟨⟨.scalar, t, ['b']⟩, ?_, rfl, rfl⟩
    simp only [Make.run, mkScalar]
    rw [if_neg (by unfold Tensor.ndim; exact fun h => h h2)]
    exact key _ t _ rfl h2

theorem mkContractable_expand (cls : Cls) (t : Tensor K) (s : List Char) (h1 : t.shape ≠ []) (h2 : s ≠ [])
    (h3 : needsExpand s t.ndim) (g : Option ℕ) :
    mkContractable cls t s g = (match g with
      | some B => .ok ⟨cls, ⟨B :: t.shape, fun idx => t.get (idx.drop 1)⟩, if s.head? = some 'b' then s else 'b' :: s⟩
      | none => .error .runtime, g) := by
  unfold mkContractable
  rw [if_neg (by simp [h1, h2]), if_pos h3]
  rw [CM.bind_ok (show CM.get g = (.ok g, g) from rfl)]
  cases g <;> rfl

theorem mkContractable_state (cls : Cls) (t : Tensor K) (s : List Char) (g : Option ℕ)
    (h : ¬ (s.head? = some 'b' ∧ t.shape.length = s.length)) : (mkContractable cls t s g).2 = g := by
  unfold mkContractable
  split
  · rfl
  · split
    · rw [CM.bind_ok (show CM.get g = (.ok g, g) from rfl)]
      cases g <;> rfl
    · split
      · rfl
      · rename_i h1 h2 h3
        exfalso
        apply h
        unfold Tensor.ndim at h3
        constructor
        · by_contra hh; exact h3 (Or.inl hh)
        · by_contra hh; exact h3 (Or.inr (fun e => hh e.symm))

/-- C49: a tensor that lacks the batch axis is expanded to the current global batch size, every sample getting the given
entries; before any batched tensor it raises RuntimeError. The global batch size is not changed. -/
theorem C49_unbatched (m : Make K) (h : m.Unbatched) :
    m.run none = (.error .runtime, none) ∧ ∀ B, ∃ c, m.run (some B) = (.ok c, some B) ∧
      c.tensor.shape = B :: m.tensor.shape ∧ (∀ b idx, c.tensor.get (b :: idx) = m.tensor.get idx) ∧
      c.bondStr = (if m.str.head? = some 'b' then m.str else 'b' :: m.str) := by
  obtain ⟨h1, h2, h3, h4⟩ := h
  have hne : needsExpand m.str m.tensor.ndim := by
    unfold needsExpand Tensor.ndim
    rcases h4 with h | h
    · exact Or.inr h
    · exact Or.inl h
  have fin : ∀ cls, (∀ g, m.run g = mkContractable cls m.tensor m.str g) →
      m.run none = (.error .runtime, none) ∧ ∀ B, ∃ c, m.run (some B) = (.ok c, some B) ∧
      c.tensor.shape = B :: m.tensor.shape ∧ (∀ b idx, c.tensor.get (b :: idx) = m.tensor.get idx) ∧
      c.bondStr = (if m.str.head? = some 'b' then m.str else 'b' :: m.str) := by
    intro cls hr
    refine ⟨by rw [hr, mkContractable_expand cls _ _ h1 h2 hne], ?_⟩
    intro B
    exact ⟨_, by rw [hr, mkContractable_expand cls _ _ h1 h2 hne], rfl, fun _ _ => rfl, rfl⟩
  cases m with
  | contractable t s => exact fin .contractable (fun _ => rfl)
  | matRegion t =>
    refine fin .matRegion ?_
    intro g
    have h5 : t.shape.length = 3 := by
      rcases h4 with h | h
      · have := h.2; simp [Make.str, Make.tensor] at this; omega
      · exact absurd h.1 (by simp [Make.str])
    simp only [Make.run, mkMatRegion, Make.tensor, Make.str]
    rw [if_neg]
    unfold Tensor.ndim
    rintro (h | h)
    · exact h.1 h5
    · exact h h3
  | outputCore t =>
    refine fin .outputCore ?_
    intro g
    have h5 : t.shape.length = 3 := by
      rcases h4 with h | h
      · have := h.2; simp [Make.str, Make.tensor] at this; omega
      · exact absurd h.1 (by simp [Make.str])
    simp only [Make.run, mkOutputCore, Make.tensor, Make.str]
    rw [if_neg (by unfold Tensor.ndim; exact fun h => h.1 h5)]
  | singleMat t =>
    refine fin .singleMat ?_
    intro g
    have h5 : t.shape.length = 2 := by
      rcases h4 with h | h
      · have := h.2; simp [Make.str, Make.tensor] at this; omega
      · exact absurd h.1 (by simp [Make.str])
    simp only [Make.run, mkSingleMat, Make.tensor, Make.str]
    rw [if_neg (by unfold Tensor.ndim; exact fun h => h.1 h5)]
  | outputMat t l =>
    refine fin .outputMat ?_
    intro g
    have h5 : t.shape.length = 2 := by
      rcases h4 with h | h
      · have := h.2; simp [Make.str, Make.tensor] at this; omega
      · exact absurd h.1 (by simp [Make.str])
    simp only [Make.run, mkOutputMat, Make.tensor, Make.str]
    rw [if_neg (by unfold Tensor.ndim; exact fun h => h.1 h5)]
  | edgeVec t l =>
    refine fin .edgeVec ?_
    intro g
    have h5 : t.shape.length = 1 := by
      rcases h4 with h | h
      · have := h.2; simp [Make.str, Make.tensor] at this; omega
      · exact absurd h.1 (by simp [Make.str])
    simp only [Make.run, mkEdgeVec, Make.tensor, Make.str]
    rw [if_neg (by unfold Tensor.ndim; exact fun h => h.1 h5)]
  | scalar t =>
    exfalso
    rcases h4 with h | h
    · have := h.2; simp [Make.str, Make.tensor] at this; exact h1 this
    · exact absurd h.1 (by simp [Make.str])

/-- Only explicitly batched tensors change the global batch size. -/
theorem make_state (m : Make K) (h : ¬ m.Batched) (g : Option ℕ) : (m.run g).2 = g := by
  have key : ∀ cls (t : Tensor K) s (P : Prop) [Decidable P], (¬ (s.head? = some 'b' ∧ t.shape.length = s.length) ∨ P) →
      ((if P then CM.throw .value else mkContractable cls t s) g).2 = g := by
    intro cls t s P _ hh
    by_cases hP : P
    · rw [if_pos hP]; rfl
    · rw [if_neg hP]
      exact mkContractable_state cls t s g (hh.resolve_right hP)
  unfold Make.Batched at h
  cases m with
  | contractable t s =>
    exact mkContractable_state _ t s g (fun hh => h ⟨hh.1, hh.2, trivial⟩)
  | matRegion t =>
    simp only [Make.run, mkMatRegion]
    refine key _ t _ _ ?_
    by_cases hs : (Make.matRegion t).square
    · exact Or.inl (fun hh => h ⟨hh.1, hh.2, hs⟩)
    · right; right; exact hs
  | outputCore t => exact key _ t _ _ (Or.inl (fun hh => h ⟨hh.1, hh.2, trivial⟩))
  | singleMat t => exact key _ t _ _ (Or.inl (fun hh => h ⟨hh.1, hh.2, trivial⟩))
  | outputMat t l => exact key _ t _ _ (Or.inl (fun hh => h ⟨hh.1, hh.2, trivial⟩))
  | edgeVec t l => exact key _ t _ _ (Or.inl (fun hh => h ⟨hh.1, hh.2, trivial⟩))
  | scalar t => exact key _ t _ _ (Or.inl (fun hh => h ⟨hh.1, hh.2, trivial⟩))

open Classical in
/-- C49: after any history of constructions (failed ones included) the global batch size is that of the last explicitly
batched tensor; if there was none it is what it was. -/
theorem C49_history (ms : List (Make K)) (g : Option ℕ) :
    batchAfter g ms = (match (ms.filter (fun m => decide m.Batched)).getLast? with
      | some m => some (m.tensor.shape.headD 0)
      | none => g) := by
  induction ms generalizing g with
  | nil => rfl
  | cons m ms ih =>
    rw [batchAfter, ih]
    by_cases hm : m.Batched
    · rw [List.filter_cons_of_pos (by simpa using hm)]
      obtain ⟨c, hc, _⟩ := C49_batched m hm g
      rw [hc]
      cases hl : (ms.filter (fun m => decide m.Batched)) with
      | nil => rfl
      | cons a l =>
        rw [List.getLast?_cons_cons]
        cases hgl : (a :: l).getLast? with
        | none => simp at hgl
        | some z => rfl
    · rw [List.filter_cons_of_neg (by simpa using hm), make_state m hm g]

/-! ### C50 -/

/-- C50: the list constructor accepts every list, also the empty one; reducing an empty list raises IndexError. -/
theorem C50_empty_list [CommSemiring K] (par : Bool) (g : Option ℕ) :
    (∀ cs : List (Contractable K), mkList cs = .ok cs) ∧ reduceList ([] : List (Contractable K)) par g = (.error .index, g) := by
  refine ⟨fun _ => rfl, ?_⟩
  cases par <;> rfl

/-- C50: scalars without axes are rejected (ValueError), although the error message offers them. -/
theorem C50_scalar (t : Tensor K) (ht : t.shape = []) (g : Option ℕ) : mkScalar t g = (.error .value, g) := by
  unfold mkScalar
  rw [if_pos (by simp [Tensor.ndim, ht])]
  rfl

/-- C50: multiplying a non-empty list of contractables by a contractable, from either side, always raises: AttributeError if
the item it starts with (the last one for `list * c`, the first one for `c * list`) is a scalar, TypeError otherwise. With an empty list the
bare tensor of the other factor comes back. -/
theorem C50_list_mul (cs : List (Contractable K)) (other : Contractable K) :
    (∀ c l, cs = c :: l → listMul cs other true = .error (if c.cls = .scalar then .attribute else .type)) ∧
    (∀ c l, cs = l ++ [c] → listMul cs other false = .error (if c.cls = .scalar then .attribute else .type)) ∧
    (cs = [] → ∀ rmul, listMul cs other rmul = .ok other.tensor) := by
  refine ⟨?_, ?_, ?_⟩
  · rintro c l rfl
    cases h : c.cls <;> simp [listMul, itemTimesTensor, h]
  · rintro c l rfl
    cases h : c.cls <;> simp [listMul, itemTimesTensor, h]
  · rintro rfl rmul
    cases rmul <;> rfl

/-- concrete chain with a region of three matrices, a single matrix and a rectangular output core -/
example : ∃ (e r : Contractable ℤ) (mids : List (Contractable ℤ)), (Piece 2 e ∧ e.cls = .edgeVec ∧ e.bondStr = ['b', 'r']) ∧
    (Piece 2 r ∧ r.cls = .edgeVec ∧ r.bondStr = ['b', 'l']) ∧ (∀ c ∈ mids, Piece 2 c) ∧ OneOutput 5 mids ∧
    Joined (e :: mids ++ [r]) ∧ mids.length = 3 := by
  refine ⟨⟨.edgeVec, ⟨[2, 3], fun _ => 1⟩, ['b', 'r']⟩, ⟨.edgeVec, ⟨[2, 4], fun _ => 1⟩, ['b', 'l']⟩,
    [⟨.matRegion, ⟨[2, 3, 3, 3], fun _ => 1⟩, ['b', 's', 'l', 'r']⟩, ⟨.outputCore, ⟨[2, 5, 3, 4], fun _ => 1⟩, ['b', 'o', 'l', 'r']⟩,
      ⟨.singleMat, ⟨[2, 4, 4], fun _ => 1⟩, ['b', 'l', 'r']⟩], ⟨⟨⟨rfl, by decide, by decide, rfl⟩, Or.inr rfl, rfl, by simp⟩, rfl, rfl⟩,
    ⟨⟨⟨rfl, by decide, by decide, rfl⟩, Or.inl rfl, rfl, by simp⟩, rfl, rfl⟩, ?_, ?_, ?_, rfl⟩
  · intro c hc
    simp only [List.mem_cons, List.not_mem_nil, or_false] at hc
    rcases hc with rfl | rfl | rfl
    · exact ⟨⟨rfl, by decide, by decide, rfl⟩, ⟨rfl, rfl⟩, rfl, fun _ => by decide⟩
    · exact ⟨⟨rfl, by decide, by decide, rfl⟩, rfl, rfl, by simp⟩
    · exact ⟨⟨rfl, by decide, by decide, rfl⟩, rfl, rfl, by simp⟩
  · exact ⟨[_], _, [_], rfl, by simp [IsMid], by simp [IsMid], rfl, rfl⟩
  · exact ⟨rfl, rfl, rfl, rfl, trivial⟩

end TorchMPS
