import Verif.Lemmas.Mps
import Verif.Lemmas.Stale
/-
A linear region whose first core, the output core, was made for an old batch size.
-/
namespace TorchMPS
open Spec
variable {K : Type}

theorem star_repeat [CommSemiring K] (x y : Contractable K) (hx : Labelled x) (hy : Labelled y) (hcls : CanMultiply x.cls y.cls) (g : Option ℕ) :
    (axis x 'b' = 1 → star x y g = star (repeatSample (axis y 'b') x) y g) ∧
    (axis y 'b' = 1 → star x y g = star x (repeatSample (axis x 'b') y) g) := by
  refine ⟨fun h => ?_, fun h => ?_⟩
  · obtain ⟨h1, h2⟩ := gmul_repeat_left x y hx hy h
    exact star_congr x y (repeatSample (axis y 'b') x) y rfl rfl hcls g (congrFun h1 g) (congrFun h2 g)
  · obtain ⟨h1, h2⟩ := gmul_repeat_right x y hx hy h
    exact star_congr x y x (repeatSample (axis x 'b') y) rfl rfl hcls g (congrFun h1 g) (congrFun h2 g)

/-- the sample of a batch of size `B` used for row `b` -/
def row (B b : ℕ) : ℕ := if B = 1 then 0 else b

/-- a contractable brought to batch size `M` -/
def widen (M : ℕ) (c : Contractable K) : Contractable K := if axis c 'b' = 1 then repeatSample M c else c

theorem widen_cls (M : ℕ) (c : Contractable K) : (widen M c).cls = c.cls := by
  unfold widen; split <;> rfl

theorem widen_str (M : ℕ) (c : Contractable K) : (widen M c).bondStr = c.bondStr := by
  unfold widen; split <;> rfl

theorem repeat_axis (M : ℕ) (c : Contractable K) (hc : Labelled c) (d : Char) (hd : d ≠ 'b') : axis (repeatSample M c) d = axis c d := by
  obtain ⟨s, n, sh, h1, h2, _⟩ := labelled_cons hc
  unfold axis repeatSample
  simp only [h1, h2, List.tail_cons]
  rw [List.idxOf_cons_ne _ (Ne.symm hd)]
  rfl

theorem widen_axis (M : ℕ) (c : Contractable K) (hc : Labelled c) (d : Char) (hd : d ≠ 'b') : axis (widen M c) d = axis c d := by
  unfold widen
  split
  · exact repeat_axis M c hc d hd
  · rfl

theorem widen_piece (M B : ℕ) (c : Contractable K) (hc : Piece B c) (hB : B = 1 ∨ B = M) : Piece M (widen M c) := by
  unfold widen
  split
  · rename_i h
    obtain ⟨s, n, sh, h1, h2, h3⟩ := labelled_cons hc.labelled
    have hax := fun d => repeat_axis M c hc.labelled d
    refine ⟨⟨hc.labelled.batchFirst, hc.labelled.distinct, hc.labelled.lower, ?_⟩, ?_, ?_, ?_⟩
    · have := hc.labelled.order
      unfold repeatSample
      simp only [h2, List.tail_cons, List.length_cons] at this ⊢
      exact this
    · have := hc.string
      unfold ClassString at this ⊢
      show match c.cls with | .contractable => True | .matRegion => _ | .outputCore => _ | .singleMat => _ | .outputMat => _ | .edgeVec => _ | .scalar => _
      cases hq : c.cls <;> rw [hq] at this <;> simp only at this ⊢ <;> first | exact this | skip
      exact ⟨this.1, by rw [hax 'l' (by decide), hax 'r' (by decide)]; exact this.2⟩
    · unfold axis repeatSample
      simp [h1]
    · intro h'
      rw [hax 's' (by decide)]
      exact hc.sites h'
  · rename_i h
    rw [hc.batch] at h
    rw [← hB.resolve_left h]
    exact hc

theorem place_batch (s : List Char) (h : 'b' ∉ s) (b b' l r : ℕ) (x : List ℕ) : place s b l r x = place s b' l r x := by
  induction s generalizing x with
  | nil => rfl
  | cons c s ih =>
    have hc : c ≠ 'b' := fun hc => h (by simp [hc])
    have hs : 'b' ∉ s := fun hs => h (by simp [hs])
    simp only [place, if_neg hc, ih hs]

theorem widen_matOf [Zero K] (M B : ℕ) (c : Contractable K) (hc : Piece B c) (b o : ℕ) : matOf (widen M c) b o = matOf c (row B b) o := by
  have hl := hc.labelled
  have e1 : rows (widen M c) = rows c := by
    unfold rows
    rw [widen_str]
    split
    · exact widen_axis M c hl 'l' (by decide)
    · rfl
  have e2 : cols (widen M c) = cols c := by
    unfold cols
    rw [widen_str]
    split
    · exact widen_axis M c hl 'r' (by decide)
    · rfl
  unfold matOf
  rw [e1, e2]
  refine mat_of_congr _ _ _ _ ?_
  intro i _ j _
  unfold entry
  obtain ⟨s, n, sh, h1, h2, h3⟩ := labelled_cons hl
  unfold row
  rw [← hc.batch]
  unfold widen
  split
  · unfold repeatSample
    simp only [h1]
    have hnd := hl.distinct
    rw [h1] at hnd
    simp [place, place_batch s (List.nodup_cons.1 hnd).1 b 0]
  · rfl

theorem star_widen [CommSemiring K] (x y : Contractable K) (Bx By M : ℕ) (hx : Piece Bx x) (hy : Piece By y) (hcls : CanMultiply x.cls y.cls)
    (h : (Bx = 1 ∧ By = M) ∨ (Bx = M ∧ (By = 1 ∨ By = M))) (g : Option ℕ) : star x y g = star (widen M x) (widen M y) g := by
  obtain ⟨h1, h2⟩ := star_repeat x y hx.labelled hy.labelled hcls g
  by_cases ax : axis x 'b' = 1 <;> by_cases ay : axis y 'b' = 1
  · -- both 1
    have hM : M = 1 := by
      rw [hx.batch] at ax
      rw [hy.batch] at ay
      omega
    have e1 := h1 ax
    rw [ay] at e1
    unfold widen
    rw [if_pos ax, if_pos ay, hM, e1]
    have hp := widen_piece 1 Bx x hx (by rw [← hx.batch]; exact Or.inl ax)
    unfold widen at hp
    rw [if_pos ax] at hp
    obtain ⟨_, h3⟩ := star_repeat (repeatSample 1 x) y hp.labelled hy.labelled hcls g
    have h4 := h3 ay
    rw [hp.batch] at h4
    exact h4
  · have hM : axis y 'b' = M := by
      rw [hx.batch] at ax
      rw [hy.batch] at ay ⊢
      omega
    unfold widen
    rw [if_pos ax, if_neg ay, h1 ax, hM]
  · have hM : axis x 'b' = M := by
      rw [hy.batch] at ay
      rw [hx.batch] at ax ⊢
      omega
    unfold widen
    rw [if_neg ax, if_pos ay, h2 ay, hM]
  · unfold widen
    rw [if_neg ax, if_neg ay]

/-- The last two products of an open chain, the output core having another batch size. -/
theorem stale_tail [CommSemiring K] (B b0 M O : ℕ) (e oc ev : Contractable K) (he : Piece B e ∧ e.cls = .edgeVec ∧ e.bondStr = ['b', 'r'])
    (hoc : Piece b0 oc ∧ oc.cls = .outputCore ∧ axis oc 'o' = O) (hev : Piece B ev ∧ ev.cls = .edgeVec ∧ ev.bondStr = ['b', 'l'])
    (h1 : axis e 'r' = axis oc 'l') (h2 : axis oc 'r' = axis ev 'l')
    (hM : (b0 = 1 ∧ B = M) ∨ (b0 = M ∧ (B = 1 ∨ B = M))) (g : Option ℕ) (n : ℕ) :
    ∃ c, reduceLoop (n + 2) [e, oc, ev] g = (.ok [c], some M) ∧ c.tensor.shape = [M, O] ∧ ∀ b < M, ∀ o < O,
      prodL [matOf e (row B b) o, matOf oc (row b0 b) o, matOf ev (row B b) o] = some (matOf c b o) ∧ matOf c b o = Mat.of 1 1 (fun _ _ => c.tensor.get [b, o]) := by
  have hB : B = 1 ∨ B = M := by omega
  have hb0 : b0 = 1 ∨ b0 = M := by omega
  have pe := widen_piece M B e he.1 hB
  have po := widen_piece M b0 oc hoc.1 hb0
  have pv := widen_piece M B ev hev.1 hB
  have so := mid_core_str b0 oc hoc.1 hoc.2.1
  have oo : outs (widen M oc) = ['o'] := by
    unfold outs
    rw [if_neg (by rw [widen_cls, hoc.2.1]; decide), widen_str, so]
    decide
  have oe : outs (widen M e) = [] := edge_outs _ 'r' (Or.inr rfl) (by rw [widen_str]; exact he.2.2)
  have ov : outs (widen M ev) = [] := edge_outs _ 'l' (Or.inl rfl) (by rw [widen_str]; exact hev.2.2)
  have cm1 : CanMultiply (widen M oc).cls (widen M ev).cls := by rw [widen_cls, widen_cls, hoc.2.1, hev.2.1]; trivial
  obtain ⟨c, c1, c2⟩ := star_gen M O (widen M oc) (widen M ev) po pv cm1 (by rw [widen_str, so]; decide) (by rw [widen_str, hev.2.2]; decide)
    (by rw [widen_axis M oc hoc.1.labelled _ (by decide), widen_axis M ev hev.1.labelled _ (by decide)]; exact h2)
    (Or.inr ⟨oo, by rw [widen_axis M oc hoc.1.labelled _ (by decide)]; exact hoc.2.2⟩) (Or.inl ov) (Or.inr ov) g
  have ce : OEnd M O c := c2.oend (by rw [oo, ov]; rfl) (by rw [widen_str, so]; decide) (by rw [widen_str, hev.2.2]; decide)
  have hs1 : star oc ev g = (.ok c, some M) := by
    rw [star_widen oc ev b0 B M hoc.1 hev.1 (by rw [hoc.2.1, hev.2.1]; trivial) hM g]
    exact c1
  have cc : c.cls = .contractable := by
    rw [c2.cls, c2.str, c2.outs_eq, oo, ov]
    rw [widen_str, widen_str, so, hev.2.2]
    decide
  obtain ⟨d, d1, d2⟩ := star_gen M O (widen M e) c pe ce.piece (by rw [widen_cls, he.2.1, cc]; trivial) (by rw [widen_str, he.2.2]; decide) ce.left
    (by rw [widen_axis M e he.1.labelled _ (by decide), c2.left (by rw [widen_str, so]; decide), widen_axis M oc hoc.1.labelled _ (by decide)]; exact h1)
    (Or.inl oe) (Or.inr ⟨ce.outs_eq, ce.size⟩) (Or.inl oe) (some M)
  have hs2 : star e c (some M) = (.ok d, some M) := by
    have := star_widen e c B M M he.1 ce.piece (by rw [he.2.1, cc]; trivial) (by omega) (some M)
    rw [this]
    have hw : star (widen M e) (widen M c) (some M) = star (widen M e) c (some M) := by
      rw [← this]
      have h3 : star e c (some M) = star (widen M e) c (some M) := by
        by_cases hb : axis e 'b' = 1
        · unfold widen
          rw [if_pos hb, (star_repeat e c he.1.labelled ce.piece.labelled (by rw [he.2.1, cc]; trivial) (some M)).1 hb, ce.piece.batch]
        · unfold widen
          rw [if_neg hb]
      exact h3
    rw [hw]
    exact d1
  have sd : d.bondStr = ['b', 'o'] := by
    rw [d2.str, d2.outs_eq, oe, ce.outs_eq, if_neg (by rw [widen_str, he.2.2]; decide), if_neg ce.noRight]; rfl
  have od : axis d 'o' = O := by
    have := d2.outOK
    unfold OutOK at this
    rw [d2.outs_eq, oe, ce.outs_eq] at this
    simpa using this
  have shd : d.tensor.shape = [M, O] := by
    have := map_axis d d2.piece.labelled.order d2.piece.labelled.distinct
    rw [← this, sd]
    simp [d2.piece.batch, od]
  refine ⟨d, ?_, shd, ?_⟩
  · have r1 := reduceLoop_last (n + 1) [e] oc ev c g (some M) hs1
    have r2 := reduceLoop_last n [] e c d (some M) (some M) hs2
    simp only [List.cons_append, List.nil_append] at r1 r2
    rw [r1, r2, reduceLoop_one]
  · intro b hb o ho
    have q1 := c2.prod b hb o ho
    have q2 := d2.prod b hb o ho
    rw [factors_single _ (by rw [widen_cls, hoc.2.1]; decide), factors_single _ (by rw [widen_cls, hev.2.1]; decide),
      widen_matOf M b0 oc hoc.1, widen_matOf M B ev hev.1] at q1
    rw [factors_single _ (by rw [widen_cls, he.2.1]; decide), factors_single c c2.notRegion, widen_matOf M B e he.1] at q2
    refine ⟨?_, ?_⟩
    · rw [← q2]
      have := prodL_congr [matOf e (row B b) o] [matOf oc (row b0 b) o, matOf ev (row B b) o] [matOf c b o] [] (matOf c b o) q1 rfl
      simpa using this
    · unfold matOf rows cols entry
      rw [sd]
      rfl

/-- `b0` and `B` are brought to the common batch size `M`. -/
def Common (b0 B M : ℕ) : Prop := (b0 = 1 ∧ B = M) ∨ (b0 = M ∧ (B = 1 ∨ B = M))

theorem Common.row_lt {b0 B M : ℕ} (h : Common b0 B M) (b : ℕ) (hb : b < M) : row B b < B ∧ row b0 b < b0 := by
  unfold Common at h
  unfold row
  constructor <;> split <;> omega

/-- an output core of batch size `b0`, a matrix (region) `X` of batch size `B` and end vectors of batch size `B` -/
theorem stale_loop [CommSemiring K] (D B b0 M O : ℕ) (e oc X r : Contractable K) (he : Piece B e ∧ e.cls = .edgeVec ∧ e.bondStr = ['b', 'r'])
    (hoc : Piece b0 oc ∧ oc.cls = .outputCore ∧ axis oc 'o' = O) (hX : Piece B X ∧ IsMid X)
    (hr : Piece B r ∧ r.cls = .edgeVec ∧ r.bondStr = ['b', 'l'])
    (he' : axis e 'r' = D) (hoc' : axis oc 'l' = D ∧ axis oc 'r' = D) (hX' : axis X 'l' = D ∧ axis X 'r' = D) (hr' : axis r 'l' = D)
    (hM : Common b0 B M) (g : Option ℕ) (n : ℕ) :
    ∃ c, reduceLoop (n + 3) [e, oc, X, r] g = (.ok [c], some M) ∧ c.tensor.shape = [M, O] ∧ ∀ b < M, ∀ o < O, ∃ P,
      prodL ([matOf e (row B b) o, matOf oc (row b0 b) o] ++ factors X (row B b) o ++ [matOf r (row B b) o]) = some P ∧
      P.e 0 0 = c.tensor.get [b, o] := by
  obtain ⟨ev, v1, v2⟩ := star_mid_edge B O X r hX.1 hr.1 hX.2 hr.2.1 hr.2.2 (by rw [hX'.2, hr']) g
  have hxl := (mid_has B X hX.1 (Or.inl hX.2)).1
  obtain ⟨v3, v4⟩ := v2.edge_right (mid_outs B X hX.1 hX.2) (edge_outs r 'l' (Or.inl rfl) hr.2.2) hxl (by rw [hr.2.2]; decide)
  obtain ⟨c, c1, c2, c3⟩ := stale_tail B b0 M O e oc ev he hoc ⟨v2.piece, v4, v3⟩ (by rw [he', hoc'.1])
    (by rw [hoc'.2, v2.left hxl, hX'.1]) hM (some B) n
  refine ⟨c, ?_, c2, ?_⟩
  · have r1 := reduceLoop_last (n + 2) [e, oc] X r ev g (some B) v1
    simp only [List.cons_append, List.nil_append] at r1
    rw [r1, c1]
  · intro b hb o ho
    obtain ⟨q1, q2⟩ := c3 b hb o ho
    have q3 := v2.prod (row B b) (hM.row_lt b hb).1 o ho
    rw [factors_single r (by rw [hr.2.1]; decide)] at q3
    refine ⟨matOf c b o, ?_, ?_⟩
    · rw [← q1]
      have := prodL_congr [matOf e (row B b) o, matOf oc (row b0 b) o] _ [matOf ev (row B b) o] [] _ q3 rfl
      simpa using this
    · rw [q2]; rfl

theorem stale_loop_err [CommSemiring K] (D B b0 O : ℕ) (e oc X r : Contractable K)
    (hoc : Piece b0 oc ∧ oc.cls = .outputCore ∧ axis oc 'o' = O) (hX : Piece B X ∧ IsMid X)
    (hr : Piece B r ∧ r.cls = .edgeVec ∧ r.bondStr = ['b', 'l'])
    (hoc' : axis oc 'l' = D ∧ axis oc 'r' = D) (hX' : axis X 'l' = D ∧ axis X 'r' = D) (hr' : axis r 'l' = D)
    (hM : b0 ≠ B ∧ b0 ≠ 1 ∧ B ≠ 1) (g : Option ℕ) (n : ℕ) :
    reduceLoop (n + 3) [e, oc, X, r] g = (.error .runtime, some B) := by
  obtain ⟨ev, v1, v2⟩ := star_mid_edge B O X r hX.1 hr.1 hX.2 hr.2.1 hr.2.2 (by rw [hX'.2, hr']) g
  have hxl := (mid_has B X hX.1 (Or.inl hX.2)).1
  obtain ⟨v3, v4⟩ := v2.edge_right (mid_outs B X hX.1 hX.2) (edge_outs r 'l' (Or.inl rfl) hr.2.2) hxl (by rw [hr.2.2]; decide)
  have so := mid_core_str b0 oc hoc.1 hoc.2.1
  have hs : star oc ev (some B) = (.error .runtime, some B) := by
    refine C46_size_mismatch oc ev hoc.1.labelled v2.piece.labelled (by rw [hoc.2.1, v4]; trivial) (by rw [so]; decide) (by rw [v3]; decide) ?_ ?_ _
    · rw [so, v3]
      unfold EnoughLetters
      decide
    · right
      rw [hoc.1.batch, v2.piece.batch]
      exact hM
  have r1 := reduceLoop_last (n + 2) [e, oc] X r ev g (some B) v1
  simp only [List.cons_append, List.nil_append] at r1
  rw [r1, reduceLoop, if_pos (by simp)]
  refine CM.bind_err ?_
  unfold CM.exceptType
  have := mulLast_err [e] oc ev (some B) (some B) _ hs
  simp only [List.cons_append, List.nil_append] at this
  rw [this]

/-- the end vector as contractable -/
def endPiece [Zero K] [One K] (B D : ℕ) (left : Bool) : Contractable K :=
  ⟨.edgeVec, ⟨[B, D], fun idx => if (idx.drop 1).getD 0 0 = 0 then 1 else 0⟩, ['b', if left then 'r' else 'l']⟩

theorem closeOpen_two [CommSemiring K] (D B b0 : ℕ) (hD : 1 ≤ D) (oc reg : Contractable K) (hoc : Piece b0 oc ∧ oc.cls = .outputCore)
    (hr : Piece B reg ∧ reg.cls = .matRegion) (hoc' : axis oc 'l' = D ∧ axis oc 'r' = D) (hr' : axis reg 'l' = D ∧ axis reg 'r' = D) (par : Bool) :
    ∃ X, Piece B X ∧ IsMid X ∧ axis X 'l' = D ∧ axis X 'r' = D ∧ (∀ b < B, ∀ o, prodL (factors reg b o) = prodL (factors X b o)) ∧
      (∀ b o, factors reg b o ≠ []) ∧
      ∃ g1, ∀ res, reduceLoop 4 [endPiece B D true, oc, X, endPiece B D false] g1 = res →
        (∀ er g2, res = (.error er, g2) → closeOpen [oc, reg] par (some B) = (.error er, g2)) ∧
        (∀ c g2, res = (.ok [c], g2) → closeOpen [oc, reg] par (some B) = (.ok c.tensor, g2)) := by
  have so := mid_core_str b0 oc hoc.1 hoc.2
  have b1 : bondSize oc 'l' = .ok D := by
    unfold bondSize
    rw [if_pos (by rw [so]; decide)]
    exact congrArg _ hoc'.1
  have b2 : bondSize reg 'r' = .ok D := by
    unfold bondSize
    rw [if_pos (by rw [(region_shape B reg hr.1 hr.2).1]; decide)]
    exact congrArg _ hr'.2
  have hv : endVec (K := K) D = Except.ok ⟨[D], fun idx => if idx.getD 0 0 = 0 then 1 else 0⟩ := by
    unfold endVec; rw [if_neg (by omega)]
  have start : closeOpen [oc, reg] par (some B) = (do
      let (c, _) ← reduceList [endPiece B D true, oc, reg, endPiece B D false] par
      return c.tensor : CM (Tensor K)) (some B) := by
    unfold closeOpen
    have h1 : [oc, reg].head? = some oc := rfl
    have h2 : [oc, reg].getLast? = some reg := rfl
    rw [h1, h2]
    simp only
    rw [b1, b2, CM.bind_ok (CM.lift_apply _ _), CM.bind_ok (CM.lift_apply _ _), hv, CM.bind_ok (CM.lift_apply _ _), CM.bind_ok (CM.lift_apply _ _)]
    rw [CM.bind_ok (mkEdgeVec_expand D true _ rfl B), CM.bind_ok (mkEdgeVec_expand D false _ rfl B)]
    rfl
  obtain ⟨d, d1, d2⟩ := reduceItem_ok B reg hr.1
  have hne := d2.nonempty
  cases par with
  | false =>
    refine ⟨reg, hr.1, Or.inl hr.2, hr'.1, hr'.2, fun _ _ _ => rfl, hne, some B, ?_⟩
    intro res hres
    refine ⟨?_, ?_⟩
    · rintro er g2 rfl
      rw [start]
      refine CM.bind_err ?_
      unfold reduceList
      rw [CM.bind_ok (show prepItems _ false (some B) = (.ok _, some B) from rfl)]
      refine CM.bind_err ?_
      exact hres
    · rintro c g2 rfl
      rw [start]
      have : reduceList [endPiece B D true, oc, reg, endPiece B D false] false (some B) = (.ok (c, [c]), g2) := by
        unfold reduceList
        rw [CM.bind_ok (show prepItems _ false (some B) = (.ok _, some B) from rfl)]
        exact (CM.bind_ok hres).trans rfl
      rw [CM.bind_ok this]
      rfl
  | true =>
    obtain ⟨g1, e1, e2⟩ := d1 (some B)
    have hprep : prepItems [endPiece B D true, oc, reg, endPiece B D false] true (some B) =
        (.ok [endPiece B D true, oc, d, endPiece B D false], g1) := by
      unfold prepItems
      simp only [if_true, reduceItems]
      have k1 : ∀ c : Contractable K, c.cls ≠ .matRegion → ∀ g, reduceItem c g = (.ok c, g) := by
        intro c hc g
        unfold reduceItem
        rw [if_neg hc]
        rfl
      rw [CM.bind_ok (k1 _ (by simp [endPiece]) _), CM.bind_ok (show ((_ : CM _) (some B)) = (.ok [oc, d, endPiece B D false], g1) from ?_)]
      · rfl
      · rw [CM.bind_ok (k1 _ (by rw [hoc.2]; decide) _), CM.bind_ok (show ((_ : CM _) (some B)) = (.ok [d, endPiece B D false], g1) from ?_)]
        · rfl
        · rw [CM.bind_ok e1, CM.bind_ok (show ((_ : CM _) g1) = (.ok [endPiece B D false], g1) from ?_)]
          · rfl
          · rw [CM.bind_ok (k1 _ (by simp [endPiece]) _)]
            rfl
    refine ⟨d, d2.piece, Or.inr (d2.single hr.2), by rw [d2.left, hr'.1], by rw [d2.right, hr'.2], d2.prod, hne, g1, ?_⟩
    intro res hres
    refine ⟨?_, ?_⟩
    · rintro er g2 rfl
      rw [start]
      refine CM.bind_err ?_
      unfold reduceList
      rw [CM.bind_ok hprep]
      refine CM.bind_err ?_
      exact hres
    · rintro c g2 rfl
      rw [start]
      have : reduceList [endPiece B D true, oc, reg, endPiece B D false] true (some B) =
          (.ok (c, [endPiece B D true, oc, reg, endPiece B D false]), g2) := by
        unfold reduceList
        rw [CM.bind_ok hprep]
        exact (CM.bind_ok hres).trans rfl
      rw [CM.bind_ok this]
      rfl

theorem endPiece_piece [Zero K] [One K] (B D : ℕ) (left : Bool) : Piece B (endPiece (K := K) B D left) := edge_piece B D left _ rfl

/-- Open boundaries: the outcome for an output core of batch size `b0` followed by a region of batch size `B`. -/
theorem stale_open [CommSemiring K] (D B b0 O : ℕ) (hD : 1 ≤ D) (oc reg : Contractable K) (A : ℕ → Mat K)
    (hoc : Piece b0 oc ∧ oc.cls = .outputCore ∧ axis oc 'o' = O) (hA : ∀ b < b0, ∀ o < O, matOf oc b o = A o)
    (hA' : ∀ o, (A o).r = D ∧ (A o).c = D)
    (hr : Piece B reg ∧ reg.cls = .matRegion) (hf : ∀ b < B, ∀ o < O, ∀ C ∈ factors reg b o, C.r = D ∧ C.c = D)
    (hoc' : axis oc 'l' = D ∧ axis oc 'r' = D) (hr' : axis reg 'l' = D ∧ axis reg 'r' = D) (par : Bool) :
    (b0 ≠ B → b0 ≠ 1 → B ≠ 1 → ∃ g, closeOpen [oc, reg] par (some B) = (.error .runtime, g)) ∧
    (∀ M, Common b0 B M → ∃ y g, closeOpen [oc, reg] par (some B) = (.ok y, g) ∧ y.shape = [M, O] ∧ ∀ b < M, ∀ o < O, ∃ P,
      orderedProd (A o :: factors reg (row B b) o) = some P ∧ y.get [b, o] = P.e 0 0) := by
  obtain ⟨X, x1, x2, x3, x4, x5, x6, g1, x7⟩ := closeOpen_two D B b0 hD oc reg ⟨hoc.1, hoc.2.1⟩ hr hoc' hr' par
  have pe := endPiece_piece (K := K) B D true
  have pr := endPiece_piece (K := K) B D false
  refine ⟨?_, ?_⟩
  · intro h1 h2 h3
    have hz := stale_loop_err D B b0 O (endPiece B D true) oc X (endPiece B D false) hoc ⟨x1, x2⟩ ⟨pr, rfl, rfl⟩ hoc' ⟨x3, x4⟩
      (by simp [axis, endPiece]) ⟨h1, h2, h3⟩ g1 1
    exact ⟨_, (x7 _ hz).1 _ _ rfl⟩
  · intro M hM
    obtain ⟨c, c1, c2, c3⟩ := stale_loop D B b0 M O (endPiece B D true) oc X (endPiece B D false) ⟨pe, rfl, rfl⟩ hoc ⟨x1, x2⟩ ⟨pr, rfl, rfl⟩
      (by simp [axis, endPiece]) hoc' ⟨x3, x4⟩ (by simp [axis, endPiece]) hM g1 1
    refine ⟨c.tensor, _, (x7 _ c1).2 _ _ rfl, c2, ?_⟩
    intro b hb o ho
    obtain ⟨P', p1, p2⟩ := c3 b hb o ho
    obtain ⟨l1, l2⟩ := hM.row_lt b hb
    obtain ⟨P, hP⟩ : ∃ P, prodL (A o :: factors reg (row B b) o) = some P := ⟨_, rfl⟩
    refine ⟨P, by rw [orderedProd_eq]; exact hP, ?_⟩
    have hsz := prodL_size D (A o :: factors reg (row B b) o) (by
      intro C hC
      rcases List.mem_cons.1 hC with rfl | hC
      · exact hA' o
      · exact hf _ l1 o ho C hC) P hP
    obtain ⟨Q, hQ⟩ : ∃ Q, prodL (factors reg (row B b) o) = some Q := by
      cases hq : factors reg (row B b) o with
      | nil => exact absurd hq (x6 _ _)
      | cons a l => exact ⟨_, rfl⟩
    have hQX : prodL (factors X (row B b) o) = some Q := by rw [← x5 _ l1 o]; exact hQ
    have he : matOf (endPiece (K := K) B D true) (row B b) o = Mat.of 1 D (fun _ j => if j = 0 then (1 : K) else 0) := by
      rw [edge_mat_left _ rfl]
      simp [axis, endPiece]
    have hrr : matOf (endPiece (K := K) B D false) (row B b) o = Mat.of D 1 (fun i _ => if i = 0 then (1 : K) else 0) := by
      rw [edge_mat_right _ rfl]
      simp [axis, endPiece]
    rw [hA _ l2 o ho, prodL_congr _ _ _ _ _ hQX hQ, he, hrr] at p1
    have e1 : ([Mat.of 1 D (fun _ j => if j = 0 then (1 : K) else 0), A o] ++ factors reg (row B b) o) =
        [Mat.of 1 D (fun _ j => if j = 0 then (1 : K) else 0)] ++ (A o :: factors reg (row B b) o) := rfl
    rw [e1, prodL_append _ _ (by simp) (by simp), prodL_append _ _ (by simp) (by simp), hP] at p1
    simp only [prodL, matProd, List.foldl_nil, Option.bind_some, Option.map_some, Option.some.injEq] at p1
    rw [← p2, ← p1]
    exact unit_sandwich D hD P hsz.1 hsz.2

theorem reduceItems_two [CommSemiring K] (B : ℕ) (oc reg d : Contractable K) (hoc : oc.cls = .outputCore) (g g1 : Option ℕ)
    (h : reduceItem reg g = (.ok d, g1)) : reduceItems [oc, reg] g = (.ok [oc, d], g1) := by
  simp only [reduceItems]
  have k1 : reduceItem oc g = (.ok oc, g) := by
    unfold reduceItem
    rw [if_neg (by rw [hoc]; decide)]
    rfl
  rw [CM.bind_ok k1, CM.bind_ok (show ((_ : CM _) g) = (.ok [d], g1) from (CM.bind_ok h).trans rfl)]
  rfl

/-- Periodic boundaries: the outcome for an output core of batch size `b0` followed by a region of batch size `B`. -/
theorem stale_ring [CommSemiring K] (D B b0 O : ℕ) (oc reg : Contractable K) (A : ℕ → Mat K)
    (hoc : Piece b0 oc ∧ oc.cls = .outputCore ∧ axis oc 'o' = O) (hA : ∀ b < b0, ∀ o < O, matOf oc b o = A o)
    (hr : Piece B reg ∧ reg.cls = .matRegion) (hoc' : axis oc 'l' = D ∧ axis oc 'r' = D) (hr' : axis reg 'l' = D ∧ axis reg 'r' = D) (g : Option ℕ) :
    (b0 ≠ B → b0 ≠ 1 → B ≠ 1 → ∃ g', closeRing [oc, reg] g = (.error .runtime, g')) ∧
    (∀ M, Common b0 B M → ∃ y g', closeRing [oc, reg] g = (.ok y, g') ∧ y.shape = [M, O] ∧ ∀ b < M, ∀ o < O, ∃ P,
      orderedProd (A o :: factors reg (row B b) o) = some P ∧ y.get [b, o] = ∑ i ∈ Finset.range D, P.e i i) := by
  obtain ⟨d, d1, d2⟩ := reduceItem_ok B reg hr.1
  obtain ⟨g1, e1, _⟩ := d1 g
  have hds := d2.single hr.2
  have so := mid_core_str b0 oc hoc.1 hoc.2.1
  have sd := mid_single_str B d d2.piece hds
  have hcm : CanMultiply oc.cls d.cls := by rw [hoc.2.1, hds]; trivial
  have hprep : prepItems [oc, reg] true g = (.ok [oc, d], g1) := by
    unfold prepItems
    rw [if_pos rfl]
    exact reduceItems_two B oc reg d hoc.2.1 g g1 e1
  refine ⟨?_, ?_⟩
  · intro h1 h2 h3
    have hs : star oc d g1 = (.error .runtime, g1) := by
      refine C46_size_mismatch oc d hoc.1.labelled d2.piece.labelled hcm (by rw [so]; decide) (by rw [sd]; decide) ?_ ?_ _
      · rw [so, sd]
        unfold EnoughLetters
        decide
      · right
        rw [hoc.1.batch, d2.piece.batch]
        exact ⟨h1, h2, h3⟩
    refine ⟨g1, ?_⟩
    unfold closeRing
    refine CM.bind_err ?_
    unfold reduceList
    rw [CM.bind_ok hprep]
    refine CM.bind_err ?_
    show reduceLoop 2 [oc, d] g1 = _
    rw [reduceLoop, if_pos (by simp)]
    refine CM.bind_err ?_
    unfold CM.exceptType
    have := mulLast_err [] oc d g1 g1 _ hs
    simp only [List.nil_append] at this
    rw [this]
  · intro M hM
    have hB : B = 1 ∨ B = M := by unfold Common at hM; omega
    have hb0 : b0 = 1 ∨ b0 = M := by unfold Common at hM; omega
    have po := widen_piece M b0 oc hoc.1 hb0
    have pd := widen_piece M B d d2.piece hB
    have oo : outs (widen M oc) = ['o'] := by
      unfold outs
      rw [if_neg (by rw [widen_cls, hoc.2.1]; decide), widen_str, so]
      decide
    have od : outs (widen M d) = [] := mid_outs M _ pd (Or.inr (by rw [widen_cls, hds]))
    obtain ⟨c, c1, c2⟩ := star_gen M O (widen M oc) (widen M d) po pd (by rw [widen_cls, widen_cls]; exact hcm) (by rw [widen_str, so]; decide)
      (by rw [widen_str, sd]; decide)
      (by rw [widen_axis M oc hoc.1.labelled _ (by decide), widen_axis M d d2.piece.labelled _ (by decide), hoc'.2, d2.left, hr'.1])
      (Or.inr ⟨oo, by rw [widen_axis M oc hoc.1.labelled _ (by decide)]; exact hoc.2.2⟩) (Or.inl od) (Or.inr od) g1
    have hs : star oc d g1 = (.ok c, some M) := by
      rw [star_widen oc d b0 B M hoc.1 d2.piece hcm hM g1]
      exact c1
    have sc : c.bondStr = ['b', 'o', 'l', 'r'] := by
      rw [c2.str, c2.outs_eq, oo, od, if_pos (by rw [widen_str, so]; decide), if_pos (by rw [widen_str, sd]; decide)]
      rfl
    have oc' : axis c 'o' = O := by
      have := c2.outOK
      unfold OutOK at this
      rw [c2.outs_eq, oo, od] at this
      simpa using this
    have hl : axis c 'l' = D := by
      rw [c2.left (by rw [widen_str, so]; decide), widen_axis M oc hoc.1.labelled _ (by decide), hoc'.1]
    have hrr : axis c 'r' = D := by
      rw [c2.right (by rw [widen_str, sd]; decide), widen_axis M d d2.piece.labelled _ (by decide), d2.right, hr'.2]
    have shc : c.tensor.shape = [M, O, D, D] := by
      have := map_axis c c2.piece.labelled.order c2.piece.labelled.distinct
      rw [← this, sc]
      simp [c2.piece.batch, oc', hl, hrr]
    obtain ⟨y, h1, h2, h3⟩ := einsum_ok (K := K) (fun c => if c = 'b' then M else if c = 'o' then O else D)
      [['b', 'o', 'l', 'l']] ['b', 'o'] [c.tensor] rfl (by simp [shc]) (by decide) (by decide)
    refine ⟨y, some M, ?_, by rw [h2]; rfl, ?_⟩
    · unfold closeRing
      have hred : reduceList [oc, reg] true g = (.ok (c, [oc, reg]), some M) := by
        unfold reduceList
        rw [CM.bind_ok hprep]
        have r1 := reduceLoop_last 1 [] oc d c g1 (some M) hs
        simp only [List.nil_append] at r1
        rw [reduceLoop_one] at r1
        exact (CM.bind_ok r1).trans rfl
      rw [CM.bind_ok hred]
      simp only
      rw [assert_true _ (by rw [sc]; decide), CM.bind_ok (CM.lift_apply _ _)]
      have t1 : traceIn c.bondStr = ['b', 'o', 'l', 'l'] := by rw [sc]; decide
      have t2 : traceOut c.bondStr = ['b', 'o'] := by rw [sc]; decide
      rw [t1, t2, h1]
      rfl
    · intro b hb o ho
      obtain ⟨l1, l2⟩ := hM.row_lt b hb
      obtain ⟨P, hP⟩ : ∃ P, prodL (A o :: factors reg (row B b) o) = some P := ⟨_, rfl⟩
      refine ⟨P, by rw [orderedProd_eq]; exact hP, ?_⟩
      obtain ⟨Q, hQ⟩ : ∃ Q, prodL (factors reg (row B b) o) = some Q := by
        cases hq : factors reg (row B b) o with
        | nil => exact absurd hq (d2.nonempty _ _)
        | cons a l => exact ⟨_, rfl⟩
      have hQd := d2.prod _ l1 o
      rw [hQ, factors_single d (by rw [hds]; decide)] at hQd
      have q1 := c2.prod b hb o ho
      rw [factors_single _ (by rw [widen_cls, hoc.2.1]; decide), factors_single _ (by rw [widen_cls, hds]; decide),
        widen_matOf M b0 oc hoc.1, widen_matOf M B d d2.piece, hA _ l2 o ho] at q1
      have q2 : prodL (A o :: factors reg (row B b) o) = some (matOf c b o) := by
        rw [← q1]
        have := prodL_congr [A o] _ _ [] _ hQ hQd.symm
        simpa using this
      rw [hP] at q2
      have hPc : P = matOf c b o := by simpa using q2
      rw [h3 _ (by simp [hb, ho])]
      have : ([['b', 'o', 'l', 'l']].flatten.dedup).filter (fun c => c ∉ ['b', 'o']) = ['l'] := by decide
      rw [this, hPc]
      simp only [sumOver]
      refine Finset.sum_congr (by simp) ?_
      intro i hi
      have hi : i < D := by simpa using hi
      unfold matOf rows cols entry
      rw [sc]
      simp [Env.ofOut, Env.set, place, Mat.of, hl, hrr, hi]

end TorchMPS
