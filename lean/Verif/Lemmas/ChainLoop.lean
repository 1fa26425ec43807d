import Verif.Lemmas.Chain
/-
The loop of `ContractableList.reduce` on the layouts of an MPS.
-/
namespace TorchMPS
open Spec
variable {K : Type}

/-- factors of a whole list -/
def allFactors [Zero K] (cs : List (Contractable K)) (b o : ℕ) : List (Mat K) := cs.flatMap (fun c => factors c b o)

theorem prodL_eq_none [Semiring K] {l : List (Mat K)} (h : prodL l = none) : l = [] := by
  cases l with
  | nil => rfl
  | cons a l => simp [prodL] at h

theorem prodL_congr [Semiring K] (as u v bs : List (Mat K)) (m : Mat K) (hu : prodL u = some m) (hv : prodL v = some m) :
    prodL (as ++ u ++ bs) = prodL (as ++ v ++ bs) := by
  have nu : u ≠ [] := by rintro rfl; simp [prodL] at hu
  have nv : v ≠ [] := by rintro rfl; simp [prodL] at hv
  have h1 : prodL (as ++ u) = prodL (as ++ v) := by
    by_cases ha : as = []
    · subst ha; simp [hu, hv]
    · rw [prodL_append _ _ ha nu, prodL_append _ _ ha nv, hu, hv]
  by_cases hb : bs = []
  · subst hb; simpa using h1
  · rw [prodL_append _ _ (by simp [nu]) hb, prodL_append _ _ (by simp [nv]) hb, h1]

theorem allFactors_replace [Semiring K] (B O : ℕ) (as bs : List (Contractable K)) (x y c : Contractable K)
    (h : Merged B O x y c) (b o : ℕ) (hb : b < B) (ho : o < O) :
    prodL (allFactors (as ++ x :: y :: bs) b o) = prodL (allFactors (as ++ c :: bs) b o) := by
  have e1 : allFactors (as ++ x :: y :: bs) b o = allFactors as b o ++ (factors x b o ++ factors y b o) ++ allFactors bs b o := by
    simp [allFactors]
  have e2 : allFactors (as ++ c :: bs) b o = allFactors as b o ++ [matOf c b o] ++ allFactors bs b o := by
    simp [allFactors, factors_single c h.notRegion]
  rw [e1, e2]
  exact prodL_congr _ _ _ _ _ (h.prod b hb o ho) rfl

theorem joined_snoc (as : List (Contractable K)) (x r c : Contractable K) (h : Joined (as ++ [x, r]))
    (hc : axis c 'l' = axis x 'l') : Joined (as ++ [c]) ∧ axis x 'r' = axis r 'l' := by
  induction as with
  | nil => exact ⟨trivial, h.1⟩
  | cons a as ih =>
    cases as with
    | nil => exact ⟨⟨by rw [hc]; exact h.1, trivial⟩, h.2.1⟩
    | cons a' as =>
      have := ih h.2
      exact ⟨⟨h.1, this.1⟩, this.2⟩

theorem mulLast_ok [CommSemiring K] (as : List (Contractable K)) (x r c : Contractable K) (g g' : Option ℕ)
    (h : star x r g = (.ok c, g')) : mulLast (as ++ [x, r]) g = (.ok (as ++ [c]), g') := by
  induction as with
  | nil =>
    simp only [List.nil_append, mulLast]
    rw [CM.bind_ok h]; rfl
  | cons a as ih =>
    cases as with
    | nil =>
      simp only [List.nil_append, List.cons_append, mulLast] at ih ⊢
      rw [CM.bind_ok ih]; rfl
    | cons a' as =>
      cases as with
      | nil =>
        simp only [List.nil_append, List.cons_append] at ih ⊢
        rw [mulLast, CM.bind_ok ih]; rfl
      | cons a'' as =>
        simp only [List.cons_append] at ih ⊢
        rw [mulLast, CM.bind_ok ih]; rfl

theorem mulLast_err [CommSemiring K] (as : List (Contractable K)) (x r : Contractable K) (g g' : Option ℕ) (e : Err)
    (h : star x r g = (.error e, g')) : mulLast (as ++ [x, r]) g = (.error e, g') := by
  induction as with
  | nil =>
    simp only [List.nil_append, mulLast]
    rw [CM.bind_err h]
  | cons a as ih =>
    cases as with
    | nil =>
      simp only [List.nil_append, List.cons_append, mulLast] at ih ⊢
      rw [CM.bind_err ih]
    | cons a' as =>
      cases as with
      | nil =>
        simp only [List.nil_append, List.cons_append] at ih ⊢
        rw [mulLast, CM.bind_err ih]
      | cons a'' as =>
        simp only [List.cons_append] at ih ⊢
        rw [mulLast, CM.bind_err ih]

/-- one round where the last two can be multiplied -/
theorem reduceLoop_last [CommSemiring K] (n : ℕ) (as : List (Contractable K)) (x r c : Contractable K) (g g' : Option ℕ)
    (h : star x r g = (.ok c, g')) : reduceLoop (n + 1) (as ++ [x, r]) g = reduceLoop n (as ++ [c]) g' := by
  rw [reduceLoop, if_pos (by simp)]
  have : CM.exceptType (mulLast (as ++ [x, r])) (mulFirst (as ++ [x, r])) g = (.ok (as ++ [c]), g') := by
    unfold CM.exceptType
    rw [mulLast_ok as x r c g g' h]
  rw [CM.bind_ok this]

/-- one round where the last two cannot be multiplied but the first two can -/
theorem reduceLoop_first [CommSemiring K] (n : ℕ) (cs as : List (Contractable K)) (x r y z c : Contractable K)
    (bs : List (Contractable K)) (g g' : Option ℕ)
    (he : cs = as ++ [x, r]) (hf : cs = y :: z :: bs) (h : star x r g = (.error .type, g)) (h2 : star y z g = (.ok c, g')) :
    reduceLoop (n + 1) cs g = reduceLoop n (c :: bs) g' := by
  have : CM.exceptType (mulLast cs) (mulFirst cs) g = (.ok (c :: bs), g') := by
    unfold CM.exceptType
    rw [he, mulLast_err as x r g g _ h]
    show mulFirst (as ++ [x, r]) g = _
    rw [← he, hf]
    simp only [mulFirst]
    rw [CM.bind_ok h2]; rfl
  rw [reduceLoop, if_pos (by rw [hf]; simp)]
  rw [CM.bind_ok this]

theorem reduceLoop_one [CommSemiring K] (n : ℕ) (c : Contractable K) (g : Option ℕ) : reduceLoop n [c] g = (.ok [c], g) := by
  cases n with
  | zero => rfl
  | succ n => rw [reduceLoop, if_neg (by simp)]; rfl

/-- right end of a chain: an edge vector, or something with an output index -/
structure OEnd (B O : ℕ) (r : Contractable K) : Prop where
  piece : Piece B r
  cls : r.cls = .contractable ∨ r.cls = .outputMat
  left : 'l' ∈ r.bondStr
  noRight : 'r' ∉ r.bondStr
  outs_eq : outs r = ['o']
  size : axis r 'o' = O

/-- the chains of the library with open ends -/
structure OpenChain (B O : ℕ) (e : Contractable K) (mids : List (Contractable K)) (r : Contractable K) : Prop where
  edge : Piece B e ∧ e.cls = .edgeVec ∧ e.bondStr = ['b', 'r']
  pieces : ∀ c ∈ mids, Piece B c
  joined : Joined (e :: mids ++ [r])
  last : (Piece B r ∧ r.cls = .edgeVec ∧ r.bondStr = ['b', 'l'] ∧ OneOutput O mids) ∨ (OEnd B O r ∧ ∀ c ∈ mids, IsMid c)

theorem mid_single_str (B : ℕ) (c : Contractable K) (h : Piece B c) (hc : c.cls = .singleMat) : c.bondStr = ['b', 'l', 'r'] := by
  have := h.string
  unfold ClassString at this
  rw [hc] at this
  exact this

theorem mid_core_str (B : ℕ) (c : Contractable K) (h : Piece B c) (hc : c.cls = .outputCore) :
    c.bondStr = ['b', 'o', 'l', 'r'] := by
  have := h.string
  unfold ClassString at this
  rw [hc] at this
  exact this

theorem mid_outs (B : ℕ) (c : Contractable K) (h : Piece B c) (hc : IsMid c) : outs c = [] := by
  unfold outs
  rcases hc with hc | hc
  · rw [if_pos hc]
  · rw [mid_single_str B c h hc, if_neg (by rw [hc]; decide)]
    decide

theorem edge_outs (c : Contractable K) (d : Char) (hd : d = 'l' ∨ d = 'r') (hs : c.bondStr = ['b', d]) : outs c = [] := by
  unfold outs
  rw [hs]
  rcases hd with rfl | rfl <;> split <;> decide

theorem mid_has (B : ℕ) (c : Contractable K) (h : Piece B c) (hc : IsMid c ∨ c.cls = .outputCore) :
    'l' ∈ c.bondStr ∧ 'r' ∈ c.bondStr := by
  rcases hc with (hc | hc) | hc
  · rw [(region_shape B c h hc).1]; decide
  · rw [mid_single_str B c h hc]; decide
  · rw [mid_core_str B c h hc]; decide

/-- a matrix (region) times the right edge -/
theorem star_mid_edge [CommSemiring K] (B O : ℕ) (x r : Contractable K) (hx : Piece B x) (hr : Piece B r) (hm : IsMid x)
    (hrc : r.cls = .edgeVec) (hrs : r.bondStr = ['b', 'l']) (hj : axis x 'r' = axis r 'l') (g : Option ℕ) :
    ∃ c, star x r g = (.ok c, some B) ∧ Merged B O x r c := by
  rcases hm with hc | hc
  · exact star_region_edge B O x r hx hr hc hrc hrs hj g
  · exact star_gen B O x r hx hr (by rw [hc, hrc]; trivial) (mid_has B x hx (Or.inl (Or.inr hc))).2 (by rw [hrs]; decide) hj
      (Or.inl (mid_outs B x hx (Or.inr hc))) (Or.inl (edge_outs r 'l' (Or.inl rfl) hrs))
      (Or.inl (mid_outs B x hx (Or.inr hc))) g

/-- the left edge times a matrix (region) -/
theorem star_edge_mid [CommSemiring K] (B O : ℕ) (e x : Contractable K) (he : Piece B e) (hx : Piece B x) (hm : IsMid x)
    (hec : e.cls = .edgeVec) (hes : e.bondStr = ['b', 'r']) (hj : axis e 'r' = axis x 'l') (g : Option ℕ) :
    ∃ c, star e x g = (.ok c, some B) ∧ Merged B O e x c := by
  rcases hm with hc | hc
  · exact star_edge_region B O e x he hx hc hec hes hj g
  · exact star_gen B O e x he hx (by rw [hc, hec]; trivial) (by rw [hes]; decide) (mid_has B x hx (Or.inl (Or.inr hc))).1 hj
      (Or.inl (edge_outs e 'r' (Or.inr rfl) hes)) (Or.inl (mid_outs B x hx (Or.inr hc)))
      (Or.inl (edge_outs e 'r' (Or.inr rfl) hes)) g

theorem Merged.edge_right [Semiring K] {B O : ℕ} {x r c : Contractable K} (h : Merged B O x r c) (hx : outs x = []) (hr : outs r = [])
    (hl : 'l' ∈ x.bondStr) (hn : 'r' ∉ r.bondStr) : c.bondStr = ['b', 'l'] ∧ c.cls = .edgeVec := by
  have h1 : c.bondStr = ['b', 'l'] := by
    rw [h.str, h.outs_eq, hx, hr, if_pos hl, if_neg hn]; rfl
  exact ⟨h1, by rw [h.cls, h1]; rfl⟩

theorem Merged.edge_left [Semiring K] {B O : ℕ} {x r c : Contractable K} (h : Merged B O x r c) (hx : outs x = []) (hr : outs r = [])
    (hl : 'l' ∉ x.bondStr) (hn : 'r' ∈ r.bondStr) : c.bondStr = ['b', 'r'] ∧ c.cls = .edgeVec := by
  have h1 : c.bondStr = ['b', 'r'] := by
    rw [h.str, h.outs_eq, hx, hr, if_neg hl, if_pos hn]; rfl
  exact ⟨h1, by rw [h.cls, h1]; rfl⟩

theorem Merged.oend [Semiring K] {B O : ℕ} {x r c : Contractable K} (h : Merged B O x r c) (ho : outs x ++ outs r = ['o'])
    (hl : 'l' ∈ x.bondStr) (hn : 'r' ∉ r.bondStr) : OEnd B O c := by
  have h1 : c.bondStr = ['b', 'o', 'l'] := by
    rw [h.str, h.outs_eq, ho, if_pos hl, if_neg hn]; rfl
  have h2 := h.outOK
  unfold OutOK at h2
  rw [h.outs_eq, ho] at h2
  refine ⟨h.piece, Or.inl (by rw [h.cls, h1]; rfl), by rw [h1]; decide, by rw [h1]; decide, by rw [h.outs_eq, ho], ?_⟩
  simpa using h2

theorem oneOutput_snoc {O : ℕ} {ms : List (Contractable K)} {x : Contractable K} (h : OneOutput O (ms ++ [x])) :
    (IsMid x ∧ OneOutput O ms) ∨ (x.cls = .outputCore ∧ axis x 'o' = O ∧ ∀ c ∈ ms, IsMid c) := by
  obtain ⟨as, oc, bs, h1, h2, h3, h4, h5⟩ := h
  rcases List.eq_nil_or_concat bs with rfl | ⟨bs', y, rfl⟩
  · have := List.append_inj' (s₁ := ms) (t₁ := [x]) (s₂ := as) (t₂ := [oc]) h1 rfl
    simp only [List.cons.injEq, and_true] at this
    obtain ⟨rfl, rfl⟩ := this
    exact Or.inr ⟨h4, h5, h2⟩
  · rw [List.concat_eq_append] at h1 h3
    rw [show as ++ oc :: (bs' ++ [y]) = (as ++ oc :: bs') ++ [y] by simp] at h1
    have := List.append_inj' h1 rfl
    simp only [List.cons.injEq, and_true] at this
    obtain ⟨rfl, rfl⟩ := this
    exact Or.inl ⟨h3 x (by simp), as, oc, bs', rfl, h2, fun a ha => h3 a (by simp [ha]), h4, h5⟩

/-- The loop reduces every open chain to its ordered product. -/
theorem reduceLoop_open [CommSemiring K] (B O : ℕ) (n : ℕ) : ∀ (mids : List (Contractable K)) (e r : Contractable K) (g : Option ℕ),
    mids.length = n → OpenChain B O e mids r → ∀ fuel, n + 1 ≤ fuel →
    ∃ c, reduceLoop fuel (e :: mids ++ [r]) g = (.ok [c], some B) ∧ Piece B c ∧ c.bondStr = ['b', 'o'] ∧ axis c 'o' = O ∧
      ∀ b < B, ∀ o < O, prodL (allFactors (e :: mids ++ [r]) b o) = some (matOf c b o) := by
  induction n with
  | zero =>
    intro mids e r g hl H fuel hf
    obtain rfl := List.length_eq_zero_iff.1 hl
    obtain ⟨fuel, rfl⟩ : ∃ k, fuel = k + 1 := ⟨fuel - 1, by omega⟩
    have hR : OEnd B O r := by
      rcases H.last with ⟨_, _, _, as, oc, bs, h, _⟩ | h
      · simp at h
      · exact h.1
    have hcm : CanMultiply e.cls r.cls := by
      rw [H.edge.2.1]
      rcases hR.cls with h | h <;> rw [h] <;> trivial
    have heo := edge_outs e 'r' (Or.inr rfl) H.edge.2.2
    obtain ⟨c, h1, h2⟩ := star_gen B O e r H.edge.1 hR.piece hcm (by rw [H.edge.2.2]; decide) hR.left H.joined.1
      (Or.inl heo) (Or.inr ⟨hR.outs_eq, hR.size⟩) (Or.inl heo) g
    have hs : c.bondStr = ['b', 'o'] := by
      rw [h2.str, h2.outs_eq, heo, hR.outs_eq, if_neg (by rw [H.edge.2.2]; decide), if_neg hR.noRight]; rfl
    refine ⟨c, ?_, h2.piece, hs, ?_, ?_⟩
    · have := reduceLoop_last fuel [] e r c g (some B) h1
      simp only [List.nil_append] at this
      simp only [List.cons_append, List.nil_append]
      rw [this, reduceLoop_one]
    · have := h2.outOK
      unfold OutOK at this
      rw [h2.outs_eq, heo, hR.outs_eq] at this
      simpa using this
    · intro b hb o ho
      have := allFactors_replace B O [] [] e r c h2 b o hb ho
      simp only [List.nil_append] at this
      simp only [List.cons_append, List.nil_append]
      rw [this]
      simp [allFactors, factors_single c h2.notRegion, prodL, matProd]
  | succ n ih =>
    intro mids e r g hl H fuel hf
    obtain ⟨fuel, rfl⟩ : ∃ k, fuel = k + 1 := ⟨fuel - 1, by omega⟩
    obtain ⟨ms, x, rfl⟩ : ∃ ms x, mids = ms ++ [x] := by
      rcases List.eq_nil_or_concat mids with rfl | ⟨ms, x, h⟩
      · simp at hl
      · exact ⟨ms, x, by rw [h, List.concat_eq_append]⟩
    have hx := H.pieces x (by simp)
    have hlist : e :: (ms ++ [x]) ++ [r] = (e :: ms) ++ [x, r] := by simp
    have hms : ms.length = n := by simpa using hl
    have hpm : ∀ c ∈ ms, Piece B c := fun c hc => H.pieces c (by simp [hc])
    have hj := H.joined
    rw [hlist] at hj
    -- a product of the last two replaced by `c`
    have fin : ∀ c, star x r g = (.ok c, some B) → Merged B O x r c → 'l' ∈ x.bondStr → OpenChain B O e ms c →
        ∃ d, reduceLoop (fuel + 1) (e :: (ms ++ [x]) ++ [r]) g = (.ok [d], some B) ∧ Piece B d ∧ d.bondStr = ['b', 'o'] ∧ axis d 'o' = O ∧
          ∀ b < B, ∀ o < O, prodL (allFactors (e :: (ms ++ [x]) ++ [r]) b o) = some (matOf d b o) := by
      intro c hs hc _ HC
      obtain ⟨d, d1, d2, d3, d4, d5⟩ := ih ms e c (some B) hms HC fuel (by omega)
      refine ⟨d, ?_, d2, d3, d4, ?_⟩
      · rw [hlist, reduceLoop_last fuel (e :: ms) x r c g (some B) hs]
        exact d1
      · intro b hb o ho
        rw [hlist, allFactors_replace B O (e :: ms) [] x r c hc b o hb ho]
        exact d5 b hb o ho
    rcases H.last with ⟨hr, hrc, hrs, hone⟩ | ⟨hR, hall⟩
    · have hro := edge_outs r 'l' (Or.inl rfl) hrs
      have hjb := (joined_snoc (e :: ms) x r x hj rfl).2
      have hnr : 'r' ∉ r.bondStr := by rw [hrs]; decide
      rcases oneOutput_snoc hone with ⟨hm, hone'⟩ | ⟨hoc, hO, hall⟩
      · obtain ⟨c, c1, c2⟩ := star_mid_edge B O x r hx hr hm hrc hrs hjb g
        have hxl := (mid_has B x hx (Or.inl hm)).1
        have hce := c2.edge_right (mid_outs B x hx hm) hro hxl hnr
        exact fin c c1 c2 hxl ⟨H.edge, hpm, (joined_snoc (e :: ms) x r c hj (c2.left hxl)).1,
          Or.inl ⟨c2.piece, hce.2, hce.1, hone'⟩⟩
      · have hxs := mid_core_str B x hx hoc
        have hxo : outs x = ['o'] := by unfold outs; rw [if_neg (by rw [hoc]; decide), hxs]; decide
        have hxl : 'l' ∈ x.bondStr := by rw [hxs]; decide
        obtain ⟨c, c1, c2⟩ := star_gen B O x r hx hr (by rw [hoc, hrc]; trivial) (by rw [hxs]; decide) (by rw [hrs]; decide) hjb
          (Or.inr ⟨hxo, hO⟩) (Or.inl hro) (Or.inr hro) g
        exact fin c c1 c2 hxl ⟨H.edge, hpm, (joined_snoc (e :: ms) x r c hj (c2.left hxl)).1,
          Or.inr ⟨c2.oend (by rw [hxo, hro]; rfl) hxl hnr, hall⟩⟩
    · have hm := hall x (by simp)
      have hxl := (mid_has B x hx (Or.inl hm)).1
      have hjb := (joined_snoc (e :: ms) x r x hj rfl).2
      rcases hm with hreg | hsm
      · -- a region in front of an output index: multiply from the left
        have herr : star x r g = (.error .type, g) := by
          refine C46_unsupported x r ?_ ?_ ?_ g
          · rw [hreg]; rcases hR.cls with h | h <;> rw [h] <;> exact id
          · rw [hreg]; rcases hR.cls with h | h <;> rw [h] <;> decide
          · rw [hreg]; rcases hR.cls with h | h <;> rw [h] <;> decide
        obtain ⟨y, ms', hy⟩ : ∃ y ms', ms ++ [x] = y :: ms' := by
          cases ms with
          | nil => exact ⟨x, [], rfl⟩
          | cons a ms => exact ⟨a, ms ++ [x], rfl⟩
        have hyp : Piece B y := H.pieces y (by rw [hy]; simp)
        have hym : IsMid y := hall y (by rw [hy]; simp)
        have hj2 := H.joined
        rw [hy] at hj2
        obtain ⟨c, c1, c2⟩ := star_edge_mid B O e y H.edge.1 hyp hym H.edge.2.1 H.edge.2.2 hj2.1 g
        have hyr := (mid_has B y hyp (Or.inl hym)).2
        have hce := c2.edge_left (edge_outs e 'r' (Or.inr rfl) H.edge.2.2) (mid_outs B y hyp hym)
          (by rw [H.edge.2.2]; decide) hyr
        have hjc : Joined (c :: ms' ++ [r]) := by
          have := hj2.2
          cases ms' with
          | nil => exact ⟨by rw [c2.right hyr]; exact this.1, trivial⟩
          | cons a ms' => exact ⟨by rw [c2.right hyr]; exact this.1, this.2⟩
        obtain ⟨d, d1, d2, d3, d4, d5⟩ := ih ms' c r (some B) (by rw [hy] at hl; simpa using hl)
          ⟨⟨c2.piece, hce.2, hce.1⟩, fun z hz => H.pieces z (by rw [hy]; simp [hz]), hjc,
            Or.inr ⟨hR, fun z hz => hall z (by rw [hy]; simp [hz])⟩⟩ fuel (by omega)
        refine ⟨d, ?_, d2, d3, d4, ?_⟩
        · rw [reduceLoop_first fuel _ (e :: ms) x r e y c (ms' ++ [r]) g (some B) hlist (by rw [hy]; rfl) herr c1]
          exact d1
        · intro b hb o ho
          rw [hy]
          have := allFactors_replace B O [] (ms' ++ [r]) e y c c2 b o hb ho
          simp only [List.nil_append] at this
          simp only [List.cons_append]
          rw [this]
          exact d5 b hb o ho
      · have hcm : CanMultiply x.cls r.cls := by
          rw [hsm]; rcases hR.cls with h | h <;> rw [h] <;> trivial
        have hxo := mid_outs B x hx (Or.inr hsm)
        obtain ⟨c, c1, c2⟩ := star_gen B O x r hx hR.piece hcm (mid_has B x hx (Or.inl (Or.inr hsm))).2 hR.left hjb
          (Or.inl hxo) (Or.inr ⟨hR.outs_eq, hR.size⟩) (Or.inl hxo) g
        exact fin c c1 c2 hxl ⟨H.edge, hpm, (joined_snoc (e :: ms) x r c hj (c2.left hxl)).1,
          Or.inr ⟨c2.oend (by rw [hxo, hR.outs_eq]; rfl) hxl hR.noRight, fun z hz => hall z (by simp [hz])⟩⟩


/-! ### All items reduced first -/

/-- `d` is `c`, or its reduction if it is a region -/
structure Reduced [CommSemiring K] (B : ℕ) (c d : Contractable K) : Prop where
  piece : Piece B d
  same : c.cls ≠ .matRegion → d = c
  single : c.cls = .matRegion → d.cls = .singleMat
  left : axis d 'l' = axis c 'l'
  right : axis d 'r' = axis c 'r'
  prod : ∀ b < B, ∀ o, prodL (factors c b o) = prodL (factors d b o)
  nonempty : ∀ b o, factors c b o ≠ []

theorem reduceItem_ok [CommSemiring K] (B : ℕ) (c : Contractable K) (hc : Piece B c) :
    ∃ d, (∀ g, ∃ g', reduceItem c g = (.ok d, g') ∧ (g = some B → g' = some B)) ∧ Reduced B c d := by
  by_cases h : c.cls = .matRegion
  · obtain ⟨d, h1, h2, h3, h4, h5, h6⟩ := regionReduce_ok B c hc h none
    have hne : ∀ b o, factors c b o ≠ [] := by
      intro b o
      rw [region_factors B c hc h]
      have := hc.sites h
      unfold siteMats
      simp; omega
    refine ⟨d, ?_, h2, fun hh => absurd h hh, fun _ => h3, h4, h5, ?_, hne⟩
    · intro g
      refine ⟨some B, ?_, fun _ => rfl⟩
      -- the result does not depend on the global batch size
      have : reduceItem c g = reduceItem c none := by
        unfold reduceItem
        rw [if_pos h]
        unfold regionReduce
        obtain ⟨e1, e2, e3⟩ := region_shape B c hc h
        obtain ⟨t, r1, r2, _⟩ := regionLoop_ok (axis c 's') c.tensor B (axis c 's') (axis c 'l') e2 (hc.sites h) le_rfl
        have hg : c.tensor.shape.getD 1 0 = axis c 's' := by rw [e2]; rfl
        simp only [hg]
        rw [r1, CM.bind_ok (CM.lift_apply _ _), CM.bind_ok (CM.lift_apply _ _)]
        have hsq : (t.squeeze 1).shape = [B, axis c 'l', axis c 'l'] := by
          unfold Tensor.squeeze
          rw [r2]
          simp
        unfold mkSingleMat
        rw [if_neg (by simp [Tensor.ndim, hsq]), mkContractable_batched _ _ _ rfl (by simp [hsq]) g,
          mkContractable_batched _ _ _ rfl (by simp [hsq]) none]
      rw [this, h1]
    · intro b hb o
      rw [h6 b hb o, factors_single d (by rw [h3]; decide)]
      rfl
  · refine ⟨c, ?_, hc, fun _ => rfl, fun hh => absurd hh h, rfl, rfl, fun _ _ _ => rfl, ?_⟩
    · intro g
      refine ⟨g, ?_, id⟩
      unfold reduceItem
      rw [if_neg h]; rfl
    · intro b o
      rw [factors_single c h]; simp

theorem reduceItems_ok [CommSemiring K] (B : ℕ) (cs : List (Contractable K)) (hc : ∀ c ∈ cs, Piece B c) :
    ∃ ds, (∀ g, ∃ g', reduceItems cs g = (.ok ds, g')) ∧ List.Forall₂ (Reduced B) cs ds := by
  induction cs with
  | nil => exact ⟨[], fun g => ⟨g, rfl⟩, .nil⟩
  | cons c cs ih =>
    obtain ⟨d, h1, h2⟩ := reduceItem_ok B c (hc c (by simp))
    obtain ⟨ds, h3, h4⟩ := ih (fun c hc' => hc c (by simp [hc']))
    refine ⟨d :: ds, ?_, .cons h2 h4⟩
    intro g
    obtain ⟨g1, e1, _⟩ := h1 g
    obtain ⟨g2, e2⟩ := h3 g1
    refine ⟨g2, ?_⟩
    rw [reduceItems, CM.bind_ok e1, CM.bind_ok e2]
    rfl

theorem reduced_factors [CommSemiring K] (B : ℕ) (cs ds : List (Contractable K)) (h : List.Forall₂ (Reduced B) cs ds) (b o : ℕ) (hb : b < B) :
    prodL (allFactors cs b o) = prodL (allFactors ds b o) := by
  induction h with
  | nil => rfl
  | @cons c d cs ds h1 h2 ih =>
    have e1 : allFactors (c :: cs) b o = factors c b o ++ allFactors cs b o := by simp [allFactors]
    have e2 : allFactors (d :: ds) b o = factors d b o ++ allFactors ds b o := by simp [allFactors]
    have hd : factors d b o ≠ [] := by
      intro hn
      have := h1.prod b hb o
      rw [hn] at this
      exact h1.nonempty b o (prodL_eq_none this)
    rw [e1, e2]
    by_cases hc : allFactors cs b o = []
    · rw [hc] at ih
      have : allFactors ds b o = [] := prodL_eq_none ih.symm
      rw [hc, this, List.append_nil, List.append_nil, h1.prod b hb o]
    · have hd' : allFactors ds b o ≠ [] := by
        intro hn
        rw [hn] at ih
        exact hc (prodL_eq_none ih)
      rw [prodL_append _ _ (h1.nonempty b o) hc, prodL_append _ _ hd hd', h1.prod b hb o, ih]

theorem reduced_joined [CommSemiring K] (B : ℕ) (cs ds : List (Contractable K)) (h : List.Forall₂ (Reduced B) cs ds) (hj : Joined cs) :
    Joined ds := by
  induction h with
  | nil => trivial
  | @cons c d cs ds h1 h2 ih =>
    cases h2 with
    | nil => trivial
    | @cons c' d' cs' ds' h3 h4 => exact ⟨by rw [h1.right, h3.left]; exact hj.1, ih hj.2⟩

theorem Reduced.mid [CommSemiring K] {B : ℕ} {c d : Contractable K} (h : Reduced B c d) (hm : IsMid c) : d.cls = .singleMat := by
  rcases hm with hm | hm
  · exact h.single hm
  · rw [h.same (by rw [hm]; decide)]; exact hm

theorem reduced_mids [CommSemiring K] {B : ℕ} {cs ds : List (Contractable K)} (h : List.Forall₂ (Reduced B) cs ds) :
    (∀ d ∈ ds, Piece B d) ∧ ((∀ c ∈ cs, IsMid c) → ∀ d ∈ ds, d.cls = .singleMat) := by
  induction h with
  | nil => simp
  | @cons c d cs ds h1 h2 ih =>
    refine ⟨?_, ?_⟩
    · intro z hz
      rcases List.mem_cons.1 hz with h | h
      · rw [h]; exact h1.piece
      · exact ih.1 z h
    · intro hm z hz
      rcases List.mem_cons.1 hz with h | h
      · rw [h]; exact h1.mid (hm c (by simp))
      · exact ih.2 (fun c hc => hm c (by simp [hc])) z h

theorem forall2_append_left {α β : Type} {R : α → β → Prop} {as bs : List α} {cs : List β} (h : List.Forall₂ R (as ++ bs) cs) :
    ∃ us vs, List.Forall₂ R as us ∧ List.Forall₂ R bs vs ∧ cs = us ++ vs := by
  induction as generalizing cs with
  | nil => exact ⟨[], cs, .nil, h, rfl⟩
  | cons a as ih =>
    cases h with
    | cons h1 h2 =>
      obtain ⟨us, vs, e1, e2, rfl⟩ := ih h2
      exact ⟨_ :: us, vs, .cons h1 e1, e2, rfl⟩

theorem reduced_one [CommSemiring K] {B O : ℕ} {cs ds : List (Contractable K)} (h : List.Forall₂ (Reduced B) cs ds) (ho : OneOutput O cs) :
    ∃ as oc bs, ds = as ++ oc :: bs ∧ (∀ a ∈ as, a.cls = .singleMat) ∧ (∀ a ∈ bs, a.cls = .singleMat) ∧ oc.cls = .outputCore ∧
      axis oc 'o' = O := by
  obtain ⟨as, oc, bs, rfl, h2, h3, h4, h5⟩ := ho
  obtain ⟨us, vs, hu, hv, rfl⟩ := forall2_append_left h
  obtain ⟨oc', vs', hoc, hvs, rfl⟩ := List.forall₂_cons_left_iff.1 hv
  have := hoc.same (by rw [h4]; decide)
  subst this
  exact ⟨us, oc', vs', rfl, (reduced_mids hu).2 h2, (reduced_mids hvs).2 h3, h4, h5⟩

/-- Reducing all items of an open chain gives an open chain. -/
theorem openChain_reduced [CommSemiring K] (B O : ℕ) (e r : Contractable K) (mids : List (Contractable K)) (H : OpenChain B O e mids r) :
    ∃ mids', (∀ g, ∃ g', reduceItems (e :: mids ++ [r]) g = (.ok (e :: mids' ++ [r]), g')) ∧ mids'.length = mids.length ∧
      OpenChain B O e mids' r ∧ ∀ b < B, ∀ o, prodL (allFactors (e :: mids ++ [r]) b o) = prodL (allFactors (e :: mids' ++ [r]) b o) := by
  have hr : Piece B r ∧ r.cls ≠ .matRegion := by
    rcases H.last with ⟨h1, h2, _⟩ | ⟨h1, _⟩
    · exact ⟨h1, by rw [h2]; decide⟩
    · exact ⟨h1.piece, by rcases h1.cls with h | h <;> rw [h] <;> decide⟩
  obtain ⟨ds, h1, h2⟩ := reduceItems_ok B (e :: mids ++ [r]) (by
    intro c hc
    simp only [List.cons_append, List.mem_cons, List.mem_append, List.not_mem_nil, or_false] at hc
    rcases hc with rfl | hc | rfl
    · exact H.edge.1
    · exact H.pieces c hc
    · exact hr.1)
  have h2' := h2
  rw [List.cons_append] at h2'
  obtain ⟨e', ds', he, hd, rfl⟩ := List.forall₂_cons_left_iff.1 h2'
  obtain ⟨mids', vs, hm, hv, rfl⟩ := forall2_append_left hd
  obtain ⟨r', vs', hr', hvs, rfl⟩ := List.forall₂_cons_left_iff.1 hv
  rw [List.forall₂_nil_left_iff] at hvs
  subst hvs
  have := he.same (by rw [H.edge.2.1]; decide)
  subst this
  have := hr'.same hr.2
  subst this
  refine ⟨mids', h1, hm.length_eq.symm, ⟨H.edge, (reduced_mids hm).1, reduced_joined B _ _ h2 H.joined, ?_⟩, ?_⟩
  · rcases H.last with ⟨a1, a2, a3, a4⟩ | ⟨a1, a2⟩
    · left
      obtain ⟨as, oc, bs, b1, b2, b3, b4, b5⟩ := reduced_one hm a4
      exact ⟨a1, a2, a3, as, oc, bs, b1, fun a ha => Or.inr (b2 a ha), fun a ha => Or.inr (b3 a ha), b4, b5⟩
    · right
      exact ⟨a1, fun c hc => Or.inr ((reduced_mids hm).2 a2 c hc)⟩
  · intro b hb o
    exact reduced_factors B _ _ h2 b o hb

/-! ### Chains without ends -/

theorem star_single_single [CommSemiring K] (B O : ℕ) (x y : Contractable K) (hx : Piece B x) (hy : Piece B y)
    (hxc : x.cls = .singleMat ∨ x.cls = .outputCore) (hyc : y.cls = .singleMat ∨ y.cls = .outputCore)
    (hxO : x.cls = .outputCore → axis x 'o' = O) (hyO : y.cls = .outputCore → axis y 'o' = O)
    (hne : x.cls = .singleMat ∨ y.cls = .singleMat) (hj : axis x 'r' = axis y 'l') (g : Option ℕ) :
    ∃ c, star x y g = (.ok c, some B) ∧ Merged B O x y c ∧
      (x.cls = .singleMat → y.cls = .singleMat → c.cls = .singleMat) ∧
      (x.cls = .outputCore ∨ y.cls = .outputCore → c.cls = .outputCore ∧ axis c 'o' = O) := by
  have str : ∀ z : Contractable K, Piece B z → (z.cls = .singleMat → z.bondStr = ['b', 'l', 'r'] ∧ outs z = []) ∧
      (z.cls = .outputCore → z.bondStr = ['b', 'o', 'l', 'r'] ∧ outs z = ['o']) := by
    intro z hz
    refine ⟨fun h => ⟨mid_single_str B z hz h, mid_outs B z hz (Or.inr h)⟩, fun h => ⟨mid_core_str B z hz h, ?_⟩⟩
    unfold outs
    rw [if_neg (by rw [h]; decide), mid_core_str B z hz h]
    decide
  have hxo : OutOK O x := by
    rcases hxc with h | h
    · exact Or.inl ((str x hx).1 h).2
    · exact Or.inr ⟨((str x hx).2 h).2, hxO h⟩
  have hyo : OutOK O y := by
    rcases hyc with h | h
    · exact Or.inl ((str y hy).1 h).2
    · exact Or.inr ⟨((str y hy).2 h).2, hyO h⟩
  have hcm : CanMultiply x.cls y.cls := by
    rcases hxc with h | h <;> rcases hyc with h' | h' <;> rw [h, h'] <;> trivial
  have hlr : ∀ z : Contractable K, Piece B z → (z.cls = .singleMat ∨ z.cls = .outputCore) → 'l' ∈ z.bondStr ∧ 'r' ∈ z.bondStr := by
    intro z hz h
    exact mid_has B z hz (h.imp Or.inr id)
  have hone : outs x = [] ∨ outs y = [] := hne.imp (fun h => ((str x hx).1 h).2) (fun h => ((str y hy).1 h).2)
  obtain ⟨c, c1, c2⟩ := star_gen B O x y hx hy hcm (hlr x hx hxc).2 (hlr y hy hyc).1 hj hxo hyo hone g
  refine ⟨c, c1, c2, ?_, ?_⟩
  · intro a b
    have : c.bondStr = ['b', 'l', 'r'] := by
      rw [c2.str, c2.outs_eq, ((str x hx).1 a).2, ((str y hy).1 b).2, if_pos (hlr x hx hxc).1, if_pos (hlr y hy hyc).2]; rfl
    rw [c2.cls, this]; rfl
  · intro hor
    have ho : outs x ++ outs y = ['o'] := by
      rcases hor with h | h
      · have hy' : y.cls = .singleMat := hne.resolve_left (by rw [h]; decide)
        rw [((str x hx).2 h).2, ((str y hy).1 hy').2]; rfl
      · have hx' : x.cls = .singleMat := hne.resolve_right (by rw [h]; decide)
        rw [((str y hy).2 h).2, ((str x hx).1 hx').2]; rfl
    have : c.bondStr = ['b', 'o', 'l', 'r'] := by
      rw [c2.str, c2.outs_eq, ho, if_pos (hlr x hx hxc).1, if_pos (hlr y hy hyc).2]; rfl
    refine ⟨by rw [c2.cls, this]; rfl, ?_⟩
    have h2 := c2.outOK
    unfold OutOK at h2
    rw [c2.outs_eq, ho] at h2
    simpa using h2

/-- single matrices and one output core -/
theorem reduceLoop_ring [CommSemiring K] (B O : ℕ) (n : ℕ) : ∀ (cs : List (Contractable K)) (g : Option ℕ), cs.length = n + 1 →
    (∀ c ∈ cs, Piece B c) → Joined cs →
    (∃ as oc bs, cs = as ++ oc :: bs ∧ (∀ a ∈ as, a.cls = .singleMat) ∧ (∀ a ∈ bs, a.cls = .singleMat) ∧ oc.cls = .outputCore ∧
      axis oc 'o' = O) → ∀ fuel, n ≤ fuel →
    ∃ c g', reduceLoop fuel cs g = (.ok [c], g') ∧ (n ≠ 0 → g' = some B) ∧ (n = 0 → g' = g) ∧ Piece B c ∧ c.cls = .outputCore ∧ axis c 'o' = O ∧
      (∀ a ∈ cs.head?, axis c 'l' = axis a 'l') ∧ (∀ a ∈ cs.getLast?, axis c 'r' = axis a 'r') ∧
      ∀ b < B, ∀ o < O, prodL (allFactors cs b o) = some (matOf c b o) := by
  induction n with
  | zero =>
    intro cs g hl hp hj ⟨as, oc, bs, h1, h2, h3, h4, h5⟩ fuel hf
    have : as = [] ∧ bs = [] := by
      rw [h1] at hl
      simp at hl
      exact ⟨List.length_eq_zero_iff.1 (by omega), List.length_eq_zero_iff.1 (by omega)⟩
    obtain ⟨rfl, rfl⟩ := this
    simp only [List.nil_append] at h1
    subst h1
    refine ⟨oc, g, reduceLoop_one fuel oc g, by simp, fun _ => rfl, hp oc (by simp), h4, h5, by simp, by simp, ?_⟩
    intro b hb o ho
    simp [allFactors, factors_single oc (by rw [h4]; decide), prodL, matProd]
  | succ n ih =>
    intro cs g hl hp hj ⟨as, oc, bs, h1, h2, h3, h4, h5⟩ fuel hf
    obtain ⟨fuel, rfl⟩ : ∃ k, fuel = k + 1 := ⟨fuel - 1, by omega⟩
    obtain ⟨zs, x, y, hzs⟩ : ∃ zs x y, cs = zs ++ [x, y] := by
      rcases List.eq_nil_or_concat cs with h | ⟨us, y, h⟩
      · rw [h] at hl; simp at hl
      · rcases List.eq_nil_or_concat us with h' | ⟨zs, x, h'⟩
        · rw [h, h'] at hl; simp at hl
        · exact ⟨zs, x, y, by rw [h, h']; simp⟩
    have hcl : ∀ c ∈ cs, c.cls = .singleMat ∨ (c.cls = .outputCore ∧ axis c 'o' = O) := by
      intro c hc
      rw [h1] at hc
      simp only [List.mem_append, List.mem_cons] at hc
      rcases hc with hc | rfl | hc
      · exact Or.inl (h2 c hc)
      · exact Or.inr ⟨h4, h5⟩
      · exact Or.inl (h3 c hc)
    have hxm : x ∈ cs := by rw [hzs]; simp
    have hym : y ∈ cs := by rw [hzs]; simp
    have hneO : x.cls = .singleMat ∨ y.cls = .singleMat := by
      rcases List.eq_nil_or_concat bs with h | ⟨bs', z, h⟩
      · subst h
        rw [hzs, show zs ++ [x, y] = (zs ++ [x]) ++ [y] by simp] at h1
        have := List.append_inj' h1 rfl
        left
        exact h2 x (by rw [← this.1]; simp)
      · rw [List.concat_eq_append] at h
        rw [hzs, h, show zs ++ [x, y] = (zs ++ [x]) ++ [y] by simp, show as ++ oc :: (bs' ++ [z]) = (as ++ oc :: bs') ++ [z] by simp] at h1
        have := List.append_inj' h1 rfl
        simp only [List.cons.injEq, and_true] at this
        right
        rw [this.2]
        exact h3 z (by rw [h]; simp)
    rw [hzs] at hj
    obtain ⟨c, c1, c2, c3, c4⟩ := star_single_single B O x y (hp x hxm) (hp y hym) ((hcl x hxm).imp id And.left)
      ((hcl y hym).imp id And.left) (fun h => ((hcl x hxm).resolve_left (by rw [h]; decide)).2)
      (fun h => ((hcl y hym).resolve_left (by rw [h]; decide)).2) hneO (joined_snoc zs x y x hj rfl).2 g
    have hxl : 'l' ∈ x.bondStr ∧ 'r' ∈ x.bondStr := mid_has B x (hp x hxm) (((hcl x hxm).imp Or.inr And.left))
    have hyl : 'l' ∈ y.bondStr ∧ 'r' ∈ y.bondStr := mid_has B y (hp y hym) (((hcl y hym).imp Or.inr And.left))
    have hstruct : ∃ as oc bs, zs ++ [c] = as ++ oc :: bs ∧ (∀ a ∈ as, a.cls = .singleMat) ∧ (∀ a ∈ bs, a.cls = .singleMat) ∧
        oc.cls = .outputCore ∧ axis oc 'o' = O := by
      rcases List.eq_nil_or_concat bs with h | ⟨bs', z, h⟩
      · -- the core is last
        subst h
        rw [hzs, show zs ++ [x, y] = (zs ++ [x]) ++ [y] by simp] at h1
        have := List.append_inj' h1 rfl
        simp only [List.cons.injEq, and_true] at this
        obtain ⟨t1, t2⟩ := this
        have := c4 (Or.inr (by rw [t2]; exact h4))
        exact ⟨zs, c, [], rfl, fun a ha => h2 a (by rw [← t1]; simp [ha]), by simp, this.1, this.2⟩
      · rw [List.concat_eq_append] at h
        rcases List.eq_nil_or_concat bs' with h' | ⟨bs'', w, h'⟩
        · subst h'
          subst h
          rw [hzs] at h1
          have := List.append_inj' (s₁ := zs) (t₁ := [x, y]) (s₂ := as) (t₂ := [oc, z]) h1 rfl
          simp only [List.cons.injEq, and_true] at this
          obtain ⟨t1, t2, t3⟩ := this
          have := c4 (Or.inl (by rw [t2]; exact h4))
          exact ⟨zs, c, [], rfl, fun a ha => h2 a (by rw [← t1]; exact ha), by simp, this.1, this.2⟩
        · rw [List.concat_eq_append] at h'
          subst h'
          subst h
          rw [hzs, show as ++ oc :: (bs'' ++ [w] ++ [z]) = (as ++ oc :: bs'') ++ [w, z] by simp] at h1
          have := List.append_inj' (s₁ := zs) (t₁ := [x, y]) (s₂ := as ++ oc :: bs'') (t₂ := [w, z]) h1 rfl
          simp only [List.cons.injEq, and_true] at this
          obtain ⟨t1, t2, t3⟩ := this
          refine ⟨as, oc, bs'' ++ [c], by rw [t1]; simp, h2, ?_, h4, h5⟩
          intro a ha
          rcases List.mem_append.1 ha with ha | ha
          · exact h3 a (by simp [ha])
          · rw [List.mem_singleton.1 ha]
            exact c3 (by rw [t2]; exact h3 w (by simp)) (by rw [t3]; exact h3 z (by simp))
    obtain ⟨d, g', d1, d2, d2', d3, d4, d5, d6, d7, d8⟩ := ih (zs ++ [c]) (some B) (by rw [hzs] at hl; simpa using hl) (by
        intro a ha
        rcases List.mem_append.1 ha with ha | ha
        · exact hp a (by rw [hzs]; simp [ha])
        · rw [List.mem_singleton.1 ha]; exact c2.piece)
      (joined_snoc zs x y c hj (c2.left hxl.1)).1 hstruct fuel (by omega)
    refine ⟨d, g', ?_, ?_, by simp, d3, d4, d5, ?_, ?_, ?_⟩
    · rw [hzs, reduceLoop_last fuel zs x y c g (some B) c1]
      exact d1
    · intro _
      by_cases hn : n = 0
      · exact d2' hn
      · exact d2 hn
    · intro a ha
      rw [hzs] at ha
      cases zs with
      | nil =>
        simp at ha
        subst ha
        rw [d6 c (by simp), c2.left hxl.1]
      | cons z zs => exact d6 a (by simpa using ha)
    · intro a ha
      rw [hzs] at ha
      simp at ha
      subst ha
      rw [d7 c (by simp), c2.right hyl.2]
    · intro b hb o ho
      rw [hzs, allFactors_replace B O zs [] x y c c2 b o hb ho]
      exact d8 b hb o ho

end TorchMPS
