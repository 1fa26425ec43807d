import Verif.Lemmas.Region
import Verif.Props.Contractables
/-
Products within a chain of contractables.
-/
namespace TorchMPS
open Spec
variable {K : Type}

theorem place_others_nil (s : List Char) (h : others s = []) (b l r : ℕ) (x y : List ℕ) :
    place s b l r x = place s b l r y := by
  induction s with
  | nil => rfl
  | cons c s ih =>
    unfold others at h
    rw [List.filter_cons] at h
    by_cases hc : decide (c ≠ 'b' ∧ c ≠ 'l' ∧ c ≠ 'r') = true
    · rw [if_pos hc] at h; simp at h
    · rw [if_neg hc] at h
      have hc' : c = 'b' ∨ c = 'l' ∨ c = 'r' := by
        simp only [decide_eq_true_eq] at hc
        tauto
      unfold place
      have := ih h
      rcases hc' with rfl | rfl | rfl <;> simp [this]

theorem entry_others_nil (c : Contractable K) (h : others c.bondStr = []) (b l r : ℕ) (x y : List ℕ) :
    entry c b l r x = entry c b l r y := by
  unfold entry; rw [place_others_nil _ h b l r x y]

/-- further indices of a chain element (the site index of a region does not count) -/
def outs (c : Contractable K) : List Char := if c.cls = .matRegion then [] else others c.bondStr

/-- no output index, or one output index `o` of size `O` -/
def OutOK (O : ℕ) (c : Contractable K) : Prop := outs c = [] ∨ (outs c = ['o'] ∧ axis c 'o' = O)

/-- `c` replaces the neighbours `x`, `y` of a chain. -/
structure Merged [Semiring K] (B O : ℕ) (x y c : Contractable K) : Prop where
  piece : Piece B c
  notRegion : c.cls ≠ .matRegion
  cls : c.cls = classFor c.bondStr
  str : c.bondStr = 'b' :: (outs c ++ (if 'l' ∈ x.bondStr then ['l'] else []) ++ (if 'r' ∈ y.bondStr then ['r'] else []))
  outs_eq : outs c = outs x ++ outs y
  outOK : OutOK O c
  left : 'l' ∈ x.bondStr → axis c 'l' = axis x 'l'
  right : 'r' ∈ y.bondStr → axis c 'r' = axis y 'r'
  prod : ∀ b < B, ∀ o < O, prodL (factors x b o ++ factors y b o) = some (matOf c b o)

theorem classFor_notRegion (s : List Char) : classFor s ≠ .matRegion := by
  unfold classFor
  split
  · decide
  · split
    · decide
    · split <;> decide

theorem classString_classFor (c : Contractable K) (h : c.cls = classFor c.bondStr) : ClassString c := by
  unfold ClassString
  rw [h]
  unfold classFor
  split_ifs with h1 h2 h3
  · simp only
    tauto
  · exact h2
  · exact h3
  · trivial

theorem factors_single [Zero K] (c : Contractable K) (h : c.cls ≠ .matRegion) (b o : ℕ) : factors c b o = [matOf c b o] := by
  unfold factors
  cases hc : c.cls <;> simp_all

/-- a product by contraction -/
theorem star_gen [CommSemiring K] (B O : ℕ) (x y : Contractable K) (hx : Piece B x) (hy : Piece B y)
    (hcls : CanMultiply x.cls y.cls) (hr : 'r' ∈ x.bondStr) (hl : 'l' ∈ y.bondStr) (hbond : axis x 'r' = axis y 'l')
    (ox : OutOK O x) (oy : OutOK O y) (hone : outs x = [] ∨ outs y = []) (g : Option ℕ) :
    ∃ c, star x y g = (.ok c, some B) ∧ Merged B O x y c := by
  have nx : x.cls ≠ .matRegion := by
    intro h; rw [h] at hcls; cases hyc : y.cls <;> rw [hyc] at hcls <;> exact hcls
  have ny : y.cls ≠ .matRegion := by
    intro h; rw [h] at hcls; cases hyc : x.cls <;> rw [hyc] at hcls <;> exact hcls
  have eox : outs x = others x.bondStr := by unfold outs; rw [if_neg nx]
  have eoy : outs y = others y.bondStr := by unfold outs; rw [if_neg ny]
  unfold OutOK at ox oy
  rw [eox] at ox hone
  rw [eoy] at oy hone
  have hclash : clashes x.bondStr y.bondStr = [] := by
    unfold clashes
    rcases hone with h | h
    · rw [List.eq_nil_iff_forall_not_mem]
      intro d hd
      simp only [List.mem_filter, decide_eq_true_eq] at hd
      have : d ∈ others x.bondStr := mem_others.2 ⟨hd.2, (mem_others.1 hd.1).2⟩
      rw [h] at this; simp at this
    · rw [h]; rfl
  have hz : ∀ (s : List Char), (others s = [] ∨ others s = ['o']) → 'z' ∉ s := by
    intro s hs hz
    have : 'z' ∈ others s := mem_others.2 ⟨hz, by decide, by decide, by decide⟩
    rcases hs with h | h <;> rw [h] at this <;> simp at this
  have hlet : EnoughLetters x.bondStr y.bondStr := by
    unfold EnoughLetters
    rw [hclash]
    refine List.length_pos_of_mem (a := 'z') ?_
    simp only [List.mem_filter, decide_eq_true_eq]
    exact ⟨by decide, hz _ (ox.imp id And.left), hz _ (oy.imp id And.left)⟩
  obtain ⟨c, h1, h2, h3, h4, h5, h6, h7, h8, h9, _, h11, h12, h13⟩ :=
    C46_product x y hx.labelled hy.labelled hcls hr hl (by rw [hx.batch, hy.batch]) hbond hlet g
  have h11 := h11 hclash
  rw [hx.batch] at h1 h5 h13
  have nc : c.cls ≠ .matRegion := by rw [h3]; exact classFor_notRegion _
  have eoc : outs c = others c.bondStr := by unfold outs; rw [if_neg nc]
  refine ⟨c, h1, ⟨h2, classString_classFor c h3, h5, fun h => absurd h nc⟩, nc, h3, ?_, ?_, ?_, h7, h9, ?_⟩
  · rw [eoc]; exact h4
  · rw [eoc, eox, eoy, h11]
  · unfold OutOK
    rw [eoc, h11]
    unfold otherSizes at h12
    rw [h11] at h12
    rcases ox with ox | ox
    · rw [ox] at h12 ⊢
      rcases oy with oy | oy
      · left; rw [oy]; rfl
      · right
        rw [oy.1] at h12
        simp only [List.nil_append, List.map_cons, List.map_nil, List.cons.injEq, and_true] at h12
        exact ⟨by rw [oy.1]; rfl, by rw [h12, oy.2]⟩
    · have oy : others y.bondStr = [] := by
        rcases hone with h | h
        · rw [h] at ox; simp at ox
        · exact h
      rw [ox.1, oy] at h12 ⊢
      right
      simp only [List.append_nil, List.map_cons, List.map_nil, List.cons.injEq, and_true] at h12
      exact ⟨rfl, by rw [h12, ox.2]⟩
  · intro b hb o ho
    rw [factors_single x nx, factors_single y ny]
    show some ((matOf x b o).mul (matOf y b o)) = _
    congr 1
    have ec : cols x = rows y := by unfold cols rows; rw [if_pos hr, if_pos hl, hbond]
    have er : rows c = rows x := by
      unfold rows
      by_cases h : 'l' ∈ x.bondStr
      · rw [if_pos h, if_pos (h6.2 h), h7 h]
      · rw [if_neg h, if_neg (fun hh => h (h6.1 hh))]
    have ec' : cols c = cols y := by
      unfold cols
      by_cases h : 'r' ∈ y.bondStr
      · rw [if_pos h, if_pos (h8.2 h), h9 h]
      · rw [if_neg h, if_neg (fun hh => h (h8.1 hh))]
    unfold matOf
    rw [← ec, mat_of_mul, er, ec']
    refine mat_of_congr _ _ _ _ ?_
    intro i hi j hj
    have hi' : 'l' ∈ x.bondStr → i < axis x 'l' := by
      intro h; unfold rows at hi; rwa [if_pos h] at hi
    have hj' : 'r' ∈ y.bondStr → j < axis y 'r' := by
      intro h; unfold cols at hj; rwa [if_pos h] at hj
    have ecx : cols x = axis x 'r' := by unfold cols; rw [if_pos hr]
    rw [ecx]
    have hs : ∀ z : Contractable K, others z.bondStr = ['o'] ∧ axis z 'o' = O → InRange [o] (otherSizes z) := by
      intro z hz
      unfold otherSizes
      rw [hz.1]
      simp [hz.2, ho]
    have hs0 : ∀ z : Contractable K, others z.bondStr = [] → InRange [] (otherSizes z) := by
      intro z hz
      unfold otherSizes
      rw [hz]
      simp
    rcases ox with ox | ox
    · have e0 := fun i k => entry_others_nil x ox b i k [o] []
      simp only [e0]
      rcases oy with oy | oy
      · have e1 := fun i k => entry_others_nil y oy b i k [o] []
        have e2 := fun i k => entry_others_nil c (by rw [h11, ox, oy]; rfl) b i k [o] []
        simp only [e1, e2]
        exact (h13 b hb [] (hs0 x ox) [] (hs0 y oy) i hi' j hj').symm
      · exact (h13 b hb [] (hs0 x ox) [o] (hs y oy) i hi' j hj').symm
    · have oy : others y.bondStr = [] := by
        rcases hone with h | h
        · rw [h] at ox; simp at ox
        · exact h
      have e1 := fun i k => entry_others_nil y oy b i k [o] []
      simp only [e1]
      exact (h13 b hb [o] (hs x ox) [] (hs0 y oy) i hi' j hj').symm


theorem region_shape (B : ℕ) (x : Contractable K) (hx : Piece B x) (hc : x.cls = .matRegion) :
    x.bondStr = ['b', 's', 'l', 'r'] ∧ x.tensor.shape = [B, axis x 's', axis x 'l', axis x 'l'] ∧ axis x 'r' = axis x 'l' := by
  have hs := hx.string
  unfold ClassString at hs
  rw [hc] at hs
  simp only at hs
  have h1 := map_axis x hx.labelled.order hx.labelled.distinct
  refine ⟨hs.1, ?_, hs.2.symm⟩
  rw [← h1, hs.1]
  simp [hx.batch, hs.2]

theorem region_factors [Zero K] (B : ℕ) (x : Contractable K) (hx : Piece B x) (hc : x.cls = .matRegion) (b o : ℕ) :
    factors x b o = siteMats x.tensor (axis x 'l') (axis x 's') b := by
  obtain ⟨h1, h2, h3⟩ := region_shape B x hx hc
  unfold factors
  rw [hc]
  simp only
  unfold siteMats
  refine List.map_congr_left ?_
  intro s _
  unfold matOf siteMat rows cols
  rw [if_pos (by rw [h1]; decide), if_pos (by rw [h1]; decide), h3]
  refine mat_of_congr _ _ _ _ ?_
  intro i _ j _
  unfold entry
  rw [h1]
  simp [place]

theorem edge_shape (B : ℕ) (d : Char) (y : Contractable K) (hy : Piece B y) (hs : y.bondStr = ['b', d]) :
    y.tensor.shape = [B, axis y d] := by
  have h1 := map_axis y hy.labelled.order hy.labelled.distinct
  rw [← h1, hs]
  simp [hy.batch]

theorem edge_mat_right [Zero K] (y : Contractable K) (hs : y.bondStr = ['b', 'l']) (b o : ℕ) :
    matOf y b o = Mat.of (axis y 'l') 1 (fun i _ => y.tensor.get [b, i]) := by
  unfold matOf rows cols
  rw [if_pos (by rw [hs]; decide), if_neg (by rw [hs]; decide)]
  refine mat_of_congr _ _ _ _ ?_
  intro i _ j _
  unfold entry
  rw [hs]
  simp [place]

theorem edge_mat_left [Zero K] (y : Contractable K) (hs : y.bondStr = ['b', 'r']) (b o : ℕ) :
    matOf y b o = Mat.of 1 (axis y 'r') (fun _ j => y.tensor.get [b, j]) := by
  unfold matOf rows cols
  rw [if_neg (by rw [hs]; decide), if_pos (by rw [hs]; decide)]
  refine mat_of_congr _ _ _ _ ?_
  intro i _ j _
  unfold entry
  rw [hs]
  simp [place]

theorem edge_piece (B D : ℕ) (left : Bool) (t : Tensor K) (ht : t.shape = [B, D]) :
    Piece B (⟨.edgeVec, t, ['b', if left then 'r' else 'l']⟩ : Contractable K) := by
  refine ⟨⟨rfl, ?_, ?_, by simp [ht]⟩, ?_, by simp [axis, ht], by simp⟩
  · cases left <;> (simp only; decide)
  · cases left <;> (simp only; decide)
  · unfold ClassString
    cases left <;> simp

theorem mkEdgeVec_ok (B D : ℕ) (left : Bool) (t : Tensor K) (ht : t.shape = [B, D]) (g : Option ℕ) :
    mkEdgeVec t left g = (.ok ⟨.edgeVec, t, ['b', if left then 'r' else 'l']⟩, some B) := by
  unfold mkEdgeVec
  rw [if_neg (by simp [Tensor.ndim, ht]), mkContractable_batched _ _ _ rfl (by simp [ht]) g, ht]
  rfl

/-- a region applied to the right edge -/
theorem star_region_edge [CommSemiring K] (B O : ℕ) (x y : Contractable K) (hx : Piece B x) (hy : Piece B y)
    (hc : x.cls = .matRegion) (hyc : y.cls = .edgeVec) (hys : y.bondStr = ['b', 'l']) (hbond : axis x 'r' = axis y 'l')
    (g : Option ℕ) : ∃ c, star x y g = (.ok c, some B) ∧ Merged B O x y c := by
  obtain ⟨h1, h2, h3⟩ := region_shape B x hx hc
  have hsh := edge_shape B 'l' y hy hys
  have hD : axis x 'l' = axis y 'l' := by rw [← h3, hbond]
  have hn := hx.sites hc
  set D := axis x 'l' with hDdef
  set n := axis x 's' with hndef
  rw [← hD] at hsh
  obtain ⟨v, e1, e2, e3⟩ := regionApply_left x.tensor B n D h2 (List.range n).reverse (y.tensor.unsqueeze 2)
    (by simp [Tensor.unsqueeze, hsh])
  have hsq : v.squeeze 2 = ⟨[B, D], fun idx => v.get (idx.insertIdx 2 0)⟩ := by
    unfold Tensor.squeeze
    rw [e2]
    simp
  have hpc := edge_piece B D false (v.squeeze 2) (by rw [hsq])
  have hmk := fun g => mkEdgeVec_ok B D false (v.squeeze 2) (by rw [hsq]) g
  have hax : axis (⟨.edgeVec, v.squeeze 2, ['b', 'l']⟩ : Contractable K) 'l' = D := by
    unfold axis
    rw [hsq]
    simp
  refine ⟨⟨.edgeVec, v.squeeze 2, ['b', 'l']⟩, ?_, hpc, by simp, by simp [classFor], ?_, ?_, ?_, ?_, ?_, ?_⟩
  · unfold star
    rw [if_neg (by rw [hc, hyc]; decide), if_neg (by rw [hc]; simp)]
    refine orElse_some ?_
    unfold mulMethod
    rw [hc]
    simp only
    unfold regionMul
    have hg : x.tensor.shape.getD 1 0 = n := by rw [h2]; rfl
    rw [if_neg (by rw [hyc]; simp), hg]
    simp only [Bool.false_eq_true, if_false]
    rw [if_neg (by omega), e1, CM.bind_ok (CM.lift_apply _ _), CM.bind_ok (hmk g)]
    rfl
  · have : outs (⟨.edgeVec, v.squeeze 2, ['b', 'l']⟩ : Contractable K) = [] := by unfold outs; simp [others]
    rw [this, if_pos (by rw [h1]; decide), if_neg (by rw [hys]; decide)]
    rfl
  · unfold outs
    rw [if_pos hc, hys, hyc]
    simp [others]
  · left
    unfold outs
    simp [others]
  · intro _; exact hax
  · intro h; rw [hys] at h; exact absurd h (by decide)
  · intro b hb o ho
    rw [region_factors B x hx hc, factors_single y (by rw [hyc]; decide), prodL_snoc_foldr,
      edge_mat_right y hys, edge_mat_right ⟨.edgeVec, v.squeeze 2, ['b', 'l']⟩ rfl, hax, ← hD]
    congr 1
    have := e3 b
    rw [List.map_reverse, List.foldl_reverse] at this
    unfold siteMats
    refine Eq.trans ?_ (Eq.trans this.symm ?_)
    · congr 1
    · refine mat_of_congr _ _ _ _ ?_
      intro i _ j hj
      have hj : j = 0 := by omega
      subst hj
      rw [hsq]
      rfl

/-- the left edge applied to a region -/
theorem star_edge_region [CommSemiring K] (B O : ℕ) (x y : Contractable K) (hx : Piece B x) (hy : Piece B y)
    (hc : y.cls = .matRegion) (hxc : x.cls = .edgeVec) (hxs : x.bondStr = ['b', 'r']) (hbond : axis x 'r' = axis y 'l')
    (g : Option ℕ) : ∃ c, star x y g = (.ok c, some B) ∧ Merged B O x y c := by
  obtain ⟨h1, h2, h3⟩ := region_shape B y hy hc
  have hsh := edge_shape B 'r' x hx hxs
  have hn := hy.sites hc
  set D := axis y 'l' with hDdef
  set n := axis y 's' with hndef
  rw [hbond] at hsh
  obtain ⟨v, e1, e2, e3⟩ := regionApply_right y.tensor B n D h2 (List.range n) (x.tensor.unsqueeze 1)
    (by simp [Tensor.unsqueeze, hsh])
  have hsq : v.squeeze 1 = ⟨[B, D], fun idx => v.get (idx.insertIdx 1 0)⟩ := by
    unfold Tensor.squeeze
    rw [e2]
    simp
  have hpc := edge_piece B D true (v.squeeze 1) (by rw [hsq])
  have hmk := fun g => mkEdgeVec_ok B D true (v.squeeze 1) (by rw [hsq]) g
  have hax : axis (⟨.edgeVec, v.squeeze 1, ['b', 'r']⟩ : Contractable K) 'r' = D := by
    unfold axis
    rw [hsq]
    simp
  refine ⟨⟨.edgeVec, v.squeeze 1, ['b', 'r']⟩, ?_, hpc, by simp, by simp [classFor], ?_, ?_, ?_, ?_, ?_, ?_⟩
  · unfold star
    rw [if_neg (by rw [hc, hxc]; decide), if_neg (by rw [hxc]; simp)]
    rw [orElse_none (g' := g)]
    · refine orElse_some ?_
      unfold rmulMethod
      rw [hc]
      simp only
      unfold regionMul
      have hg : y.tensor.shape.getD 1 0 = n := by rw [h2]; rfl
      rw [if_neg (by rw [hxc]; simp), hg]
      simp only [if_true]
      rw [if_neg (by omega), e1, CM.bind_ok (CM.lift_apply _ _), CM.bind_ok (hmk g)]
      rfl
    · unfold mulMethod
      rw [hxc]
      simp only [edgeMul]
      rw [if_pos (by rw [hc]; decide)]
      rfl
  · have : outs (⟨.edgeVec, v.squeeze 1, ['b', 'r']⟩ : Contractable K) = [] := by unfold outs; simp [others]
    rw [this, if_neg (by rw [hxs]; decide), if_pos (by rw [h1]; decide)]
    rfl
  · unfold outs
    rw [if_pos hc, hxs, hxc]
    simp [others]
  · left
    unfold outs
    simp [others]
  · intro h; rw [hxs] at h; exact absurd h (by decide)
  · intro _; rw [h3]; exact hax
  · intro b hb o ho
    rw [region_factors B y hy hc, factors_single x (by rw [hxc]; decide), List.singleton_append, prodL_cons_foldl,
      edge_mat_left x hxs, edge_mat_left ⟨.edgeVec, v.squeeze 1, ['b', 'r']⟩ rfl, hax, hbond]
    congr 1
    unfold siteMats
    refine Eq.trans ?_ (Eq.trans (e3 b).symm ?_)
    · congr 1
    · refine mat_of_congr _ _ _ _ ?_
      intro i hi j hj
      have hi : i = 0 := by omega
      subst hi
      rw [hsq]
      rfl

/-- reduction of one region -/
theorem regionReduce_ok [CommSemiring K] (B : ℕ) (x : Contractable K) (hx : Piece B x) (hc : x.cls = .matRegion)
    (g : Option ℕ) : ∃ c, reduceItem x g = (.ok c, some B) ∧ Piece B c ∧ c.cls = .singleMat ∧ axis c 'l' = axis x 'l' ∧
      axis c 'r' = axis x 'r' ∧ ∀ b < B, ∀ o, prodL (factors x b o) = some (matOf c b o) := by
  obtain ⟨h1, h2, h3⟩ := region_shape B x hx hc
  have hn := hx.sites hc
  obtain ⟨t, e1, e2, e3⟩ := regionLoop_ok (axis x 's') x.tensor B (axis x 's') (axis x 'l') h2 hn le_rfl
  have hsq : t.squeeze 1 = ⟨[B, axis x 'l', axis x 'l'], fun idx => t.get (idx.insertIdx 1 0)⟩ := by
    unfold Tensor.squeeze
    rw [e2]
    simp
  have ha1 : axis (⟨.singleMat, t.squeeze 1, ['b', 'l', 'r']⟩ : Contractable K) 'l' = axis x 'l' := by
    rw [hsq]; rfl
  have ha2 : axis (⟨.singleMat, t.squeeze 1, ['b', 'l', 'r']⟩ : Contractable K) 'r' = axis x 'l' := by
    rw [hsq]; rfl
  refine ⟨⟨.singleMat, t.squeeze 1, ['b', 'l', 'r']⟩, ?_, ⟨⟨rfl, by simp only; decide, by simp only; decide, by rw [hsq]; rfl⟩, rfl, ?_, by simp⟩, rfl, ha1, ?_, ?_⟩
  · unfold reduceItem
    rw [if_pos hc]
    unfold regionReduce
    have hg : x.tensor.shape.getD 1 0 = axis x 's' := by rw [h2]; rfl
    simp only [hg]
    rw [e1, CM.bind_ok (CM.lift_apply _ _)]
    unfold mkSingleMat
    rw [if_neg (by simp [Tensor.ndim, hsq]), mkContractable_batched _ _ _ rfl (by simp [hsq]) g, hsq]
    rfl
  · unfold axis; rw [hsq]; simp
  · rw [h3]; exact ha2
  · intro b hb o
    rw [region_factors B x hx hc, e3 b hb]
    congr 1
    unfold matOf rows cols
    rw [if_pos (by simp), if_pos (by simp), ha1, ha2]
    unfold siteMat
    refine mat_of_congr _ _ _ _ ?_
    intro i _ j _
    unfold entry
    rw [hsq]
    simp [place]

end TorchMPS
