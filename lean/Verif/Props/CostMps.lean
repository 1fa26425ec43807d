import Verif.Lemmas.CostMpsLoop
import Verif.Spec.CostMps
import Verif.Props.Mps
/-
C105: the work of MPS.forward.
-/
namespace TorchMPS
open Spec
variable {K : Type}

section
variable [CommSemiring K] {B O D : ℕ}

/-- the region of `n` sites on one side: nothing without sites -/
def Side (B O D n : ℕ) (l : List (Contractable K)) : Prop := (n = 0 ∧ l = []) ∨ (1 ≤ n ∧ ∃ r, l = [r] ∧ IsR B O D n r)

theorem serial_work {k q : ℕ} {ls rs : List (Contractable K)} {e c v : Contractable K} (hl : Side B O D k ls) (hr : Side B O D q rs)
    (he : ∀ n, IsE B O D n e) (hc : ∀ n, IsC B O D n c) (hv : ∀ n, IsV B O D n v) (g : Option ℕ) :
    listWork (e :: (ls ++ c :: rs) ++ [v]) false g = serialWork B O D (k + q) := by
  have fin : ∀ (e' w : Contractable K) (f : ℕ) (g : Option ℕ), IsE B O D 1 e' → IsW B O D 1 w → reduceWork (f + 1) [e', w] g = (B * (O * D), 1) := by
    intro e' w f g h1 h2
    obtain ⟨u, u1, u2⟩ := work_EW h1 h2 g
    refine (reduceWork_last f [] e' w u g _ u1).trans ?_
    rw [List.nil_append, reduceWork_one, u2]
    rfl
  have left : ∀ (w : Contractable K) (f : ℕ) (g : Option ℕ), IsW B O D 1 w →
      reduceWork (f + ls.length + 1) (e :: (ls ++ [w])) g = (k * (B * D ^ 2) + B * (O * D), k + 1) := by
    intro w f g hw
    rcases hl with ⟨rfl, rfl⟩ | ⟨hk, r, rfl, hr'⟩
    · refine (fin e w f g (he 1) hw).trans ?_
      simp
    · obtain ⟨e', e1, e2, e3⟩ := work_ER (he k) hr' g
      have := reduceWork_first (f + 1) [e, r, w] [e] r w e r e' [w] g _ rfl rfl (work_RW hr' (hw.sites (by decide)) g) e1
      refine (show reduceWork (f + [r].length + 1) (e :: ([r] ++ [w])) g = _ from this).trans ?_
      rw [fin e' w f _ (e2.sites (by decide)) hw, e3]
      rfl
  have core : ∀ (v' : Contractable K) (f : ℕ) (g : Option ℕ), IsV B O D 1 v' →
      reduceWork (f + ls.length + 2) (e :: (ls ++ [c, v'])) g = (k * (B * D ^ 2) + B * (O * D ^ 2) + B * (O * D), k + 2) := by
    intro v' f g h1
    obtain ⟨w, w1, w2, w3⟩ := work_CV (hc 1) h1 g
    have := reduceWork_last (f + ls.length + 1) (e :: ls) c v' w g _ w1
    refine (show reduceWork (f + ls.length + 2) (e :: (ls ++ [c, v'])) g = _ from this).trans ?_
    rw [w3, List.cons_append, left w f _ w2, Prod.mk_add_mk]
    refine Prod.ext ?_ ?_
    · simp only; ring
    · simp only; ring
  have all : ∀ (g : Option ℕ), reduceWork (ls.length + 1 + rs.length + 2) (e :: (ls ++ c :: rs) ++ [v]) g = serialWork B O D (k + q) := by
    intro g
    unfold serialWork
    rcases hr with ⟨rfl, rfl⟩ | ⟨hq, r, rfl, hr'⟩
    · have := core v 1 g (hv 1)
      rw [show ls.length + 1 + ([] : List (Contractable K)).length + 2 = 1 + ls.length + 2 by simp only [List.length_nil]; omega]
      refine Eq.trans ?_ (this.trans ?_)
      · congr 1; simp
      · simp
    · obtain ⟨v', v1, v2, v3⟩ := work_RV hr' (hv q) g
      have := reduceWork_last (ls.length + 3) (e :: (ls ++ [c])) r v v' g _ v1
      rw [show ls.length + 1 + [r].length + 2 = (ls.length + 3) + 1 by simp only [List.length_singleton]]
      refine Eq.trans ?_ (this.trans ?_)
      · congr 1; simp
      · have h2 := core v' 1 (some B) (v2.sites (by decide))
        rw [show e :: (ls ++ [c]) ++ [v'] = e :: (ls ++ [c, v']) by simp, show ls.length + 3 = 1 + ls.length + 2 by omega, h2, v3, Prod.mk_add_mk]
        refine Prod.ext ?_ ?_
        · simp only; ring
        · simp only; ring
  have hlen : (e :: (ls ++ c :: rs) ++ [v]).length = ls.length + 1 + rs.length + 2 := by simp only [List.length_append, List.length_cons, List.length_nil]; omega
  rw [listWork_eq _ (e :: (ls ++ c :: rs) ++ [v]) false g g rfl, hlen, all g]
  exact zero_add _

/-- the reduced region of one side -/
def MSide (B O D n : ℕ) (l : List (Contractable K)) : Prop := (n = 0 ∧ l = []) ∨ (1 ≤ n ∧ ∃ r, l = [r] ∧ ∀ m, IsM B O D m r)

theorem side_reduce {k : ℕ} {ls : List (Contractable K)} (hl : Side B O D k ls) (g : Option ℕ) (hg : k = 0 → g = some B) : ∃ ms, MSide B O D k ms ∧
    ∀ (cs ds : List (Contractable K)) (w : Work), reduceItems cs (some B) = (.ok ds, some B) ∧ itemsWork cs (some B) = w →
      reduceItems (ls ++ cs) g = (.ok (ms ++ ds), some B) ∧ itemsWork (ls ++ cs) g = ifSites k (treeWork B D k) + w := by
  rcases hl with ⟨rfl, rfl⟩ | ⟨hk, r, rfl, hr⟩
  · refine ⟨[], Or.inl ⟨rfl, rfl⟩, ?_⟩
    intro cs ds w h
    rw [hg rfl]
    exact ⟨h.1, h.2.trans (zero_add _).symm⟩
  · obtain ⟨c, c1, c2, c3⟩ := reduce_R hr hk g
    refine ⟨[c], Or.inr ⟨hk, c, rfl, c2⟩, ?_⟩
    intro cs ds w h
    have := reduceItems_cons c1 c3 h
    rw [ifSites, if_neg (by omega)]
    exact this

theorem prep_work {k q : ℕ} {ls rs : List (Contractable K)} {e c v : Contractable K} (hl : Side B O D k ls) (hr : Side B O D q rs)
    (he : ∀ n, IsE B O D n e) (hc : ∀ n, IsC B O D n c) (hv : ∀ n, IsV B O D n v) :
    ∃ ms ns, MSide B O D k ms ∧ MSide B O D q ns ∧ prepItems (e :: (ls ++ c :: rs) ++ [v]) true (some B) = (.ok (e :: (ms ++ c :: ns) ++ [v]), some B) ∧
      CW.work (prepRun (e :: (ls ++ c :: rs) ++ [v]) true) (some B) = ifSites k (treeWork B D k) + ifSites q (treeWork B D q) := by
  obtain ⟨ms, m1, m3⟩ := side_reduce hl (some B) (fun _ => rfl)
  obtain ⟨ns, n1, n3⟩ := side_reduce hr (some B) (fun _ => rfl)
  obtain ⟨e1, e2⟩ := reduce_other (he 1) (by decide) (some B)
  obtain ⟨c1, c2⟩ := reduce_other (hc 1) (by decide) (some B)
  obtain ⟨v1, v2⟩ := reduce_other (hv 1) (by decide) (some B)
  have all := reduceItems_cons e1 e2 (m3 _ _ _ (reduceItems_cons c1 c2 (n3 _ _ _ (reduceItems_cons v1 v2 (cs := []) (ds := []) ⟨rfl, rfl⟩))))
  refine ⟨ms, ns, m1, n1, ?_, ?_⟩
  · unfold prepItems
    rw [if_pos rfl, List.cons_append, List.cons_append, List.append_assoc, List.append_assoc, List.cons_append, List.cons_append]
    exact all.1
  · unfold prepRun
    rw [if_pos rfl, List.cons_append, List.append_assoc, List.cons_append]
    refine all.2.trans ?_
    show (0 : Work) + (_ + ((0 : Work) + (_ + ((0 : Work) + 0)))) = _
    simp only [zero_add, add_zero]

theorem parallel_work {k q : ℕ} {ls rs : List (Contractable K)} {e c v : Contractable K} (hl : Side B O D k ls) (hr : Side B O D q rs)
    (he : ∀ n, IsE B O D n e) (hc : ∀ n, IsC B O D n c) (hv : ∀ n, IsV B O D n v) :
    listWork (e :: (ls ++ c :: rs) ++ [v]) true (some B) = parallelWork B O D (k + q) k := by
  obtain ⟨ms, ns, hm, hn, p1, p2⟩ := prep_work hl hr he hc hv
  have fin : ∀ (w : Contractable K) (f : ℕ) (g : Option ℕ), IsW B O D 1 w → reduceWork (f + 1) [e, w] g = (B * (O * D), 1) := by
    intro w f g h2
    obtain ⟨u, u1, u2⟩ := work_EW (he 1) h2 g
    refine (reduceWork_last f [] e w u g _ u1).trans ?_
    rw [List.nil_append, reduceWork_one, u2]
    rfl
  have left : ∀ (w : Contractable K) (f : ℕ) (g : Option ℕ), IsW B O D 1 w →
      reduceWork (f + ms.length + 1) (e :: (ms ++ [w])) g = ifSites k (B * (O * D ^ 2), 1) + (B * (O * D), 1) := by
    intro w f g hw
    rcases hm with ⟨rfl, rfl⟩ | ⟨hk, r, rfl, hr'⟩
    · refine (fin w f g hw).trans ?_
      simp [ifSites]
    · obtain ⟨w', e1, e2, e3⟩ := work_MW (hr' 1) hw g
      have := reduceWork_last (f + 1) [e] r w w' g _ e1
      refine (show reduceWork (f + [r].length + 1) (e :: ([r] ++ [w])) g = _ from this).trans ?_
      rw [e3, List.singleton_append, fin w' f _ e2, ifSites, if_neg (by omega)]
  have core : ∀ (v' : Contractable K) (f : ℕ) (g : Option ℕ), IsV B O D 1 v' →
      reduceWork (f + ms.length + 2) (e :: (ms ++ [c, v'])) g = (B * (O * D ^ 2), 1) + (ifSites k (B * (O * D ^ 2), 1) + (B * (O * D), 1)) := by
    intro v' f g h1
    obtain ⟨w, w1, w2, w3⟩ := work_CV (hc 1) h1 g
    have := reduceWork_last (f + ms.length + 1) (e :: ms) c v' w g _ w1
    refine (show reduceWork (f + ms.length + 2) (e :: (ms ++ [c, v'])) g = _ from this).trans ?_
    rw [w3, List.cons_append, left w f _ w2]
  have all : ∀ (g : Option ℕ), reduceWork (ms.length + 1 + ns.length + 2) (e :: (ms ++ c :: ns) ++ [v]) g =
      ifSites q (B * D ^ 2, 1) + ((B * (O * D ^ 2), 1) + (ifSites k (B * (O * D ^ 2), 1) + (B * (O * D), 1))) := by
    intro g
    rcases hn with ⟨rfl, rfl⟩ | ⟨hq, r, rfl, hr'⟩
    · have := core v 1 g (hv 1)
      rw [show ms.length + 1 + ([] : List (Contractable K)).length + 2 = 1 + ms.length + 2 by simp only [List.length_nil]; omega]
      refine Eq.trans ?_ (this.trans ?_)
      · congr 1; simp
      · simp [ifSites]
    · obtain ⟨v', v1, v2, v3⟩ := work_MV (hr' 1) (hv 1) g
      have := reduceWork_last (ms.length + 3) (e :: (ms ++ [c])) r v v' g _ v1
      rw [show ms.length + 1 + [r].length + 2 = (ms.length + 3) + 1 by simp only [List.length_singleton]]
      refine Eq.trans ?_ (this.trans ?_)
      · congr 1; simp
      · have h2 := core v' 1 (some B) v2
        rw [show e :: (ms ++ [c]) ++ [v'] = e :: (ms ++ [c, v']) by simp, show ms.length + 3 = 1 + ms.length + 2 by omega, h2, v3, ifSites, ifSites, if_neg (show ¬ q = 0 by omega)]
  rw [listWork_eq _ _ _ _ _ p1, p2]
  have hlen : (e :: (ms ++ c :: ns) ++ [v]).length = ms.length + 1 + ns.length + 2 := by
    simp only [List.length_append, List.length_cons, List.length_nil]; omega
  rw [hlen, all]
  unfold parallelWork
  rw [show k + q - k = q by omega]
  have h0 : ∀ (j : ℕ) (u w : Work), ifSites j (u + w) = ifSites j u + ifSites j w := by
    intro j u w
    unfold ifSites
    by_cases h : j = 0
    · simp [h]
    · simp [h]
  have h1 : ((B * (O * D ^ 2) + B * (O * D), 2) : Work) = (B * (O * D ^ 2), 1) + (B * (O * D), 1) := rfl
  rw [h0, h0, h1]
  abel

theorem ring_work {k q : ℕ} {ls rs : List (Contractable K)} {c : Contractable K} (hl : Side B O D k ls) (hr : Side B O D q rs)
    (hc : ∀ n, IsC B O D n c) : listWork (ls ++ c :: rs) true (some B) = ringWork B O D (k + q) k := by
  obtain ⟨ms, hm, m3⟩ := side_reduce hl (some B) (fun _ => rfl)
  obtain ⟨ns, hn, n3⟩ := side_reduce hr (some B) (fun _ => rfl)
  obtain ⟨c1, c2⟩ := reduce_other (hc 1) (by decide) (some B)
  have all := m3 _ _ _ (reduceItems_cons c1 c2 (n3 [] [] _ ⟨rfl, rfl⟩))
  rw [List.append_nil, List.append_nil] at all
  have p1 : prepItems (ls ++ c :: rs) true (some B) = (.ok (ms ++ c :: ns), some B) := by
    unfold prepItems
    rw [if_pos rfl]
    exact all.1
  have p2 : CW.work (prepRun (ls ++ c :: rs) true) (some B) = ifSites k (treeWork B D k) + ifSites q (treeWork B D q) := by
    unfold prepRun
    rw [if_pos rfl]
    refine all.2.trans ?_
    show _ + ((0 : Work) + (_ + (0 : Work))) = _
    rw [zero_add, add_zero]
  have left : ∀ (c' : Contractable K) (f : ℕ) (g : Option ℕ), IsC B O D 1 c' →
      reduceWork (f + ms.length + 1) (ms ++ [c']) g = ifSites k (B * (O * D ^ 3), 1) := by
    intro c' f g hw
    rcases hm with ⟨rfl, rfl⟩ | ⟨hk, r, rfl, hr'⟩
    · rw [List.nil_append, reduceWork_one, ifSites, if_pos rfl]
    · obtain ⟨w', e1, e2, e3⟩ := work_MC (hr' 1) hw g
      have := reduceWork_last (f + 1) [] r c' w' g _ e1
      refine (show reduceWork (f + [r].length + 1) ([r] ++ [c']) g = _ from this).trans ?_
      rw [e3, List.nil_append, reduceWork_one, ifSites, if_neg (by omega)]
      rfl
  have all : ∀ (g : Option ℕ), reduceWork (ms.length + 1 + ns.length) (ms ++ c :: ns) g =
      ifSites q (B * (O * D ^ 3), 1) + ifSites k (B * (O * D ^ 3), 1) := by
    intro g
    rcases hn with ⟨rfl, rfl⟩ | ⟨hq, r, rfl, hr'⟩
    · have := left c 0 g (hc 1)
      rw [show ms.length + 1 + ([] : List (Contractable K)).length = 0 + ms.length + 1 by simp only [List.length_nil]; omega, this]
      show _ = (0 : Work) + _
      rw [zero_add]
    · obtain ⟨v', v1, v2, v3⟩ := work_CM (hc 1) (hr' 1) g
      have := reduceWork_last (ms.length + 1) ms c r v' g _ v1
      rw [show ms.length + 1 + [r].length = (ms.length + 1) + 1 by simp only [List.length_singleton]]
      refine this.trans ?_
      have h2 := left v' 0 (some B) v2
      rw [show ms.length + 1 = 0 + ms.length + 1 by omega, h2, v3, ifSites, ifSites, if_neg (show ¬ q = 0 by omega)]
  rw [listWork_eq _ _ _ _ _ p1, p2]
  have hlen : (ms ++ c :: ns).length = ms.length + 1 + ns.length := by
    simp only [List.length_append, List.length_cons]; omega
  rw [hlen, all]
  unfold ringWork
  rw [show k + q - k = q by omega]
  have h0 : ∀ (j : ℕ) (u w : Work), ifSites j (u + w) = ifSites j u + ifSites j w := by
    intro j u w
    unfold ifSites
    by_cases h : j = 0
    · simp [h]
    · simp [h]
  rw [h0, h0]
  abel
end

/-- what the modules of a model become -/
theorem mps_chain [CommRing K] (k : ℕ) (ub : Bool) (p : Params K) (m : MPS K) (h : IsMps k ub p m) (hs : NoShortRegion m.inputDim k) (e : Tensor K) (B : ℕ)
    (he : e.shape = [B, m.inputDim, m.featureDim]) (g : Option ℕ) (hg : BatchKnown k B g) :
    ∃ ls c rs, modulesRun e 0 m.modules g = ((.ok (ls ++ c :: rs), some B), featureWork B m.bondDim m.featureDim m.inputDim k) ∧
      Side B m.outputDim m.bondDim k ls ∧ Side B m.outputDim m.bondDim (m.inputDim - k) rs ∧ (∀ n, IsC B m.outputDim m.bondDim n c) := by
  obtain ⟨f1, _, _, _, _⟩ := mps_facts k ub p m h
  have hl := h.label
  have right : ∀ i, ∃ rs, modulesRun e i (if k = m.inputDim then [] else [.inputRegion p.right (if ub then some p.rightBias else none)]) (some B) =
      ((.ok rs, some B), ifSites (m.inputDim - k) ((m.inputDim - k) * (B * m.bondDim ^ 2 * m.featureDim), 1)) ∧
      Side B m.outputDim m.bondDim (m.inputDim - k) rs := by
    intro i
    by_cases hk : k = m.inputDim
    · rw [if_pos hk]
      refine ⟨[], ?_, Or.inl ⟨by omega, rfl⟩⟩
      rw [ifSites, if_pos (by omega)]
      rfl
    · rw [if_neg hk]
      obtain ⟨c, c1, c2, c3⟩ := forward_R B m.inputDim m.featureDim m.bondDim m.outputDim (m.inputDim - k) i (by omega) hs.2 e he p.right h.right
        (if ub then some p.rightBias else none) (f1 _ (by rw [h.modules, if_neg hk]; simp)) (some B)
      refine ⟨[c], ?_, Or.inr ⟨by omega, c, rfl, c2⟩⟩
      rw [modulesRun_cons c1 c3 rfl, ifSites, if_neg (by omega)]
      rfl
  have mid : ∀ i, ∃ c rs, modulesRun e i (.outputSite p.out :: (if k = m.inputDim then [] else [.inputRegion p.right (if ub then some p.rightBias else none)])) (some B) =
      ((.ok (c :: rs), some B), ifSites (m.inputDim - k) ((m.inputDim - k) * (B * m.bondDim ^ 2 * m.featureDim), 1)) ∧
      Side B m.outputDim m.bondDim (m.inputDim - k) rs ∧ (∀ n, IsC B m.outputDim m.bondDim n c) := by
    intro i
    obtain ⟨c, c1, c2, c3⟩ := forward_C B m.bondDim m.outputDim 1 (pickInput e i (Module.outputSite p.out).len) p.out h.out
    obtain ⟨rs, r1, r2⟩ := right (i + (Module.outputSite p.out).len)
    refine ⟨c, rs, ?_, r2, fun n => c2.sites (by decide)⟩
    rw [modulesRun_cons c1 c3 r1]
    exact congrArg _ (zero_add _)
  rw [h.modules]
  by_cases hk : k = 0
  · have hg' : g = some B := hg.resolve_left (by omega)
    obtain ⟨c, rs, m1, m2, m3⟩ := mid 0
    rw [if_pos hk, List.nil_append, hg']
    refine ⟨[], c, rs, ?_, Or.inl ⟨hk, rfl⟩, m2, m3⟩
    rw [m1, featureWork, List.nil_append]
    conv_rhs => arg 2; arg 1; rw [ifSites, if_pos hk]
    exact congrArg _ (zero_add _).symm
  · rw [if_neg hk, List.singleton_append]
    obtain ⟨r, r1, r2, r3⟩ := forward_R B m.inputDim m.featureDim m.bondDim m.outputDim k 0 (by omega) hs.1 e he p.left h.left
      (if ub then some p.leftBias else none) (f1 _ (by rw [h.modules, if_neg hk]; simp)) g
    obtain ⟨c, rs, m1, m2, m3⟩ := mid (0 + (Module.inputRegion p.left (if ub then some p.leftBias else none)).len)
    refine ⟨[r], c, rs, ?_, Or.inr ⟨by omega, r, rfl, r2⟩, m2, m3⟩
    rw [modulesRun_cons r1 r3 m1, featureWork]
    conv_rhs => arg 2; arg 1; rw [ifSites, if_neg hk]
    rfl

theorem side_ends [CommRing K] {B O D k q : ℕ} {ls rs : List (Contractable K)} {c : Contractable K} (hl : Side B O D k ls) (hr : Side B O D q rs) (hc : ∀ n, IsC B O D n c) :
    ∃ f l, (ls ++ c :: rs).head? = some f ∧ (ls ++ c :: rs).getLast? = some l ∧ ('l' ∈ f.bondStr ∧ axis f 'l' = D) ∧ ('r' ∈ l.bondStr ∧ axis l 'r' = D) := by
  have c1 : 'l' ∈ c.bondStr ∧ axis c 'l' = D := ⟨by rw [(hc 1).str]; decide, by rw [(hc 1).size _ (by decide)]; simp [szOf]⟩
  have c2 : 'r' ∈ c.bondStr ∧ axis c 'r' = D := ⟨by rw [(hc 1).str]; decide, by rw [(hc 1).size _ (by decide)]; simp [szOf]⟩
  have r1 : ∀ (n : ℕ) (r : Contractable K), IsR B O D n r → 'l' ∈ r.bondStr ∧ axis r 'l' = D := fun n r h =>
    ⟨by rw [h.str]; decide, by rw [h.size _ (by decide)]; simp [szOf]⟩
  have r2 : ∀ (n : ℕ) (r : Contractable K), IsR B O D n r → 'r' ∈ r.bondStr ∧ axis r 'r' = D := fun n r h =>
    ⟨by rw [h.str]; decide, by rw [h.size _ (by decide)]; simp [szOf]⟩
  rcases hl with ⟨_, rfl⟩ | ⟨_, a, rfl, ha⟩ <;> rcases hr with ⟨_, rfl⟩ | ⟨_, b, rfl, hb⟩
  · exact ⟨c, c, rfl, rfl, c1, c2⟩
  · exact ⟨c, b, rfl, rfl, c1, r2 _ b hb⟩
  · exact ⟨a, c, rfl, rfl, r1 _ a ha, c2⟩
  · exact ⟨a, b, rfl, rfl, r1 _ a ha, r2 _ b hb⟩

/-- C105: the evaluation whose work is counted is the evaluation: the same outputs, the same exceptions, the same state of the process, for all models and inputs. -/
theorem C105_run [CommRing K] (m : MPS K) (x : Tensor K) (g : Option ℕ) : (m.run x).result g = m.forward x g := by
  have ring : ∀ cs : List (Contractable K), CW.result (closeRingRun cs) = closeRing cs := by
    intro cs
    unfold closeRingRun closeRing
    rw [CW.result_bind, listRun_result]
    congr 1
    funext c
    rw [CW.result_bind]
    rfl
  have opn : ∀ (cs : List (Contractable K)) (par : Bool), CW.result (closeOpenRun cs par) = closeOpen cs par := by
    intro cs par
    funext g
    rw [closeOpen_withEnds]
    unfold closeOpenRun
    rw [CW.result_bind, CW.result_of]
    refine congrFun (congrArg _ ?_) g
    funext l
    rw [CW.result_bind, listRun_result]
    rfl
  unfold MPS.run MPS.forward
  rw [CW.result_bind, CW.result_of]
  refine congrFun (congrArg _ ?_) g
  funext x1
  rw [CW.result_bind, CW.result_of]
  congr 1
  funext x2
  unfold linearRun linearForward
  rw [CW.result_bind, CW.result_of]
  congr 1
  funext _
  rw [CW.result_bind, CW.result_of]
  congr 1
  funext _
  rw [CW.result_bind, modulesRun_result]
  congr 1
  funext cs
  split
  · exact ring cs
  · exact opn cs _

theorem work_of_embedded [CommRing K] (m : MPS K) (x e : Tensor K) (he : Embedded m x e) (g : Option ℕ) :
    (m.run x).work g = (linearRun m.modules m.periodic m.parallel e).work g := by
  obtain ⟨x', e1, e2⟩ := he
  unfold MPS.run
  rw [CW.work_bind _ _ g g x' (by rw [CW.result_of, e1]; rfl), CW.work_bind _ _ g g e (by rw [CW.result_of, e2]; rfl)]
  show (0 : Work) + ((0 : Work) + _) = _
  rw [zero_add, zero_add]

/-- C105: how much work an evaluation takes, for all sizes, parameters, inputs and states of the process: the number of multiplications and the number of contractions done
one after the other. (It does not depend on the values.) -/
theorem C105_work [CommRing K] (k : ℕ) (ub : Bool) (p : Params K) (m : MPS K) (h : IsMps k ub p m)
    (hD : m.periodic = true ∨ 1 ≤ m.bondDim) (hs : NoShortRegion m.inputDim k) (x e : Tensor K) (he : Embedded m x e) (B : ℕ)
    (hB : e.shape.getD 0 0 = B) (g : Option ℕ) (hg : BatchKnown k B g) :
    (m.run x).work g = featureWork B m.bondDim m.featureDim m.inputDim k +
      (if m.periodic then ringWork B m.outputDim m.bondDim m.inputDim k
      else if m.parallel then parallelWork B m.outputDim m.bondDim m.inputDim k
      else serialWork B m.outputDim m.bondDim m.inputDim) := by
  have he' := he
  obtain ⟨x', _, e2⟩ := he'
  have hsh : e.shape = [B, m.inputDim, m.featureDim] := by
    have := embed_shape m x' e e2
    rw [this] at hB ⊢
    simp at hB
    simp [hB]
  obtain ⟨ls, c, rs, r1, r2, r3, r4⟩ := mps_chain k ub p m h hs e B hsh g hg
  have hn : k + (m.inputDim - k) = m.inputDim := by have := h.label; omega
  obtain ⟨_, _, f3, _, _⟩ := mps_facts k ub p m h
  rw [work_of_embedded m x e he, linearRun]
  rw [CW.work_bind _ _ g g () (by rw [CW.result_of, assert_true _ (by simp [Tensor.ndim, hsh])]; rfl),
    CW.work_bind _ _ g g () (by rw [CW.result_of, assert_true _ (by simp [hsh, f3])]; rfl),
    CW.work_bind _ _ g (some B) (ls ++ c :: rs) (congrArg Prod.fst r1)]
  show (0 : Work) + ((0 : Work) + (CW.work (modulesRun e 0 m.modules) g + _)) = _
  rw [zero_add, zero_add, show CW.work (modulesRun e 0 m.modules) g = _ from congrArg Prod.snd r1]
  congr 1
  cases hper : m.periodic with
  | true =>
    simp only [if_true]
    unfold closeRingRun
    rw [CW.work_bind_zero]
    · rw [show CW.work (listRun (ls ++ c :: rs) true) (some B) = _ from ring_work r2 r3 r4, hn]
    · intro a g'
      exact CW.work_bind_zero _ _ _ (fun _ _ => rfl)
  | false =>
    simp only [Bool.false_eq_true, if_false]
    obtain ⟨f, l, a1, a2, a3, a4⟩ := side_ends r2 r3 r4
    obtain ⟨ee, vv, w1, w2, w3⟩ := withEnds_ok B m.outputDim m.bondDim 1 (hD.resolve_left (by simp [hper])) _ f l a1 a2 a3 a4
    unfold closeOpenRun
    rw [CW.work_bind _ _ _ _ _ (by rw [CW.result_of]; exact w1), CW.work_bind_zero _ _ _ (fun _ _ => rfl)]
    show (0 : Work) + listWork _ _ _ = _
    rw [zero_add]
    cases hpar : m.parallel with
    | true =>
      simp only [if_true]
      rw [parallel_work r2 r3 w2 r4 w3, hn]
    | false =>
      simp only [Bool.false_eq_true, if_false]
      rw [serial_work r2 r3 w2 r4 w3, hn]

theorem clog_lt (n : ℕ) (hn : 1 ≤ n) : Nat.clog 2 n + 1 ≤ n := by
  have : Nat.clog 2 n ≤ n - 1 := by
    rw [Nat.clog_le_iff_le_pow (by omega)]
    have := Nat.lt_two_pow_self (n := n - 1)
    omega
  omega

theorem serial_parallel (B O D n k : ℕ) (hl : k ≤ n) (hD : 1 ≤ D) (hO : 1 ≤ O) :
    (serialWork B O D n).1 ≤ (parallelWork B O D n k).1 ∧ (parallelWork B O D n k).2 ≤ (serialWork B O D n).2 := by
  refine ⟨?_, ?_⟩
  · obtain ⟨q, rfl⟩ := Nat.exists_eq_add_of_le hl
    have hq : k + q - k = q := by omega
    unfold serialWork parallelWork
    rw [hq]
    have h1 : k * (B * D ^ 2) ≤ (ifSites k (treeWork B D k + (B * (O * D ^ 2), 1))).1 := by
      unfold ifSites
      by_cases hk : k = 0
      · simp [hk]
      · rw [if_neg hk]
        unfold treeWork
        obtain ⟨k', rfl⟩ : ∃ k', k = k' + 1 := ⟨k - 1, by omega⟩
        simp only [Prod.mk_add_mk, Nat.add_sub_cancel]
        have a1 : B * D ^ 2 ≤ B * (O * D ^ 2) := Nat.mul_le_mul_left _ (Nat.le_mul_of_pos_left _ hO)
        have a2 : B * D ^ 2 ≤ B * D ^ 3 := Nat.mul_le_mul_left _ (Nat.pow_le_pow_right hD (by omega))
        have a3 := Nat.mul_le_mul_left k' a2
        rw [Nat.add_mul, Nat.one_mul]
        omega
    have h2 : q * (B * D ^ 2) ≤ (ifSites q (treeWork B D q + (B * D ^ 2, 1))).1 := by
      unfold ifSites
      by_cases hk : q = 0
      · simp [hk]
      · rw [if_neg hk]
        unfold treeWork
        obtain ⟨k', rfl⟩ : ∃ k', q = k' + 1 := ⟨q - 1, by omega⟩
        simp only [Prod.mk_add_mk, Nat.add_sub_cancel]
        have a2 : B * D ^ 2 ≤ B * D ^ 3 := Nat.mul_le_mul_left _ (Nat.pow_le_pow_right hD (by omega))
        have a3 := Nat.mul_le_mul_left k' a2
        rw [Nat.add_mul, Nat.one_mul]
        omega
    rw [Prod.fst_add, Prod.fst_add]
    simp only
    rw [Nat.add_mul]
    omega
  · obtain ⟨q, rfl⟩ := Nat.exists_eq_add_of_le hl
    have hq : k + q - k = q := by omega
    unfold serialWork parallelWork
    rw [hq]
    have hi : ∀ (j a b : ℕ), (ifSites j (treeWork B D j + (a, 1))).2 ≤ j := by
      intro j a b
      unfold ifSites
      by_cases hk : j = 0
      · simp [hk]
      · rw [if_neg hk]
        exact clog_lt j (by omega)
    have h1 := hi k (B * (O * D ^ 2)) 0
    have h2 := hi q (B * D ^ 2) 0
    rw [Prod.snd_add, Prod.snd_add]
    simp only
    omega

/-- C105: with open boundaries the serial evaluation never takes more multiplications than the parallel one, and the parallel one never more contractions one after the other than
the serial one; both give the same outputs. -/
theorem C105_compare [CommRing K] (k : ℕ) (ub : Bool) (p : Params K) (ms mp : MPS K) (h : IsMps k ub p ms) (hm : mp = { ms with parallel := true }) (hser : ms.parallel = false)
    (hper : ms.periodic = false) (hD : 1 ≤ ms.bondDim) (hO : 1 ≤ ms.outputDim) (hs : NoShortRegion ms.inputDim k) (x e : Tensor K) (he : Embedded ms x e)
    (g g' : Option ℕ) (hg : BatchKnown k (e.shape.getD 0 0) g) (hg' : BatchKnown k (e.shape.getD 0 0) g') :
    ((ms.run x).work g).1 ≤ ((mp.run x).work g').1 ∧ ((mp.run x).work g').2 ≤ ((ms.run x).work g).2 ∧
    ∃ y y', (ms.forward x g).1 = .ok y ∧ (mp.forward x g').1 = .ok y' ∧ y.Eqv y' := by
  have hp : IsMps k ub p mp := by rw [hm]; exact ⟨h.label, h.modules, h.left, h.leftBias, h.out, h.right, h.rightBias⟩
  have b1 : mp.inputDim = ms.inputDim := by rw [hm]
  have b2 : mp.outputDim = ms.outputDim := by rw [hm]
  have b3 : mp.bondDim = ms.bondDim := by rw [hm]
  have b4 : mp.featureDim = ms.featureDim := by rw [hm]
  have b5 : mp.periodic = false := by rw [hm]; exact hper
  have b6 : mp.parallel = true := by rw [hm]
  have he' : Embedded mp x e := by rw [hm]; exact he
  have w1 := C105_work k ub p ms h (Or.inr hD) hs x e he _ rfl g hg
  have w2 := C105_work k ub p mp hp (Or.inr (by rw [b3]; exact hD)) (by rw [b1]; exact hs) x e he' _ rfl g' hg'
  rw [hper, hser] at w1
  rw [b1, b2, b3, b4, b5, b6] at w2
  simp only [Bool.false_eq_true, if_false, if_true] at w1 w2
  obtain ⟨a1, a2⟩ := serial_parallel (e.shape.getD 0 0) ms.outputDim ms.bondDim ms.inputDim k h.label hD hO
  rw [w1, w2]
  refine ⟨Nat.add_le_add_left a1 _, Nat.add_le_add_left a2 _, ?_⟩
  rw [hm]
  exact C53_mps k ub p ms h true (Or.inr hD) hs x e he g g' hg hg'

/-- C105: the multiplications of the serial evaluation with open boundaries: linear in the number of pixels and the batch size, quadratic in the bond dimension, and the same for
every label site. -/
theorem C105_serial [CommRing K] (k : ℕ) (ub : Bool) (p : Params K) (m : MPS K) (h : IsMps k ub p m) (hser : m.parallel = false) (hper : m.periodic = false)
    (hD : 1 ≤ m.bondDim) (hs : NoShortRegion m.inputDim k) (x e : Tensor K) (he : Embedded m x e) (B : ℕ)
    (hB : e.shape.getD 0 0 = B) (g : Option ℕ) (hg : BatchKnown k B g) :
    ((m.run x).work g).1 = B * (m.inputDim * (m.featureDim + 1) * m.bondDim ^ 2 + m.outputDim * m.bondDim ^ 2 + m.outputDim * m.bondDim) := by
  rw [C105_work k ub p m h (Or.inr hD) hs x e he B hB g hg, hper, hser]
  simp only [Bool.false_eq_true, if_false]
  unfold featureWork serialWork
  have h1 : ∀ (j w : ℕ), (ifSites j (j * w, 1)).1 = j * w := by
    intro j w
    unfold ifSites
    by_cases hj : j = 0
    · simp [hj]
    · rw [if_neg hj]
  rw [Prod.fst_add, Prod.fst_add, h1, h1]
  obtain ⟨q, hq⟩ := Nat.exists_eq_add_of_le h.label
  rw [hq, show k + q - k = q by omega]
  ring

/-- a model with ten pixels on each side of the output, three outputs, bond dimension 5, feature dimension 2 -/
def workModel (par per : Bool) : MPS ℤ :=
  ⟨20, 3, 5, 2, per, par, none, none,
    [.inputRegion ⟨[10, 5, 5, 2], fun _ => 1⟩ none, .outputSite ⟨[3, 5, 5], fun _ => 1⟩, .inputRegion ⟨[10, 5, 5, 2], fun _ => 1⟩ none]⟩

/-- `workModel` on a batch of seven: 11130 multiplications in 24 contractions one after the other serially, 24080 in 14 in parallel, 28000 in 12 on a ring -/
example (g : Option ℕ) : ((workModel false false).run ⟨[7, 20, 2], fun _ => 1⟩).work g = (11130, 24) ∧ ((workModel true false).run ⟨[7, 20, 2], fun _ => 1⟩).work g = (24080, 14) ∧
    ((workModel false true).run ⟨[7, 20, 2], fun _ => 1⟩).work g = (28000, 12) := by
  have hm : ∀ par per, IsMps 10 false ⟨⟨[10, 5, 5, 2], fun _ => 1⟩, ⟨[1, 5, 5], fun _ => 1⟩, ⟨[3, 5, 5], fun _ => 1⟩, ⟨[10, 5, 5, 2], fun _ => 1⟩, ⟨[1, 5, 5], fun _ => 1⟩⟩
      (workModel par per) := fun par per => ⟨by simp [workModel], rfl, rfl, rfl, rfl, rfl, rfl⟩
  have he : ∀ par per, Embedded (workModel par per) ⟨[7, 20, 2], fun _ => 1⟩ ⟨[7, 20, 2], fun _ => 1⟩ := fun par per => ⟨_, rfl, rfl⟩
  have hw := fun par per => C105_work 10 false _ _ (hm par per) (Or.inr (by simp [workModel])) (by simp [workModel, NoShortRegion]) _ _ (he par per) 7 rfl g (Or.inl (by omega))
  have hc : Nat.clog 2 10 = 4 := by decide +kernel
  rw [hw, hw, hw]
  simp [workModel, featureWork, serialWork, parallelWork, ringWork, ifSites, treeWork, hc]

/-- `workModel` meets the hypotheses of the comparison -/
example : workModel true false = { workModel false false with parallel := true } ∧ (workModel false false).parallel = false ∧ (workModel false false).periodic = false ∧
    1 ≤ (workModel false false).bondDim ∧ 1 ≤ (workModel false false).outputDim ∧ NoShortRegion (workModel false false).inputDim 10 := by
  simp [workModel, NoShortRegion]

end TorchMPS
