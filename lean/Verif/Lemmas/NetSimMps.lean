import Verif.Lemmas.NetSimList
import Verif.Lemmas.Linear
import Verif.Lemmas.TiMps
/-
The rounded program runs in lockstep with the exact program on triples: modules, boundaries, TI_MPS.
-/
namespace TorchMPS
open Spec
variable {K : Type} [RCLike K]

/-- a parameter: value, absolute value, absolute value times `w` -/
noncomputable def triT (w : ℝ) (t : Tensor K) : Tensor (Tri K) := ⟨t.shape, fun idx => (t.get idx, ‖t.get idx‖, w * ‖t.get idx‖)⟩

theorem triT_rel {w q : ℝ} (h : 1 ≤ q * w) (t : Tensor K) : TR q t (triT w t) := by
  refine ⟨rfl, fun idx => Rq.exact ?_⟩
  rw [← mul_assoc]
  nlinarith [norm_nonneg (t.get idx)]

section
variable {A : NetArith K} {S : ℕ} {γ u q : ℝ} (ac : AccurateNet A S γ u) (hS : 1 ≤ S)
include ac

/-- entrywise addition -/
theorem rel_addT {a b : Tensor K} {a' b' : Tensor (Tri K)} (ha : TR q a a') (hb : TR q b b') : TR (q * (1 + u)) (A.addT a b) (a'.add b') :=
  ⟨ha.1, fun idx => rq_add ac idx _ _ _ _ (ha.2 idx) (hb.2 idx)⟩

/-- related optional tensors -/
def RelBias (q : ℝ) : Option (Tensor K) → Option (Tensor (Tri K)) → Prop
  | none, none => True
  | some b, some b' => TR q b b'
  | _, _ => False

include hS
theorem rel_inputRegion (θ : ℝ) (hθ : θ = (1 + γ) ^ 2 * (1 + u) ^ 2) (D F n : ℕ) (hD : D ≤ S) (hF : F ≤ S) (t : Tensor K) (t' : Tensor (Tri K)) (ht : TR θ⁻¹ t t')
    (hsh : t.shape = [n, D, D, F]) (bias : Option (Tensor K)) (bias' : Option (Tensor (Tri K))) (hb : RelBias θ⁻¹ bias bias') (x : Tensor K) (x' : Tensor (Tri K))
    (hx : TR (1 + u) x x') :
    RelM (RelC (1 + γ)⁻¹ S) (A.moduleForward (.inputRegion t bias) x) (Module.forward (.inputRegion t' bias') x') := by
  have g0 := ac.gamma
  have u0 := ac.unit
  have hθ0 : 0 < θ := by rw [hθ]; positivity
  simp only [NetArith.moduleForward, Module.forward]
  have key : ExRel (fun m m' => TR (1 + γ)⁻¹ m m' ∧ m.shape.length = 4 ∧ ∀ k ∈ m.shape.drop 2, k ≤ S) (A.inputRegionMats t bias x) (inputRegionMats t' bias' x') := by
    unfold NetArith.inputRegionMats inputRegionMats
    unfold Tensor.ndim
    rw [ht.1, hx.1]
    refine ExRel.same _ fun _ a1 => ExRel.same _ fun _ a2 => ExRel.same _ fun _ a3 => ?_
    rw [assert_ok_iff] at a1 a3
    have hin : einInner [['s', 'l', 'r', 'i'], ['b', 's', 'i']] ['b', 's', 'l', 'r'] = ['i'] := by decide
    have hle : ∀ c, c = 'i' ∨ c = 'l' ∨ c = 'r' → letterSize (einUses [['s', 'l', 'r', 'i'], ['b', 's', 'i']] [t, x]) c ≤ S := by
      intro c hc
      refine letterSize_le S hS _ c ?_
      match hxs : x.shape, a1 with
      | [X, Y, Z], _ =>
        rw [hxs, hsh] at a3
        simp only [List.getD_cons_succ, List.getD_cons_zero] at a3
        simp only [einUses, hsh, hxs, List.zip_cons_cons, List.zip_nil_right, List.flatMap_cons, List.flatMap_nil, List.append_nil, List.cons_append, List.nil_append,
          List.mem_cons, List.not_mem_nil, or_false]
        rintro v (rfl | rfl | rfl | rfl | rfl | rfl | rfl) hv <;> simp only at hv ⊢
        · subst hv; simp at hc
        · exact hD
        · exact hD
        · exact hF
        · subst hv; simp at hc
        · subst hv; simp at hc
        · omega
    have hrel := rel_ein2 ac hS ['s', 'l', 'r', 'i'] ['b', 's', 'i'] ['b', 's', 'l', 'r'] ht hx (by rw [hin]; simp) (by
      rw [hin]
      intro c hc
      exact hle c (Or.inl (by simpa using hc)))
    refine hrel.bind ?_
    intro m m' hm0 hm hr
    have hms := einsum_shape _ _ _ _ hm
    rw [hr.1, einUses2 _ _ ht.1 hx.1] at hms
    have hsz : m.shape.length = 4 ∧ ∀ k ∈ m.shape.drop 2, k ≤ S := by
      rw [hms]
      refine ⟨rfl, ?_⟩
      intro k hk
      simp only [List.map_cons, List.map_nil, List.drop_succ_cons, List.drop_zero, List.mem_cons, List.not_mem_nil, or_false] at hk
      rcases hk with rfl | rfl
      · exact hle 'l' (by simp)
      · exact hle 'r' (by simp)
    have e1 : θ⁻¹ * (1 + u) * (1 + γ) = ((1 + γ) * (1 + u))⁻¹ := by
      rw [hθ]
      have : (1 + u) ≠ 0 := by positivity
      have : (1 + γ) ≠ 0 := by positivity
      field_simp
    rw [e1] at hr
    have p1 : (0 : ℝ) < ((1 + γ) * (1 + u))⁻¹ := by positivity
    have p2 : ((1 + γ) * (1 + u))⁻¹ ≤ (1 + γ)⁻¹ := by
      refine inv_anti₀ (by positivity) ?_
      nlinarith
    have p3 : θ⁻¹ ≤ ((1 + γ) * (1 + u))⁻¹ := by
      refine inv_anti₀ (by positivity) ?_
      rw [hθ]
      have : 1 ≤ (1 + γ) * (1 + u) := by nlinarith
      nlinarith
    match bias, bias', hb with
    | none, none, _ => exact .ok _ _ ⟨hr.mono p1 p2, hsz⟩
    | some b, some b', hb =>
      simp only [NetArith.addRegionBias, addRegionBias]
      rw [hr.1]
      refine ((hb.unsqueeze 0).expand m.shape).bind ?_
      intro e e' _ _ he
      have := rel_addT ac hr (he.mono (by positivity) p3)
      have e2 : ((1 + γ) * (1 + u))⁻¹ * (1 + u) = (1 + γ)⁻¹ := by
        have : (1 + u) ≠ 0 := by positivity
        have : (1 + γ) ≠ 0 := by positivity
        field_simp
      rw [e2] at this
      exact .ok _ _ ⟨this, hsz⟩
  refine rel_lift_bind key ?_
  rintro m m' _ _ ⟨h1, h2, h3⟩
  exact rel_mkMatRegion m m' h1 h2 h3

omit ac hS in
theorem rel_outputSite (O D : ℕ) (hO : O ≤ S) (hD : D ≤ S) (t : Tensor K) (t' : Tensor (Tri K)) (ht : TR q t t') (hsh : t.shape = [O, D, D]) (x : Tensor K)
    (x' : Tensor (Tri K)) : RelM (RelC q S) (A.moduleForward (.outputSite t) x) (Module.forward (.outputSite t') x') := by
  simp only [NetArith.moduleForward, Module.forward]
  refine rel_mkOutputCore3 t t' ht (by rw [hsh]; rfl) ?_
  rw [hsh]
  intro n hn
  simp at hn
  rcases hn with rfl | rfl <;> assumption

/-- related modules of an MPS -/
inductive RelMod (θ q : ℝ) (D F O : ℕ) : Module K → Module (Tri K) → Prop
  | region (n : ℕ) (t : Tensor K) (t' : Tensor (Tri K)) (bias : Option (Tensor K)) (bias' : Option (Tensor (Tri K))) (ht : TR θ⁻¹ t t') (hsh : t.shape = [n, D, D, F])
      (hb : RelBias θ⁻¹ bias bias') : RelMod θ q D F O (.inputRegion t bias) (.inputRegion t' bias')
  | output (t : Tensor K) (t' : Tensor (Tri K)) (ht : TR q t t') (hsh : t.shape = [O, D, D]) : RelMod θ q D F O (.outputSite t) (.outputSite t')

theorem rel_runModules (θ : ℝ) (hθ : θ = (1 + γ) ^ 2 * (1 + u) ^ 2) (D F O : ℕ) (hD : D ≤ S) (hF : F ≤ S) (hO : O ≤ S) (x : Tensor K) (x' : Tensor (Tri K))
    (hx : TR (1 + u) x x') (ms : List (Module K)) (ms' : List (Module (Tri K))) (h : List.Forall₂ (RelMod θ (1 + γ)⁻¹ D F O) ms ms') (i : ℕ) :
    RelM (RelL (1 + γ)⁻¹ S) (A.runModules x i ms) (runModules x' i ms') := by
  induction h generalizing i with
  | nil => exact rel_pure .nil
  | @cons m m' ms ms' hm _ ih =>
    have hlen : m'.len = m.len := by
      cases hm with
      | region n t t' bias bias' ht => simp only [Module.len, ht.1]
      | output => rfl
    simp only [NetArith.runModules, runModules]
    rw [hlen]
    have h1 : RelM (RelC (1 + γ)⁻¹ S) (A.moduleForward m (pickInput x i m.len)) (m'.forward (pickInput x' i m.len)) := by
      cases hm with
      | region n t t' bias bias' ht hsh hb => exact rel_inputRegion ac hS θ hθ D F n hD hF t t' ht hsh bias bias' hb _ _ (hx.pickInput _ _)
      | output t t' ht hsh => exact rel_outputSite O D hO hD t t' ht hsh _ _
    exact rel_bind h1 fun _ _ h1 => rel_bind (ih _) fun _ _ h2 => rel_pure (.cons h1 h2)

end

/-! ### Boundaries -/

/-- a boundary vector of weight `w` -/
def endVecW {L : Type} [Zero L] (w : L) (D : ℕ) : Tensor L := ⟨[D], fun idx => if idx.getD 0 0 = 0 then w else 0⟩

/-- the boundary object of weight `w` -/
def edgeW {L : Type} [Zero L] (w : L) (B D : ℕ) (left : Bool) : Contractable L :=
  ⟨.edgeVec, ⟨[B, D], fun idx => (endVecW w D).get (idx.drop 1)⟩, ['b', if left then 'r' else 'l']⟩

theorem unit_sandwichW {L : Type} [CommSemiring L] (w : L) (D : ℕ) (hD : 1 ≤ D) (M : Mat L) (hc : M.c = D) :
    (((Mat.of 1 D (fun _ j => if j = 0 then w else 0)).mul M).mul (Mat.of D 1 (fun i _ => if i = 0 then w else 0))).e 0 0 = w * w * M.e 0 0 := by
  unfold Mat.mul Mat.of
  simp only [hc]
  rw [Finset.sum_eq_single 0]
  · rw [Finset.sum_eq_single 0]
    · have h0 : 0 < D := hD
      simp [h0]
      ring
    · intro k _ hk
      simp [hk]
    · intro h; exfalso; apply h; simp; omega
  · intro k _ hk
    simp [hk]
  · intro h; exfalso; apply h; simp; omega

/-- open boundaries with weighted boundary vectors -/
theorem closeOpenW_ok {L : Type} [CommSemiring L] (w : L) (D F O B : ℕ) (hD : 1 ≤ D) (x : Tensor L) (ms : List (Module L)) (cs : List (Contractable L))
    (h : MadeAll D F O B x 0 ms cs) (ho : OneOut ms) (par : Bool) :
    ∃ c l, reduceList (edgeW w B D true :: cs ++ [edgeW w B D false]) par (some B) = (.ok (c, l), some B) ∧ c.tensor.shape = [B, O] ∧ ∀ b < B, ∀ o < O, ∃ M,
      orderedProd (chainMats D F x b o 0 ms) = some M ∧ M.r = D ∧ M.c = D ∧ c.tensor.get [b, o] = w * w * M.e 0 0 := by
  have hne : cs ≠ [] := by
    intro hc
    obtain ⟨as, m, bs, e, _⟩ := ho
    have := h.length
    rw [hc, e] at this
    simp at this
  have hp := h.pieces
  have he : Piece B (edgeW w B D true) := edge_piece B D true _ rfl
  have hr : Piece B (edgeW w B D false) := edge_piece B D false _ rfl
  have hj : Joined (edgeW w B D true :: cs ++ [edgeW w B D false]) := by
    have h0 : ∀ (l : List (Contractable L)), (∀ c ∈ l, axis c 'l' = D ∧ axis c 'r' = D) → Joined (l ++ [edgeW w B D false]) := by
      intro l hl
      induction l with
      | nil => trivial
      | cons a l ih =>
        cases l with
        | nil => exact ⟨by rw [(hl a (by simp)).2]; simp [axis, edgeW], trivial⟩
        | cons b l => exact ⟨by rw [(hl a (by simp)).2, (hl b (by simp)).1], ih (fun c hc => hl c (by simp [hc]))⟩
    obtain _ | ⟨a, l⟩ := cs
    · exact absurd rfl hne
    · exact ⟨by rw [(hp a (by simp)).2.1]; simp [axis, edgeW], h0 (a :: l) (fun c hc => ⟨(hp c hc).2.1, (hp c hc).2.2.1⟩)⟩
  obtain ⟨c, c1, c2, c3, c4⟩ := C48_edges B O _ _ cs par ⟨he, rfl, rfl⟩ ⟨hr, rfl, rfl⟩ (fun c hc => (hp c hc).1) (h.oneOutput ho) hj (some B)
  refine ⟨c, _, c1, c3, ?_⟩
  intro b hb o ho'
  obtain ⟨M', m1, _, _, m4⟩ := c4 b hb o ho'
  have hmats := h.mats b hb o ho'
  have hcne : chainMats D F x b o 0 ms ≠ [] := by
    intro hc
    rw [hc] at hmats
    obtain ⟨as, oc, bs, e1, _, _, e3, _⟩ := h.oneOutput ho
    rw [e1] at hmats
    simp only [List.flatMap_append, List.flatMap_cons, List.append_eq_nil_iff] at hmats
    rw [factors_single oc (by rw [e3]; decide)] at hmats
    simp at hmats
  obtain ⟨M, hM⟩ : ∃ M, prodL (chainMats D F x b o 0 ms) = some M := by
    cases hq : chainMats D F x b o 0 ms with
    | nil => exact absurd hq hcne
    | cons a l => exact ⟨_, rfl⟩
  obtain ⟨s1, s2⟩ := prodL_size D _ (chainMats_size D F x b o 0 ms) M hM
  refine ⟨M, orderedProd_some hM, s1, s2, ?_⟩
  rw [m4]
  have hfe : factors (edgeW w B D true) b o = [Mat.of 1 D (fun _ j => if j = 0 then w else 0)] := by
    rw [factors_single _ (by simp [edgeW]), edge_mat_left _ rfl]
    simp [axis, edgeW, endVecW]
  have hfr : factors (edgeW w B D false) b o = [Mat.of D 1 (fun i _ => if i = 0 then w else 0)] := by
    rw [factors_single _ (by simp [edgeW]), edge_mat_right _ rfl]
    simp [axis, edgeW, endVecW]
  rw [orderedProd_eq, List.flatMap_append, List.flatMap_cons, hmats, hfe] at m1
  simp only [List.flatMap_cons, List.flatMap_nil, List.append_nil] at m1
  rw [hfr, prodL_append _ _ (by simp) (by simp), prodL_append _ _ (by simp) hcne, hM] at m1
  simp only [prodL, matProd, List.foldl_nil, Option.bind_some, Option.map_some, Option.some.injEq] at m1
  rw [← m1]
  exact unit_sandwichW w D hD M s2

section
variable {A : NetArith K} {S : ℕ} {γ u : ℝ} (ac : AccurateNet A S γ u) (hS : 1 ≤ S)
include ac hS

omit ac in
theorem edgeW_rel (g0 : 0 ≤ γ) (B D : ℕ) (hD : D ≤ S) (left : Bool) : RelC (K := K) (1 + γ)⁻¹ S (edgeW 1 B D left) (edgeW (1, 1, 1 + γ) B D left) := by
  refine ⟨rfl, rfl, ⟨rfl, fun idx => ?_⟩, rfl, rfl, by simp [Threads.ClsLen, edgeW], ?_⟩
  · simp only [edgeW, endVecW]
    split
    · have : (1 + γ) ≠ 0 := by positivity
      have h := Rq.exact (K := K) (q := (1 + γ)⁻¹) (f := 1) (w := 1 + γ) (by rw [inv_mul_cancel₀ this]; simp)
      simpa using h
    · exact Rq.zero
  · intro n hn
    simp [edgeW, freeAxes] at hn
    omega

/-- the rounded evaluation with open boundaries -/
theorem close_open_rounded (D F O B : ℕ) (hD1 : 1 ≤ D) (hD : D ≤ S) (x' : Tensor (Tri K)) (ms' : List (Module (Tri K))) (cs : List (Contractable K))
    (cs' : List (Contractable (Tri K))) (hr : RelL (1 + γ)⁻¹ S cs cs') (h : MadeAll D F O B x' 0 ms' cs') (ho : OneOut ms') (par : Bool) :
    ∃ y, A.closeOpen cs par (some B) = (.ok y, some B) ∧ y.shape = [B, O] ∧ ∀ b < B, ∀ o < O, ∃ M,
      orderedProd (chainMats D F x' b o 0 ms') = some M ∧ Rq (1 + γ)⁻¹ (y.get [b, o]) ((1, 1, 1 + γ) * (1, 1, 1 + γ) * M.e 0 0) := by
  have g0 := ac.gamma
  have hq : (1 + γ)⁻¹ * (1 + γ)⁻¹ * (1 + γ) = (1 + γ)⁻¹ := by
    have : (1 + γ) ≠ 0 := by positivity
    field_simp
  obtain ⟨c', l, c1, c2, c3⟩ := closeOpenW_ok ((1, 1, 1 + γ) : Tri K) D F O B hD1 x' ms' cs' h ho par
  have hall : RelL (1 + γ)⁻¹ S (edgeW (1 : K) B D true :: cs ++ [edgeW 1 B D false]) (edgeW ((1, 1, 1 + γ) : Tri K) B D true :: cs' ++ [edgeW (1, 1, 1 + γ) B D false]) :=
    List.rel_append (R := RelC (1 + γ)⁻¹ S) (.cons (edgeW_rel hS g0 B D hD true) hr) (.cons (edgeW_rel hS g0 B D hD false) .nil)
  obtain ⟨r1, r2⟩ := rel_reduceList ac hS hq _ _ par hall (some B)
  rw [c1] at r1 r2
  cases hc : A.reduceList (edgeW (1 : K) B D true :: cs ++ [edgeW 1 B D false]) par (some B) with
  | mk res g1 =>
  rw [hc] at r1 r2
  simp only at r1 r2
  subst r1
  cases r2 with
  | ok c _ hcc =>
    refine ⟨c.tensor, ?_, by rw [← hcc.rel.1]; exact c2, ?_⟩
    · have hne' : cs' ≠ [] := by
        intro hc
        obtain ⟨as, m, bs, e, _⟩ := ho
        have := h.length
        rw [hc, e] at this
        simp at this
      have hp := h.pieces
      have hb : ∀ (c : Contractable K) (c' : Contractable (Tri K)), RelC (1 + γ)⁻¹ S c c' → c' ∈ cs' → bondSize c 'l' = .ok D ∧ bondSize c 'r' = .ok D := by
        intro c c' hc hm
        obtain ⟨_, p1, p2, p3, p4⟩ := hp c' hm
        unfold bondSize
        unfold axis at p1 p2
        rw [hc.str] at p1 p2 p3 p4
        rw [hc.rel.1] at p1 p2
        rw [if_pos p3, if_pos p4, p1, p2]
        exact ⟨rfl, rfl⟩
      have hh : ∃ first ∈ cs.head?, bondSize first 'l' = .ok D := by
        cases hr with
        | nil => exact absurd rfl hne'
        | cons h1 _ => exact ⟨_, rfl, (hb _ _ h1 (by simp)).1⟩
      have hl : ∃ last ∈ cs.getLast?, bondSize last 'r' = .ok D := by
        have hne : cs ≠ [] := by
          rintro rfl
          cases hr
          exact hne' rfl
        refine ⟨cs.getLast hne, List.getLast?_eq_some_getLast hne, ?_⟩
        have hlen := hr.length_eq
        have hrel := hr.get (i := cs.length - 1) (by have := List.length_pos_iff.2 hne; omega) (by have := List.length_pos_iff.2 hne; omega)
        rw [List.getLast_eq_getElem]
        exact (hb _ _ hrel (List.get_mem _ _)).2
      obtain ⟨first, f1, f2⟩ := hh
      obtain ⟨last, l1, l2⟩ := hl
      have f1 : cs.head? = some first := f1
      have l1 : cs.getLast? = some last := l1
      unfold NetArith.closeOpen
      rw [f1, l1]
      simp only
      have hv : endVec D = Except.ok (endVecW (1 : K) D) := by unfold endVec; rw [if_neg (by omega)]; rfl
      rw [f2, l2, CM.bind_ok (CM.lift_apply _ _), CM.bind_ok (CM.lift_apply _ _), hv, CM.bind_ok (CM.lift_apply _ _), CM.bind_ok (CM.lift_apply _ _)]
      rw [CM.bind_ok (mkEdgeVec_expand D true _ rfl B), CM.bind_ok (mkEdgeVec_expand D false _ rfl B)]
      have := hc
      simp only [edgeW] at this
      simp only [if_true, Bool.false_eq_true, if_false] at this ⊢
      rw [CM.bind_ok this]
      rfl
    · intro b hb o ho'
      obtain ⟨M, m1, m2, m3, m4⟩ := c3 b hb o ho'
      refine ⟨M, m1, ?_⟩
      rw [← m4]
      exact hcc.rel.2 _

/-- the rounded evaluation with periodic boundaries -/
theorem close_ring_rounded (D F O B : ℕ) (x' : Tensor (Tri K)) (ms' : List (Module (Tri K))) (cs : List (Contractable K))
    (cs' : List (Contractable (Tri K))) (hr : RelL (1 + γ)⁻¹ S cs cs') (h : MadeAll D F O B x' 0 ms' cs') (ho : OneOut ms') (g : Option ℕ) :
    ∃ y g', A.closeRing cs g = (.ok y, g') ∧ y.shape = [B, O] ∧ ∀ b < B, ∀ o < O, ∃ M,
      orderedProd (chainMats D F x' b o 0 ms') = some M ∧ Rq 1 (y.get [b, o]) (∑ i ∈ Finset.range D, M.e i i) := by
  have g0 := ac.gamma
  have hq : (1 + γ)⁻¹ * (1 + γ)⁻¹ * (1 + γ) = (1 + γ)⁻¹ := by
    have : (1 + γ) ≠ 0 := by positivity
    field_simp
  obtain ⟨y', g', y1, y2, y3⟩ := closeRing_ok D F O B x' ms' cs' h ho g
  have hp := h.pieces
  obtain ⟨c', g1, c1, c2, c3, c4⟩ := C48_ring B O cs' (fun c hc => (hp c hc).1) (h.oneOutput ho)
    (joined_of_const D cs' (fun c hc => ⟨(hp c hc).2.1, (hp c hc).2.2.1⟩)) g
  have hrel : (A.closeRing cs g).2 = (closeRing cs' g).2 ∧ ExRel (TR 1) (A.closeRing cs g).1 (closeRing cs' g).1 := by
    obtain ⟨r1, r2⟩ := rel_reduceList ac hS hq _ _ true hr g
    rw [c1] at r1 r2
    cases hc : A.reduceList cs true g with
    | mk res g2 =>
    rw [hc] at r1 r2
    simp only at r1 r2
    subst r1
    cases r2 with
    | ok c _ hcc =>
      unfold NetArith.closeRing closeRing
      rw [CM.bind_ok hc, CM.bind_ok c1]
      simp only at hcc ⊢
      rw [hcc.str] at c3 ⊢
      rw [hcc.cls] at c2
      have hin : einInner [['b', 'o', 'l', 'l']] ['b', 'o'] = ['l'] := by decide
      have t1 : traceIn c.bondStr = ['b', 'o', 'l', 'l'] := by rw [c3]; decide
      have t2 : traceOut c.bondStr = ['b', 'o'] := by rw [c3]; decide
      have hsz := hcc.sz
      rw [freeAxes, c2, if_neg (by decide)] at hsz
      rw [t1, t2, assert_true _ (by rw [c3]; decide), CM.bind_ok (CM.lift_apply _ _), CM.bind_ok (CM.lift_apply _ _)]
      have hrel := rel_ein1 ac hS ['b', 'o', 'l', 'l'] ['b', 'o'] hcc.rel (by rw [hin]; simp) (by
        rw [hin]
        intro d hd
        simp at hd
        subst hd
        refine letterSize_le S hS _ _ ?_
        have ho := hcc.order
        rw [c3] at ho
        match hsh : c.tensor.shape, ho with
        | [b, o, l, r], _ =>
          rw [hsh] at hsz
          simp only [einUses, hsh, List.zip_cons_cons, List.zip_nil_right, List.flatMap_cons, List.flatMap_nil, List.append_nil, List.mem_cons, List.not_mem_nil, or_false]
          rintro v (rfl | rfl | rfl | rfl) hv
          · simp at hv
          · simp at hv
          · exact hsz _ (by simp)
          · exact hsz _ (by simp))
      have e1 : (1 + γ)⁻¹ * (1 + γ) = 1 := inv_mul_cancel₀ (by positivity)
      rw [e1] at hrel
      exact ⟨rfl, hrel⟩
  obtain ⟨r1, r2⟩ := hrel
  rw [y1] at r1 r2
  cases hc : A.closeRing cs g with
  | mk res g1 =>
  rw [hc] at r1 r2
  simp only at r1 r2
  subst r1
  cases r2 with
  | ok y _ hy =>
    refine ⟨y, _, rfl, by rw [← hy.1]; exact y2, ?_⟩
    intro b hb o ho'
    obtain ⟨M, m1, _, _, m4⟩ := y3 b hb o ho'
    refine ⟨M, m1, ?_⟩
    rw [← m4]
    exact hy.2 _

end
end TorchMPS
