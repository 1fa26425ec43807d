import Verif.Lemmas.NetSim
/-
The rounded program runs in lockstep with the exact program on triples: products and reductions.
-/
namespace TorchMPS
open Spec
variable {K : Type} [RCLike K]

section
variable {A : NetArith K} {S : ℕ} {γ u q : ℝ} (ac : AccurateNet A S γ u) (hS : 1 ≤ S) (hq : q * q * (1 + γ) = q)
include ac hS hq

theorem rel_mulCore (x y : Contractable K) (x' y' : Contractable (Tri K)) (hx : RelC q S x x') (hy : RelC q S y y') (cx : x.cls ≠ .matRegion) (cy : y.cls ≠ .matRegion) :
    RelM (RelO q S) (A.gmulCore x y) (do
      CM.lift (checkBonds x'.bondStr 'r')
      CM.lift (checkBonds y'.bondStr 'l')
      let s ← CM.lift (mulStrings x'.bondStr y'.bondStr)
      let t ← CM.lift (einsum [s.1, s.2.1] s.2.2 [x'.tensor, y'.tensor])
      let c ← wrapOut t s.2.2
      return some c) := by
  unfold NetArith.gmulCore
  rw [hx.str, hy.str]
  refine rel_same _ fun _ c1 => rel_same _ fun _ c2 => rel_same _ fun s hs => ?_
  obtain ⟨n1, m1⟩ := Threads.checkBonds_inv _ _ _ c1
  obtain ⟨n2, m2⟩ := Threads.checkBonds_inv _ _ _ c2
  obtain ⟨s1, e1⟩ := Threads.str_cons hx.first
  obtain ⟨s2, e2⟩ := Threads.str_cons hy.first
  obtain ⟨t1, t2, out⟩ := s
  have hin := mulStrings_inner _ _ _ _ _ hs
  rw [e1] at n1 m1 hs
  rw [e2] at n2 m2 hs
  obtain ⟨u1, u2, o, r1, r2, r3, q1, q2⟩ := Threads.mulStrings_b _ _ _ _ _ n1 n2 m1 m2 hs
  simp only
  have sx : ∀ n ∈ x.tensor.shape.drop 1, n ≤ S := by simpa [freeAxes, cx] using hx.sz
  have sy : ∀ n ∈ y.tensor.shape.drop 1, n ≤ S := by simpa [freeAxes, cy] using hy.sz
  have hle : ∀ c, c ≠ 'b' → letterSize (einUses [t1, t2] [x.tensor, y.tensor]) c ≤ S := by
    intro c hc
    rw [r1, r2]
    exact letterSize_le S hS _ c (uses_le S u1 u2 _ _ sx sy c hc)
  have hrel := rel_ein2 ac hS t1 t2 out hx.rel hy.rel hin (by
    intro c hc
    refine hle c ?_
    have := (List.mem_filter.1 hc).2
    rintro rfl
    rw [r3] at this
    simp at this)
  rw [hq] at hrel
  refine rel_lift_bind hrel ?_
  intro t t' _ ht hr
  obtain ⟨k1, k2⟩ := Threads.einsum_nodup _ _ _ _ ht
  have hsh := einsum_shape _ _ _ _ ht
  rw [hr.1, einUses2 t1 t2 hx.rel.1 hy.rel.1] at hsh
  rw [hr.1] at k2
  refine rel_some (rel_wrapOut t t' hr _ (by rw [r3]; rfl) k2 ?_)
  rw [hsh, r3]
  rw [r3] at k1
  intro n hn
  simp only [List.map_cons, List.drop_succ_cons, List.drop_zero] at hn
  obtain ⟨c, hc, rfl⟩ := List.mem_map.1 hn
  exact hle c (fun h => (List.nodup_cons.1 k1).1 (h ▸ hc))

theorem rel_gmul (x y : Contractable K) (x' y' : Contractable (Tri K)) (r : Bool) (hx : RelC q S x x') (hy : RelC q S y y') (cx : x.cls ≠ .matRegion) :
    RelM (RelO q S) (A.gmul x y r) (gmul x' y' r) := by
  unfold NetArith.gmul gmul
  rw [hy.cls]
  split
  · exact rel_none
  · rename_i h
    have cy : y.cls ≠ .matRegion := fun hh => h (Or.inr hh)
    cases r with
    | false => exact rel_mulCore ac hS hq x y x' y' hx hy cx cy
    | true => exact rel_mulCore ac hS hq y x y' x' hy hx cy cx

omit hS in
theorem rel_regionApply (m : Tensor K) (m' : Tensor (Tri K)) (hm : TR q m m') (h2 : m.shape.getD 2 0 ≤ S) (h3 : m.shape.getD 3 0 ≤ S) (r : Bool) (l : List ℕ) (v : Tensor K)
    (v' : Tensor (Tri K)) (hv : TR q v v') : ExRel (TR q) (A.regionApply m r l v) (regionApply m' r l v') := by
  induction l generalizing v v' with
  | nil => exact .ok _ _ hv
  | cons i l ih =>
    have g1 : (m.select 1 i).shape.getD 1 0 = m.shape.getD 2 0 := by
      simp only [Tensor.select]
      match m.shape with
      | [] => rfl
      | [_] => rfl
      | [_, _] => rfl
      | _ :: _ :: _ :: _ => rfl
    have g2 : (m.select 1 i).shape.getD 2 0 = m.shape.getD 3 0 := by
      simp only [Tensor.select]
      match m.shape with
      | [] => rfl
      | [_] => rfl
      | [_, _] => rfl
      | [_, _, _] => rfl
      | _ :: _ :: _ :: _ :: _ => rfl
    simp only [NetArith.regionApply, regionApply]
    cases r with
    | true =>
      simp only [if_true]
      have := rel_bmm ac hv (hm.select 1 i) (Or.inr (by rw [g1]; exact h2))
      rw [hq] at this
      exact this.bind fun a b _ _ h => ih a b h
    | false =>
      simp only [Bool.false_eq_true, if_false]
      have := rel_bmm ac (hm.select 1 i) hv (Or.inl (by rw [g2]; exact h3))
      rw [hq] at this
      exact this.bind fun a b _ _ h => ih a b h

omit hS ac hq in
/-- the last axis of a vector multiplied by matrices -/
theorem regionApply_size {L : Type} [CommSemiring L] (m : Tensor L) (r : Bool) (l : List ℕ) (v w : Tensor L) (h : regionApply m r l v = .ok w) (hl : l ≠ []) :
    (r = true → v.shape.getD 1 0 = 1 → w.shape.length = 3 ∧ w.shape.getD 1 0 = 1 ∧ w.shape.getD 2 0 = m.shape.getD 3 0) ∧
    (r = false → v.shape.getD 2 0 = 1 → w.shape.length = 3 ∧ w.shape.getD 2 0 = 1 ∧ w.shape.getD 1 0 = m.shape.getD 2 0) := by
  induction l generalizing v with
  | nil => exact absurd rfl hl
  | cons i l ih =>
    have g3 : ∀ a b c, (m.select 1 i).shape = [a, b, c] → m.shape.getD 2 0 = b ∧ m.shape.getD 3 0 = c := by
      intro a b c
      simp only [Tensor.select]
      match m.shape with
      | [] => simp
      | [_] => simp
      | [_, _] => simp
      | [_, _, _] => simp
      | x :: y :: z :: w :: s =>
        intro h
        simp at h
        simp [h.2.1, h.2.2.1]
    simp only [regionApply] at h
    cases r with
    | true =>
      simp only [if_true] at h
      obtain ⟨v1, h1, h2⟩ := bind_inv h
      obtain ⟨B, n, k, p, e1, e2, e3⟩ := Threads.bmm_inv _ _ _ h1
      obtain ⟨_, g⟩ := g3 _ _ _ e2
      refine ⟨fun _ hv => ?_, by simp⟩
      rw [e1] at hv
      simp at hv
      by_cases hl' : l = []
      · subst hl'
        simp only [regionApply] at h2
        cases h2
        rw [e3, g]
        simp [hv]
      · exact (ih v1 h2 hl').1 rfl (by rw [e3]; simpa using hv)
    | false =>
      simp only [Bool.false_eq_true, if_false] at h
      obtain ⟨v1, h1, h2⟩ := bind_inv h
      obtain ⟨B, n, k, p, e1, e2, e3⟩ := Threads.bmm_inv _ _ _ h1
      obtain ⟨g, _⟩ := g3 _ _ _ e1
      refine ⟨by simp, fun _ hv => ?_⟩
      rw [e2] at hv
      simp at hv
      by_cases hl' : l = []
      · subst hl'
        simp only [regionApply] at h2
        cases h2
        rw [e3, g]
        simp [hv]
      · exact (ih v1 h2 hl').2 rfl (by rw [e3]; simpa using hv)

omit ac hS hq [RCLike K] in
theorem region_sizes (c : Contractable K) (hl : Threads.ClsLen c.cls c.tensor.shape.length) (hs : ∀ n ∈ c.tensor.shape.drop (freeAxes c.cls), n ≤ S) (hc : c.cls = .matRegion) :
    c.tensor.shape.length = 4 ∧ c.tensor.shape.getD 2 0 ≤ S ∧ c.tensor.shape.getD 3 0 ≤ S := by
  have h4 := hl.1 (Or.inl hc)
  simp only [freeAxes, hc, if_true] at hs
  match hsh : c.tensor.shape, h4 with
  | [a, b, d, e], _ =>
    rw [hsh] at hs
    exact ⟨rfl, hs d (by simp), hs e (by simp)⟩

theorem rel_regionMul (x y : Contractable K) (x' y' : Contractable (Tri K)) (r : Bool) (hx : RelC q S x x') (hy : RelC q S y y') (cx : x.cls = .matRegion) :
    RelM (RelO q S) (A.regionMul x y r) (regionMul x' y' r) := by
  unfold NetArith.regionMul regionMul
  rw [hy.cls]
  split
  · exact rel_none
  · rename_i hcy
    simp only
    rw [hx.rel.1]
    split
    · exact rel_throw _
    · rename_i hn
      obtain ⟨h4, h2, h3⟩ := region_sizes x hx.region hx.sz cx
      refine rel_lift_bind (rel_regionApply ac hq _ _ hx.rel h2 h3 r _ _ _ (hy.rel.unsqueeze _)) ?_
      intro v v' _ hv hr
      have hne : (if r = true then List.range (x.tensor.shape.getD 1 0) else (List.range (x.tensor.shape.getD 1 0)).reverse) ≠ [] := by
        split <;> simpa using hn
      obtain ⟨f1, f2⟩ := regionApply_size _ _ _ _ _ hv hne
      refine rel_some ?_
      have hsh0 : y'.tensor.shape ≠ [] := by
        obtain ⟨s', hs⟩ := Threads.str_cons hy.first
        rw [hy.rel.1]
        intro h
        have := hy.order
        rw [h, hs] at this
        simp at this
      obtain ⟨B, ry, hry⟩ := List.exists_cons_of_ne_nil hsh0
      rw [hr.1, hx.rel.1] at f1 f2
      cases r with
      | true =>
        obtain ⟨k1, k2, k3⟩ := f1 rfl (by simp [Tensor.unsqueeze, hry])
        refine rel_mkEdgeVec _ _ (hr.squeeze _) _ ?_ ?_
        · simp only [if_true, Tensor.squeeze, k2]
          rw [List.length_eraseIdx, k1]
          rfl
        · match hv' : v.shape, k1 with
          | [a, b, c], _ =>
            rw [hv'] at k2 k3
            simp only [List.getD_cons_succ, List.getD_cons_zero] at k2 k3
            intro n hn
            simp [Tensor.squeeze, hv', k2] at hn
            rw [hn, k3]
            exact h3
      | false =>
        have hd2 : (y'.tensor.unsqueeze 2).shape.getD 2 0 = 1 := by
          obtain ⟨s0, ss, hss⟩ := List.exists_cons_of_ne_nil hne
          simp only [Bool.false_eq_true, if_false] at hss hv
          rw [hss] at hv
          simp only [regionApply, Bool.false_eq_true, if_false] at hv
          obtain ⟨w, hw, _⟩ := bind_inv hv
          obtain ⟨B', n, m, p, e1, e2, e3⟩ := Threads.bmm_inv _ _ _ hw
          simp only [Tensor.unsqueeze, hry] at e2
          match ry, hry, e2 with
          | [], hry, e2 => simp at e2
          | [D], hry, e2 => simp [Tensor.unsqueeze, hry]
          | _ :: _ :: _, hry, e2 => simp [Tensor.unsqueeze, hry]
        obtain ⟨k1, k2, k3⟩ := f2 rfl hd2
        refine rel_mkEdgeVec _ _ (hr.squeeze _) _ ?_ ?_
        · simp only [Bool.false_eq_true, if_false, Tensor.squeeze, k2]
          simp only [if_true]
          rw [List.length_eraseIdx, k1]
          rfl
        · match hv' : v.shape, k1 with
          | [a, b, c], _ =>
            rw [hv'] at k2 k3
            simp only [List.getD_cons_succ, List.getD_cons_zero] at k2 k3
            intro n hn
            simp [Tensor.squeeze, hv', k2] at hn
            rw [hn, k3]
            exact h2

omit hS in
theorem rel_edgeMul (x y : Contractable K) (x' y' : Contractable (Tri K)) (hx : RelC q S x x') (hy : RelC q S y y') (cx : x.cls = .edgeVec) :
    RelM (RelO q S) (A.edgeMul x y) (edgeMul x' y') := by
  unfold NetArith.edgeMul edgeMul
  rw [hy.cls]
  split
  · exact rel_none
  · have hs : ∀ n ∈ y.tensor.shape.drop 1, n ≤ S := by
      have := hy.sz
      rename_i h
      simp only [ne_eq, not_not] at h
      simpa [freeAxes, h] using this
    have hsize : (y.tensor.unsqueeze 2).shape.getD 1 0 ≤ S := by
      simp only [Tensor.unsqueeze]
      match y.tensor.shape, hs with
      | [], _ => simp
      | [_], _ => simp
      | a :: b :: l, hs => simpa using hs b (by simp)
    have hb := rel_bmm ac (hx.rel.unsqueeze 1) (hy.rel.unsqueeze 2) (Or.inr hsize)
    rw [hq] at hb
    refine rel_lift_bind hb fun p p' _ _ hp => ?_
    rw [hx.rel.1]
    exact rel_lift_bind (hp.view _) fun v v' _ _ hv => rel_some (rel_mkScalar v v' hv)

omit ac hS hq in
theorem rel_sameClass (c : Contractable K) (c' : Contractable (Tri K)) (hc : RelC q S c c') (t : Tensor K) (t' : Tensor (Tri K)) (ht : TR q t t')
    (h2 : t.shape.length = c.bondStr.length) (hz : ∀ n ∈ t.shape.drop (freeAxes c.cls), n ≤ S) : RelM (RelC q S) (sameClass c t) (sameClass c' t') := by
  unfold sameClass
  rw [hc.cls, hc.str]
  have ho := hc.order
  have hr := hc.region
  cases hcls : c.cls with
  | contractable => exact rel_mk _ _ _ _ hc.first ht h2 (by simp [Threads.ClsLen]) (by rw [hcls] at hz; exact hz)
  | matRegion => exact rel_mkMatRegion _ _ ht (by rw [h2, ← ho]; exact hr.1 (Or.inl hcls)) (by rw [hcls] at hz; exact hz)
  | outputCore => exact rel_mkOutputCore _ _ ht (by rw [h2, ← ho]; exact hr.1 (Or.inr hcls)) (by rw [hcls] at hz; exact hz)
  | singleMat => exact rel_mkSingleMat _ _ ht (by rw [h2, ← ho, hr.2 hcls]) (fun _ => by rw [hcls] at hz; exact hz)
  | outputMat => exact rel_throw _
  | edgeVec => exact rel_throw _
  | scalar => exact rel_mkScalar _ _ ht

omit ac hS hq in
/-- the sizes of a product with a scalar -/
theorem scalar_sizes (hS : 1 ≤ S) (s : List Char) (a : Tensor K) (b : Tensor K) (hn : ('b' :: s).Nodup) (ha : a.shape.length = ('b' :: s).length) (d : ℕ) (hd : 1 ≤ d)
    (hz : ∀ n ∈ a.shape.drop d, n ≤ S) : ∀ n ∈ (('b' :: s).map (letterSize (einUses ['b' :: s, ['b']] [a, b]))).drop d, n ≤ S := by
  intro n hn'
  rw [← List.map_drop] at hn'
  obtain ⟨c, hc, rfl⟩ := List.mem_map.1 hn'
  have hcs : c ∈ s := by
    obtain ⟨d', rfl⟩ : ∃ d', d = d' + 1 := ⟨d - 1, by omega⟩
    exact List.mem_of_mem_drop hc
  have hcb : c ≠ 'b' := fun h => (List.nodup_cons.1 hn).1 (h ▸ hcs)
  refine letterSize_le S hS _ c ?_
  intro v hv hvc
  simp only [einUses, List.zip_cons_cons, List.zip_nil_right, List.flatMap_cons, List.flatMap_nil, List.append_nil, List.mem_append] at hv
  rcases hv with hv | hv
  · obtain ⟨i, hi, he⟩ := List.mem_iff_getElem.1 hv
    obtain ⟨j, hj, hcj⟩ := List.mem_iff_getElem.1 hc
    simp only [List.getElem_zip] at he
    subst he
    simp only at hvc
    rw [List.getElem_drop] at hcj
    have hi' := hi
    rw [List.length_zip, lt_min_iff] at hi'
    have hj' := hj
    rw [List.length_drop] at hj'
    have hij : i = d + j := by
      refine (List.Nodup.getElem_inj_iff hn (hi := hi'.1) (hj := by omega)).1 ?_
      rw [hvc, hcj]
    refine hz _ ?_
    simp only
    rw [List.length_zip, lt_min_iff] at hi
    refine List.mem_iff_getElem.2 ⟨j, ?_, ?_⟩
    · rw [List.length_drop]
      omega
    · rw [List.getElem_drop]
      simp only [hij]
  · have := (List.of_mem_zip hv).1
    simp at this
    exact absurd (hvc.symm.trans this) hcb

theorem rel_scalarMul (x y : Contractable K) (x' y' : Contractable (Tri K)) (hx : RelC q S x x') (hy : RelC q S y y') :
    RelM (RelO q S) (A.scalarMul x y) (scalarMul x' y') := by
  unfold NetArith.scalarMul scalarMul
  rw [hy.str]
  obtain ⟨s, hs⟩ := Threads.str_cons hy.first
  have hin : einInner [y.bondStr, ['b']] y.bondStr = [] := by
    unfold einInner
    refine List.filter_eq_nil_iff.2 ?_
    intro c hc
    have hc := List.mem_dedup.1 hc
    rw [hs] at hc ⊢
    simp only [List.flatten_cons, List.flatten_nil, List.append_nil, List.mem_append, List.mem_cons, List.not_mem_nil, or_false, decide_not, Bool.not_eq_true',
      decide_eq_false_iff_not, not_not, decide_eq_true_eq] at hc ⊢
    tauto
  have hrel := rel_ein2 ac hS y.bondStr ['b'] y.bondStr hy.rel hx.rel (by rw [hin]; simp) (by rw [hin]; simp)
  rw [hq] at hrel
  refine rel_lift_bind hrel ?_
  intro t t' _ ht hr
  obtain ⟨k1, k2⟩ := Threads.einsum_nodup _ _ _ _ ht
  have hsh := einsum_shape _ _ _ _ ht
  rw [hr.1, einUses2 _ _ hy.rel.1 hx.rel.1] at hsh
  rw [hr.1] at k2
  refine rel_some (rel_sameClass y y' hy t t' hr k2 ?_)
  rw [hsh]
  have ho := hy.order
  rw [hs] at k1 ho ⊢
  exact scalar_sizes hS s _ _ k1 ho _ (by unfold freeAxes; split <;> simp) hy.sz

theorem rel_mulMethod (x y : Contractable K) (x' y' : Contractable (Tri K)) (hx : RelC q S x x') (hy : RelC q S y y') :
    RelM (RelO q S) (A.mulMethod x y) (mulMethod x' y') := by
  unfold NetArith.mulMethod mulMethod
  rw [hx.cls, hy.cls]
  cases hc : x.cls <;> simp only
  case matRegion => exact rel_regionMul ac hS hq _ _ _ _ _ hx hy hc
  case outputMat =>
    split
    · exact rel_throw _
    · exact rel_gmul ac hS hq _ _ _ _ _ hx hy (by rw [hc]; decide)
  case edgeVec => exact rel_edgeMul ac hq _ _ _ _ hx hy hc
  case scalar => exact rel_scalarMul ac hS hq _ _ _ _ hx hy
  all_goals exact rel_gmul ac hS hq _ _ _ _ _ hx hy (by rw [hc]; decide)

theorem rel_rmulMethod (x y : Contractable K) (x' y' : Contractable (Tri K)) (hx : RelC q S x x') (hy : RelC q S y y') :
    RelM (RelO q S) (A.rmulMethod x y) (rmulMethod x' y') := by
  unfold NetArith.rmulMethod rmulMethod
  rw [hx.cls, hy.cls]
  cases hc : x.cls <;> simp only
  case matRegion => exact rel_regionMul ac hS hq _ _ _ _ _ hx hy hc
  case outputMat =>
    split
    · exact rel_throw _
    · exact rel_gmul ac hS hq _ _ _ _ _ hx hy (by rw [hc]; decide)
  case edgeVec => exact rel_throw _
  case scalar => exact rel_scalarMul ac hS hq _ _ _ _ hx hy
  all_goals exact rel_gmul ac hS hq _ _ _ _ _ hx hy (by rw [hc]; decide)

omit ac hS hq in
theorem rel_orElse {p : CM (Option (Contractable K))} {p' : CM (Option (Contractable (Tri K)))} {r : CM (Contractable K)} {r' : CM (Contractable (Tri K))}
    (hp : RelM (RelO q S) p p') (hr : RelM (RelC q S) r r') : RelM (RelC q S) (orElse p r) (orElse p' r') := by
  unfold orElse
  refine rel_bind hp ?_
  intro o o' ho
  match o, o', ho with
  | none, none, _ => exact hr
  | some c, some c', ho => exact rel_pure ho

theorem rel_mulOp (x y : Contractable K) (x' y' : Contractable (Tri K)) (hx : RelC q S x x') (hy : RelC q S y y') :
    RelM (RelC q S) (A.mulOp x y) (star x' y') := by
  unfold NetArith.mulOp star
  rw [hx.cls, hy.cls]
  have h1 := rel_mulMethod ac hS hq x y x' y' hx hy
  have h2 := rel_rmulMethod ac hS hq y x y' x' hy hx
  have h3 : RelM (RelC (K := K) q S) (CM.throw .type) (CM.throw .type) := rel_throw _
  split
  · exact rel_orElse h1 h3
  · split
    · exact rel_orElse h2 (rel_orElse h1 h3)
    · exact rel_orElse h1 (rel_orElse h2 h3)

/-- bond axes of a region -/
def RegSz (S : ℕ) (t : Tensor K) : Prop := t.shape.length = 4 ∧ ∀ n ∈ t.shape.drop 2, n ≤ S

theorem rel_regionRound (m : Tensor K) (m' : Tensor (Tri K)) (hm : TR q m m') (hz : RegSz S m) (n : ℕ) :
    ExRel (fun t t' => TR q t t' ∧ RegSz S t) (A.regionRound m n) (regionRound m' n) := by
  unfold NetArith.regionRound regionRound
  simp only
  rw [hm.1]
  obtain ⟨h4, hz⟩ := hz
  match hsh : m.shape, h4 with
  | [B, N, D, D'], _ =>
    rw [hsh] at hz
    have zD : D ≤ S := hz D (by simp)
    have zD' : D' ≤ S := hz D' (by simp)
    have hle : ∀ c, c ≠ 'b' → c ≠ 's' → letterSize (einUses [['b', 's', 'l', 'u'], ['b', 's', 'u', 'r']] [m.sliceAx 1 0 2 (n / 2), m.sliceAx 1 1 2 (n / 2)]) c ≤ S := by
      intro c hb hs
      refine letterSize_le S hS _ c ?_
      simp only [einUses, Tensor.sliceAx, hsh, List.set_cons_succ, List.set_cons_zero, List.zip_cons_cons, List.zip_nil_right, List.flatMap_cons, List.flatMap_nil,
        List.append_nil, List.cons_append, List.nil_append, List.mem_cons, List.not_mem_nil, or_false]
      rintro v (rfl | rfl | rfl | rfl | rfl | rfl | rfl | rfl) hv
      · exact absurd hv.symm hb
      · exact absurd hv.symm hs
      · exact zD
      · exact zD'
      · exact absurd hv.symm hb
      · exact absurd hv.symm hs
      · exact zD
      · exact zD'
    have hin : einInner [['b', 's', 'l', 'u'], ['b', 's', 'u', 'r']] ['b', 's', 'l', 'r'] = ['u'] := by decide
    have hrel := rel_ein2 ac hS ['b', 's', 'l', 'u'] ['b', 's', 'u', 'r'] ['b', 's', 'l', 'r'] (hm.sliceAx 1 0 2 (n / 2)) (hm.sliceAx 1 1 2 (n / 2)) (by rw [hin]; simp)
      (by rw [hin]; intro c hc; simp at hc; subst hc; exact hle 'u' (by decide) (by decide))
    rw [hq] at hrel
    refine hrel.bind ?_
    intro t t' _ ht hr
    have hts := einsum_shape _ _ _ _ ht
    rw [hr.1, einUses2 _ _ (hm.sliceAx 1 0 2 (n / 2)).1 (hm.sliceAx 1 1 2 (n / 2)).1] at hts
    have := hr.cat (hm.sliceAx 1 (2 * (n / 2)) 1 ([B, N, D, D'].getD 1 0 - 2 * (n / 2))) 1
    cases hc : t.cat (m.sliceAx 1 (2 * (n / 2)) 1 ([B, N, D, D'].getD 1 0 - 2 * (n / 2))) 1 with
    | error e =>
      rw [hc] at this
      cases hc' : t'.cat (m'.sliceAx 1 (2 * (n / 2)) 1 ([B, N, D, D'].getD 1 0 - 2 * (n / 2))) 1 with
      | error e' =>
        rw [hc'] at this
        cases this
        exact .error _
      | ok w' => rw [hc'] at this; cases this
    | ok w =>
      rw [hc] at this
      cases hc' : t'.cat (m'.sliceAx 1 (2 * (n / 2)) 1 ([B, N, D, D'].getD 1 0 - 2 * (n / 2))) 1 with
      | error e => rw [hc'] at this; cases this
      | ok w' =>
        rw [hc'] at this
        cases this with
        | ok _ _ hw =>
          refine .ok _ _ ⟨hw, ?_⟩
          unfold Tensor.cat at hc
          split at hc
          · cases hc
            constructor
            · simp [hts]
            · intro k hk
              simp only [hts, List.map_cons, List.map_nil, List.set_cons_succ, List.set_cons_zero, List.drop_succ_cons, List.drop_zero, List.mem_cons, List.not_mem_nil,
                or_false] at hk
              rcases hk with rfl | rfl
              · exact hle 'l' (by decide) (by decide)
              · exact hle 'r' (by decide) (by decide)
          · cases hc

theorem rel_regionLoop (fuel : ℕ) (m : Tensor K) (m' : Tensor (Tri K)) (hm : TR q m m') (hz : RegSz S m) (n : ℕ) :
    ExRel (fun t t' => TR q t t' ∧ RegSz S t) (A.regionLoop fuel m n) (regionLoop fuel m' n) := by
  induction fuel generalizing m m' n with
  | zero => exact .ok _ _ ⟨hm, hz⟩
  | succ fuel ih =>
    simp only [NetArith.regionLoop, regionLoop]
    split
    · exact (rel_regionRound ac hS hq m m' hm hz n).bind fun a b _ _ h => ih a b h.1 h.2 _
    · exact .ok _ _ ⟨hm, hz⟩

theorem rel_reduceItem (c : Contractable K) (c' : Contractable (Tri K)) (hc : RelC q S c c') : RelM (RelC q S) (A.reduceItem c) (reduceItem c') := by
  unfold NetArith.reduceItem reduceItem
  rw [hc.cls]
  split
  · rename_i hcls
    unfold NetArith.regionReduce regionReduce
    simp only
    rw [hc.rel.1]
    have hz : RegSz S c.tensor := ⟨hc.region.1 (Or.inl hcls), by simpa [freeAxes, hcls] using hc.sz⟩
    refine rel_lift_bind (rel_regionLoop ac hS hq _ _ _ hc.rel hz _) ?_
    rintro v v' _ _ ⟨hr, h4, hz⟩
    match hsh : v.shape, h4 with
    | [B, N, D, D'], _ =>
      rw [hsh] at hz
      by_cases hN : N = 1
      · refine rel_mkSingleMat _ _ (hr.squeeze 1) ?_ ?_
        · simp [Tensor.squeeze, hsh, hN]
        · intro _ k hk
          simp [Tensor.squeeze, hsh, hN] at hk
          exact hz k (by simpa using hk)
      · refine rel_mkSingleMat _ _ (hr.squeeze 1) ?_ ?_
        · simp [Tensor.squeeze, hsh, hN]
        · intro h
          simp [Tensor.squeeze, hsh, hN] at h
  · exact rel_pure hc

/-- lists of related objects -/
abbrev RelL (q : ℝ) (S : ℕ) (cs : List (Contractable K)) (cs' : List (Contractable (Tri K))) : Prop := List.Forall₂ (RelC q S) cs cs'

theorem rel_reduceItems (cs : List (Contractable K)) (cs' : List (Contractable (Tri K))) (h : RelL q S cs cs') : RelM (RelL q S) (A.reduceItems cs) (reduceItems cs') := by
  induction h with
  | nil => exact rel_pure .nil
  | cons hc _ ih =>
    simp only [NetArith.reduceItems, reduceItems]
    exact rel_bind (rel_reduceItem ac hS hq _ _ hc) fun _ _ h1 => rel_bind ih fun _ _ h2 => rel_pure (.cons h1 h2)

theorem rel_mulLast (cs : List (Contractable K)) (cs' : List (Contractable (Tri K))) (h : RelL q S cs cs') : RelM (RelL q S) (A.mulLast cs) (mulLast cs') := by
  match cs, cs', h with
  | [], [], _ => exact rel_throw _
  | [_], [_], _ => exact rel_throw _
  | [x, y], [x', y'], .cons hx (.cons hy .nil) =>
    simp only [NetArith.mulLast, mulLast]
    exact rel_bind (rel_mulOp ac hS hq x y x' y' hx hy) fun _ _ h => rel_pure (.cons h .nil)
  | x :: y :: z :: cs, x' :: y' :: z' :: cs', .cons hx (.cons hy (.cons hz hcs)) =>
    simp only [NetArith.mulLast, mulLast]
    exact rel_bind (rel_mulLast (y :: z :: cs) (y' :: z' :: cs') (.cons hy (.cons hz hcs))) fun _ _ h => rel_pure (.cons hx h)

theorem rel_mulFirst (cs : List (Contractable K)) (cs' : List (Contractable (Tri K))) (h : RelL q S cs cs') : RelM (RelL q S) (A.mulFirst cs) (mulFirst cs') := by
  match cs, cs', h with
  | [], [], _ => exact rel_throw _
  | [_], [_], _ => exact rel_throw _
  | x :: y :: cs, x' :: y' :: cs', .cons hx (.cons hy hcs) =>
    simp only [NetArith.mulFirst, mulFirst]
    exact rel_bind (rel_mulOp ac hS hq x y x' y' hx hy) fun _ _ h => rel_pure (.cons h hcs)

theorem rel_reduceLoop (fuel : ℕ) (cs : List (Contractable K)) (cs' : List (Contractable (Tri K))) (h : RelL q S cs cs') :
    RelM (RelL q S) (A.reduceLoop fuel cs) (reduceLoop fuel cs') := by
  induction fuel generalizing cs cs' with
  | zero => exact rel_pure h
  | succ fuel ih =>
    simp only [NetArith.reduceLoop, reduceLoop]
    rw [h.length_eq]
    split
    · exact rel_bind (rel_exceptType (rel_mulLast ac hS hq cs cs' h) (rel_mulFirst ac hS hq cs cs' h)) fun _ _ h => ih _ _ h
    · exact rel_pure h

theorem rel_reduceList (cs : List (Contractable K)) (cs' : List (Contractable (Tri K))) (par : Bool) (h : RelL q S cs cs') :
    RelM (fun c p => RelC q S c p.1) (A.reduceList cs par) (reduceList cs' par) := by
  unfold NetArith.reduceList reduceList
  have hp : RelM (RelL q S) (A.prepItems cs par) (prepItems cs' par) := by
    unfold NetArith.prepItems prepItems
    split
    · exact rel_reduceItems ac hS hq cs cs' h
    · exact rel_pure h
  refine rel_bind hp fun items items' hi => ?_
  rw [hi.length_eq]
  refine rel_bind (rel_reduceLoop ac hS hq _ items items' hi) fun res res' hr => ?_
  cases hr with
  | nil => exact rel_throw _
  | cons hc _ => exact rel_pure hc

end
end TorchMPS
