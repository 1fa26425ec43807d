import Verif.Lemmas.ThreadsSim
/-
Products and reductions, sample by sample (see ThreadsSim).
-/
namespace TorchMPS
open Spec Prog
variable {K : Type} {α β γ δ : Type}
namespace Threads

theorem sim_some {b : ℕ} {p q : Prog (Contractable K)} (h : Sim p q (RowC b)) :
    Sim (p >>= fun c => pure (some c)) (q >>= fun c => pure (some c)) (RowO b) :=
  sim_bind h fun _ _ hc => sim_pure hc

theorem sim_none {b : ℕ} : Sim (pure none : Prog (Option (Contractable K))) (pure none) (RowO b) := sim_pure trivial

theorem sim_mulCore [CommSemiring K] (b : ℕ) (x x' y y' : Contractable K) (hx : RowC b x x') (hy : RowC b y y') :
    Sim (do
      .lift (checkBonds x.bondStr 'r')
      .lift (checkBonds y.bondStr 'l')
      let s ← .lift (mulStrings x.bondStr y.bondStr)
      let t ← .lift (einsum [s.1, s.2.1] s.2.2 [x.tensor, y.tensor])
      let c ← wrapOut t s.2.2
      return some c) (do
      .lift (checkBonds x'.bondStr 'r')
      .lift (checkBonds y'.bondStr 'l')
      let s ← .lift (mulStrings x'.bondStr y'.bondStr)
      let t ← .lift (einsum [s.1, s.2.1] s.2.2 [x'.tensor, y'.tensor])
      let c ← wrapOut t s.2.2
      return some c) (RowO b) := by
  rw [hx.str, hy.str]
  refine sim_same _ fun _ c1 => sim_same _ fun _ c2 => sim_same _ fun s hs => ?_
  obtain ⟨A, bx⟩ := hx.wf
  obtain ⟨B, bY⟩ := hy.wf
  obtain ⟨n1, m1⟩ := checkBonds_inv _ _ _ c1
  obtain ⟨n2, m2⟩ := checkBonds_inv _ _ _ c2
  obtain ⟨s1, e1⟩ := str_cons bx.first
  obtain ⟨s2, e2⟩ := str_cons bY.first
  obtain ⟨t1, t2, out⟩ := s
  rw [e1] at n1 m1 hs
  rw [e2] at n2 m2 hs
  obtain ⟨u1, u2, o, r1, r2, r3, q1, q2⟩ := mulStrings_b _ _ _ _ _ n1 n2 m1 m2 hs
  simp only
  rw [r1, r2, r3]
  refine sim_lift_bind (Q := Row b) (noType_einsum _ _ _) (fun t ht => einsum_row2 b _ _ _ _ _ _ _ _ (opRow b _ _ _ q1 hx.row) (opRow b _ _ _ q2 hy.row) ht) ?_
  intro t t' ht hr
  exact sim_some (sim_wrapOut b t t' _ rfl hr (einsum_nodup _ _ _ _ ht).2)

theorem sim_gmul [CommSemiring K] (b : ℕ) (x x' y y' : Contractable K) (r : Bool) (hx : RowC b x x') (hy : RowC b y y') :
    Sim (gmul x y r) (gmul x' y' r) (RowO b) := by
  unfold gmul
  rw [hy.cls]
  split
  · exact sim_none
  · cases r with
    | false => exact sim_mulCore b x x' y y' hx hy
    | true => exact sim_mulCore b y y' x x' hy hx

theorem sim_regionMul [CommSemiring K] (b : ℕ) (x x' y y' : Contractable K) (r : Bool) (hx : RowC b x x') (hy : RowC b y y') :
    Sim (regionMul x y r) (regionMul x' y' r) (RowO b) := by
  unfold regionMul
  rw [hy.cls]
  split
  · exact sim_none
  · simp only
    rw [hx.row.axis 0]
    split
    · exact sim_throw _
    · rename_i hn
      have hd : ∃ d, (if r = true then 1 else 2) = d + 1 := by cases r <;> simp
      obtain ⟨A, bx⟩ := hx.wf
      obtain ⟨B, bY⟩ := hy.wf
      refine sim_lift_bind (Q := Row b) (noType_regionApply _ _ _ _) ?_ ?_
      · intro v hv
        obtain ⟨d, hd⟩ := hd
        rw [hd] at hv ⊢
        exact Row.regionApply hx.row r _ (hy.row.unsqueeze d) hv
      · intro v v' hv hr
        obtain ⟨d, hd⟩ := hd
        rw [hd] at hv ⊢
        refine sim_some (sim_mkEdgeVec b _ _ r (hr.squeeze d) ?_)
        rw [← hd] at hv ⊢
        obtain ⟨ry, hry⟩ := head_cons bY.size
        cases r with
        | true =>
          simp only [if_true] at hv ⊢
          have hd1 : (y.tensor.unsqueeze 1).shape.getD 1 0 = 1 := by simp [Tensor.unsqueeze, hry]
          obtain ⟨_, k2⟩ := regionApply_shape x.tensor A bx.size true _ _ v hv (Or.inl (by simpa using hn)) hd1
          simp only [if_true] at k2
          obtain ⟨D, hD⟩ := k2
          simp [Tensor.squeeze, hD]
        | false =>
          simp only [Bool.false_eq_true, if_false] at hv ⊢
          have hd3 : ∃ D, ry = [D] := by
            have hne : (List.range (x.tensor.shape.getD 1 0)).reverse ≠ [] := by simpa using hn
            obtain ⟨s0, ss, hss⟩ := List.exists_cons_of_ne_nil hne
            have hn' : x.tensor.shape.getD (0 + 1) 0 = x.tensor.shape.getD 1 0 := rfl
            rw [hn', hss] at hv
            simp only [regionApply, Bool.false_eq_true, if_false] at hv
            obtain ⟨w, hw, _⟩ := bind_inv hv
            obtain ⟨B', n, m, p, e1, e2, e3⟩ := bmm_inv _ _ _ hw
            simp only [Tensor.unsqueeze, hry] at e2
            match ry, e2 with
            | [], e2 => simp at e2
            | [D], e2 => exact ⟨D, rfl⟩
            | _ :: _ :: _, e2 => simp at e2
          obtain ⟨D0, hD0⟩ := hd3
          have hd2 : (y.tensor.unsqueeze 2).shape.getD 2 0 = 1 := by simp [Tensor.unsqueeze, hry, hD0]
          obtain ⟨_, k2⟩ := regionApply_shape x.tensor A bx.size false _ _ v hv (Or.inl (by simpa using hn)) hd2
          simp only [Bool.false_eq_true, if_false] at k2
          obtain ⟨D, hD⟩ := k2
          simp [Tensor.squeeze, hD]

theorem sim_edgeMul [CommSemiring K] (b : ℕ) (x x' y y' : Contractable K) (hx : RowC b x x') (hy : RowC b y y') :
    Sim (edgeMul x y) (edgeMul x' y') (RowO b) := by
  unfold edgeMul
  rw [hy.cls]
  split
  · exact sim_none
  · obtain ⟨A, bx⟩ := hx.wf
    obtain ⟨B, bY⟩ := hy.wf
    obtain ⟨rx, hrx⟩ := head_cons bx.size
    obtain ⟨ry, hry⟩ := head_cons bY.size
    refine sim_lift_bind (Q := Row b) (noType_bmm _ _) (fun p hp => Row.bmm (hx.row.unsqueeze 0) (hy.row.unsqueeze 1) hp) ?_
    intro p p' hp hr
    obtain ⟨B', n, m, k, e1, e2, e3⟩ := bmm_inv _ _ _ hp
    have h1 : A = B' ∧ n = 1 := by
      simp [Tensor.unsqueeze, hrx] at e1
      exact ⟨e1.1, e1.2.1.symm⟩
    have h2 : k = 1 := by
      simp only [Tensor.unsqueeze, hry] at e2
      match ry, e2 with
      | [], e2 => simp at e2
      | [D], e2 => simp at e2; exact e2.2.2.symm
      | _ :: _ :: _, e2 => simp at e2
    obtain ⟨rfl, rfl⟩ := h1
    subst h2
    have ea : x.tensor.shape.getD 0 0 = A := by simp [hrx]
    have ea' : x'.tensor.shape.getD 0 0 = 1 := by
      obtain ⟨r', hr'⟩ := head_cons hx.row.head
      simp [hr']
    rw [ea, ea']
    refine sim_lift_bind (Q := Row b) (noType_view _ _) (fun v hv => Row.view1 hr A e3 hv) ?_
    intro v v' hv hr'
    exact sim_some (sim_mkScalar b v v' hr')

theorem sim_sameClass (b : ℕ) (c c' : Contractable K) (hc : RowC b c c') (t t' : Tensor K) (ht : Row b t t') (h2 : t.shape.length = c.bondStr.length) :
    Sim (sameClass c t) (sameClass c' t') (RowC b) := by
  obtain ⟨A, bc⟩ := hc.wf
  unfold sameClass
  rw [hc.cls, hc.str]
  cases hcls : c.cls with
  | contractable => exact sim_mk b _ _ _ _ bc.first ht h2 (by simp [ClsLen])
  | matRegion => exact sim_mkMatRegion b _ _ ht (by rw [h2, ← bc.order]; exact bc.region.1 (Or.inl hcls))
  | outputCore => exact sim_mkOutputCore b _ _ ht (by rw [h2, ← bc.order]; exact bc.region.1 (Or.inr hcls))
  | singleMat => exact sim_mkSingleMat b _ _ ht (by rw [h2, ← bc.order, bc.region.2 hcls])
  | outputMat => exact sim_throw _
  | edgeVec => exact sim_throw _
  | scalar => exact sim_mkScalar b _ _ ht

theorem sim_scalarMul [CommSemiring K] (b : ℕ) (x x' y y' : Contractable K) (hx : RowC b x x') (hy : RowC b y y') :
    Sim (scalarMul x y) (scalarMul x' y') (RowO b) := by
  unfold scalarMul
  rw [hy.str]
  obtain ⟨B, bY⟩ := hy.wf
  obtain ⟨s, hs⟩ := str_cons bY.first
  refine sim_lift_bind (Q := Row b) (noType_einsum _ _ _) ?_ ?_
  · intro t ht
    have hn := (einsum_nodup _ _ _ _ ht).1
    rw [hs] at ht hn ⊢
    exact einsum_row2 b _ _ _ _ _ _ _ _ (opRow b _ _ _ (List.nodup_cons.1 hn).1 hy.row) (opRow b [] _ _ (by simp) hx.row) ht
  · intro t t' ht hr
    exact sim_some (sim_sameClass b y y' hy t t' hr (einsum_nodup _ _ _ _ ht).2)

theorem sim_mulMethod [CommSemiring K] (b : ℕ) (x x' y y' : Contractable K) (hx : RowC b x x') (hy : RowC b y y') :
    Sim (mulMethod x y) (mulMethod x' y') (RowO b) := by
  unfold mulMethod
  rw [hx.cls, hy.cls]
  cases x.cls <;> simp only
  case matRegion => exact sim_regionMul b _ _ _ _ _ hx hy
  case outputMat =>
    split
    · exact sim_throw _
    · exact sim_gmul b _ _ _ _ _ hx hy
  case edgeVec => exact sim_edgeMul b _ _ _ _ hx hy
  case scalar => exact sim_scalarMul b _ _ _ _ hx hy
  all_goals exact sim_gmul b _ _ _ _ _ hx hy

theorem sim_rmulMethod [CommSemiring K] (b : ℕ) (x x' y y' : Contractable K) (hx : RowC b x x') (hy : RowC b y y') :
    Sim (rmulMethod x y) (rmulMethod x' y') (RowO b) := by
  unfold rmulMethod
  rw [hx.cls, hy.cls]
  cases x.cls <;> simp only
  case matRegion => exact sim_regionMul b _ _ _ _ _ hx hy
  case outputMat =>
    split
    · exact sim_throw _
    · exact sim_gmul b _ _ _ _ _ hx hy
  case edgeVec => exact sim_throw _
  case scalar => exact sim_scalarMul b _ _ _ _ hx hy
  all_goals exact sim_gmul b _ _ _ _ _ hx hy

theorem sim_orElse (b : ℕ) {p p' : Prog (Option (Contractable K))} {q q' : Prog (Contractable K)} (hp : Sim p p' (RowO b)) (hq : Sim q q' (RowC b)) :
    Sim (orElse p q) (orElse p' q') (RowC b) := by
  unfold orElse
  refine sim_bind hp ?_
  intro o o' ho
  match o, o', ho with
  | none, none, _ => exact hq
  | some c, some c', ho => exact sim_pure ho

theorem sim_star [CommSemiring K] (b : ℕ) (x x' y y' : Contractable K) (hx : RowC b x x') (hy : RowC b y y') :
    Sim (star x y) (star x' y') (RowC b) := by
  unfold star
  rw [hx.cls, hy.cls]
  have h1 := sim_mulMethod b x x' y y' hx hy
  have h2 := sim_rmulMethod b y y' x x' hy hx
  have h3 : Sim (.throw .type) (.throw .type) (RowC (K := K) b) := sim_throw _
  split
  · exact sim_orElse b h1 h3
  · split
    · exact sim_orElse b h2 (sim_orElse b h1 h3)
    · exact sim_orElse b h1 (sim_orElse b h2 h3)

theorem sim_reduceItem [CommSemiring K] (b : ℕ) (c c' : Contractable K) (hc : RowC b c c') : Sim (reduceItem c) (reduceItem c') (RowC b) := by
  unfold reduceItem
  rw [hc.cls]
  split
  · rename_i hcls
    unfold regionReduce
    simp only
    rw [hc.row.axis 0]
    obtain ⟨A, bc⟩ := hc.wf
    refine sim_lift_bind (Q := Row b) (noType_regionLoop _ _ _) (fun v hv => Row.regionLoop _ hc.row _ hv) ?_
    intro v v' hv hr
    obtain ⟨h1, h2⟩ := regionLoop_batch _ _ v _ A bc.size (bc.region.1 (Or.inl hcls)) hv
    refine sim_mkSingleMat b _ _ (hr.squeeze 0) ?_
    unfold Tensor.squeeze
    split
    · simp only [List.length_eraseIdx]
      rw [h2]
      simp
    · omega
  · exact sim_pure hc

/-- lists of agreeing objects -/
abbrev RowL (b : ℕ) (cs cs' : List (Contractable K)) : Prop := List.Forall₂ (RowC b) cs cs'

theorem sim_reduceItems [CommSemiring K] (b : ℕ) (cs cs' : List (Contractable K)) (h : RowL b cs cs') : Sim (reduceItems cs) (reduceItems cs') (RowL b) := by
  induction h with
  | nil => exact sim_pure .nil
  | cons hc _ ih =>
    simp only [reduceItems]
    exact sim_bind (sim_reduceItem b _ _ hc) fun _ _ h1 => sim_bind ih fun _ _ h2 => sim_pure (.cons h1 h2)

theorem sim_mulLast [CommSemiring K] (b : ℕ) (cs cs' : List (Contractable K)) (h : RowL b cs cs') : Sim (mulLast cs) (mulLast cs') (RowL b) := by
  match cs, cs', h with
  | [], [], _ => exact sim_throw _
  | [_], [_], _ => exact sim_throw _
  | [x, y], [x', y'], .cons hx (.cons hy .nil) =>
    simp only [mulLast]
    exact sim_bind (sim_star b x x' y y' hx hy) fun _ _ h => sim_pure (.cons h .nil)
  | x :: y :: z :: cs, x' :: y' :: z' :: cs', .cons hx (.cons hy (.cons hz hcs)) =>
    simp only [mulLast]
    exact sim_bind (sim_mulLast b (y :: z :: cs) (y' :: z' :: cs') (.cons hy (.cons hz hcs))) fun _ _ h => sim_pure (.cons hx h)

theorem sim_mulFirst [CommSemiring K] (b : ℕ) (cs cs' : List (Contractable K)) (h : RowL b cs cs') : Sim (mulFirst cs) (mulFirst cs') (RowL b) := by
  match cs, cs', h with
  | [], [], _ => exact sim_throw _
  | [_], [_], _ => exact sim_throw _
  | x :: y :: cs, x' :: y' :: cs', .cons hx (.cons hy hcs) =>
    simp only [mulFirst]
    exact sim_bind (sim_star b x x' y y' hx hy) fun _ _ h => sim_pure (.cons h hcs)

theorem sim_reduceLoop [CommSemiring K] (b : ℕ) (fuel : ℕ) (cs cs' : List (Contractable K)) (h : RowL b cs cs') :
    Sim (reduceLoop fuel cs) (reduceLoop fuel cs') (RowL b) := by
  induction fuel generalizing cs cs' with
  | zero => exact sim_pure h
  | succ fuel ih =>
    simp only [reduceLoop]
    rw [h.length_eq]
    split
    · exact sim_bind (sim_exceptType (sim_mulLast b cs cs' h) (sim_mulFirst b cs cs' h)) fun _ _ h => ih _ _ h
    · exact sim_pure h

theorem sim_reduceList [CommSemiring K] (b : ℕ) (cs cs' : List (Contractable K)) (par : Bool) (h : RowL b cs cs') :
    Sim (reduceList cs par) (reduceList cs' par) (RowC b) := by
  unfold reduceList
  have hp : Sim (prepItems cs par) (prepItems cs' par) (RowL b) := by
    unfold prepItems
    split
    · exact sim_reduceItems b cs cs' h
    · exact sim_pure h
  refine sim_bind hp fun items items' hi => ?_
  rw [hi.length_eq]
  refine sim_bind (sim_reduceLoop b _ items items' hi) fun res res' hr => ?_
  cases hr with
  | nil => exact sim_throw _
  | cons hc _ => exact sim_pure hc

end Threads
end TorchMPS
