import Verif.Lemmas.AutodiffCurve
/-
Curves of batched matrix sequences and their jets.
-/
namespace TorchMPS
open Spec
variable {K : Type} [RCLike K]

/-- `MatFollows`, and the value at `t₀` is the primal part on the nose -/
def MatJet (f : ℝ → Mat K) (D : Mat (DualNumber K)) (t₀ : ℝ) : Prop := MatFollows f D t₀ ∧ f t₀ = D.primal

theorem matJet_of (r c : ℕ) (g : ℝ → ℕ → ℕ → K) (d : ℕ → ℕ → DualNumber K) (t₀ : ℝ) (h : ∀ i < r, ∀ j < c, Follows (fun t => g t i j) (d i j) t₀) :
    MatJet (fun t => Mat.of r c (g t)) (Mat.of r c d) t₀ := by
  refine ⟨⟨fun t => ⟨rfl, rfl⟩, ?_⟩, ?_⟩
  · intro i hi j hj
    have hi : i < r := hi
    have hj : j < c := hj
    simp only [Mat.of, hi, hj, and_self, if_true]
    exact h i hi j hj
  · show Mat.mk r c _ = Mat.mk r c _
    congr 1
    funext i j
    show (if i < r ∧ j < c then g t₀ i j else 0) = (if i < r ∧ j < c then d i j else 0 : DualNumber K).fst
    split
    · rename_i h'
      exact (h i h'.1 j h'.2).1
    · rfl

theorem batchShape_congr {L : Type} {s : Tensor K} {t : Tensor L} (h : s.shape = t.shape) (k : ℕ) : batchShape s k = batchShape t k := by
  unfold batchShape Tensor.ndim; rw [h]

theorem nonBatchShape_congr {L : Type} {s : Tensor K} {t : Tensor L} (h : s.shape = t.shape) (k : ℕ) : nonBatchShape s k = nonBatchShape t k := by
  unfold nonBatchShape Tensor.ndim; rw [h]

theorem rowAt_jet {g : ℝ → Tensor K} {d : Tensor (DualNumber K)} {t₀ : ℝ} (h : TensorFollows g d t₀) (hd : 1 ≤ d.ndim) (b : List ℕ)
    (hb : InRange (sourceIndex (batchShape d 1) b) (batchShape d 1)) : MatJet (fun t => rowAt (g t) b) (rowAt d b) t₀ := by
  have e : (fun t => rowAt (g t) b) = fun t => Mat.of 1 (d.shape.getLastD 0) (fun _ j => (g t).get (sourceIndex (batchShape d 1) b ++ [j])) := by
    funext t
    unfold rowAt
    rw [h.1 t, batchShape_congr (h.1 t)]
  rw [e]
  refine matJet_of _ _ _ _ _ (fun i _ j hj => h.2 _ ?_)
  rw [shape_split d 1, nonBatch_one d hd]
  exact hb.append (List.Forall₂.cons hj List.Forall₂.nil)

theorem colAt_jet {g : ℝ → Tensor K} {d : Tensor (DualNumber K)} {t₀ : ℝ} (h : TensorFollows g d t₀) (hd : 1 ≤ d.ndim) (b : List ℕ)
    (hb : InRange (sourceIndex (batchShape d 1) b) (batchShape d 1)) : MatJet (fun t => colAt (g t) b) (colAt d b) t₀ := by
  have e : (fun t => colAt (g t) b) = fun t => Mat.of (d.shape.getLastD 0) 1 (fun j _ => (g t).get (sourceIndex (batchShape d 1) b ++ [j])) := by
    funext t
    unfold colAt
    rw [h.1 t, batchShape_congr (h.1 t)]
  rw [e]
  refine matJet_of _ _ _ _ _ (fun i hi j _ => h.2 _ ?_)
  rw [shape_split d 1, nonBatch_one d hd]
  exact hb.append (List.Forall₂.cons hi List.Forall₂.nil)

theorem matOne_jet {g : ℝ → Tensor K} {d : Tensor (DualNumber K)} {t₀ : ℝ} (h : TensorFollows g d t₀) (hd : 2 ≤ d.ndim) (b : List ℕ)
    (hb : InRange (sourceIndex (batchShape d 2) b) (batchShape d 2)) :
    MatJet (fun t => match nonBatchShape (g t) 2 with
      | [r, c] => Mat.of r c (fun i j => (g t).get (sourceIndex (batchShape (g t) 2) b ++ [i, j]))
      | _ => Mat.of 0 0 (fun _ _ => 0)) (match nonBatchShape d 2 with
      | [r, c] => Mat.of r c (fun i j => d.get (sourceIndex (batchShape d 2) b ++ [i, j]))
      | _ => Mat.of 0 0 (fun _ _ => 0)) t₀ := by
  obtain ⟨r, c, hrc⟩ := exists_two d hd
  have e : ∀ t, nonBatchShape (g t) 2 = [r, c] := fun t => by rw [nonBatchShape_congr (h.1 t), hrc]
  have e2 : ∀ t, batchShape (g t) 2 = batchShape d 2 := fun t => batchShape_congr (h.1 t) 2
  simp only [e, e2, hrc]
  refine matJet_of _ _ _ _ _ (fun i hi j hj => h.2 _ ?_)
  rw [shape_split d 2, hrc]
  exact hb.append (by simp [InRange, hi, hj])

theorem matsAt_jet {f : ℝ → TensorSeq K} {d : TensorSeq (DualNumber K)} {t₀ : ℝ} (h : SeqFollows f d t₀) (lv rv : Option (Tensor (DualNumber K)))
    (hw : WellRanked d lv rv) {B : Shape} (hB : IsBroadcast (batchShapes d lv rv) B) (b : List ℕ) (hb : InRange b B) :
    ∃ fs : List (ℝ → Mat K), (∀ t, matsAt (f t) b = fs.map (· t)) ∧ List.Forall₂ (fun f D => MatJet f D t₀) fs (matsAt d b) := by
  cases d with
  | single d =>
    obtain ⟨g, hg, hd⟩ := h
    obtain ⟨n, r, c, hrc⟩ := exists_three d hw.1
    have e : ∀ t, nonBatchShape (g t) 3 = [n, r, c] := fun t => by rw [nonBatchShape_congr (hd.1 t), hrc]
    have e2 : ∀ t, batchShape (g t) 3 = batchShape d 3 := fun t => batchShape_congr (hd.1 t) 3
    refine ⟨(List.range n).map (fun k t => Mat.of r c (fun i j => (g t).get (sourceIndex (batchShape d 3) b ++ [k, i, j]))), ?_, ?_⟩
    · intro t
      rw [hg t, matsAt_single _ (e t), e2, List.map_map]
      rfl
    · rw [matsAt_single _ hrc]
      rw [List.forall₂_map_left_iff, List.forall₂_map_right_iff, List.forall₂_same]
      intro k hk
      refine matJet_of _ _ _ _ _ (fun i hi j hj => hd.2 _ ?_)
      rw [shape_split d 3, hrc]
      have : InRange (sourceIndex (batchShape d 3) b) (batchShape d 3) := sourceIndex_inRange hB (by simp [batchShapes]) hb
      exact this.append (by simp [InRange, hi, hj, List.mem_range.1 hk])
  | seq ds =>
    obtain ⟨gs, hg, hd⟩ := h
    refine ⟨gs.map (fun g t => match nonBatchShape (g t) 2 with
      | [r, c] => Mat.of r c (fun i j => (g t).get (sourceIndex (batchShape (g t) 2) b ++ [i, j]))
      | _ => Mat.of 0 0 (fun _ _ => 0)), ?_, ?_⟩
    · intro t
      rw [hg t, matsAt_seq, List.map_map, List.map_map]
      rfl
    · rw [matsAt_seq, List.forall₂_map_left_iff, List.forall₂_map_right_iff]
      have hw' : ∀ t ∈ ds, 2 ≤ t.ndim := hw.1
      have hin : ∀ t ∈ ds, InRange (sourceIndex (batchShape t 2) b) (batchShape t 2) := fun t ht => sourceIndex_inRange hB (by
        simp only [batchShapes, List.mem_append, List.mem_map]
        exact Or.inl (Or.inl ⟨t, ht, rfl⟩)) hb
      clear hw hB hg
      induction hd with
      | nil => exact List.Forall₂.nil
      | cons h1 h2 ih =>
        refine List.Forall₂.cons (matOne_jet h1 (hw' _ (by simp)) b (hin _ (by simp))) (ih (fun t ht => hw' t (by simp [ht])) (fun t ht => hin t (by simp [ht])))

/-- the chain of factors at a batch index -/
theorem chainAt_jet {f : ℝ → TensorSeq K} {d : TensorSeq (DualNumber K)} {lv rv : ℝ → Option (Tensor K)} {dlv drv : Option (Tensor (DualNumber K))} {t₀ : ℝ}
    (h : SeqFollows f d t₀) (hl : OptFollows lv dlv t₀) (hr : OptFollows rv drv t₀) (hw : WellRanked d dlv drv) {B : Shape}
    (hB : IsBroadcast (batchShapes d dlv drv) B) (b : List ℕ) (hb : InRange b B) :
    (∃ fs : List (ℝ → Mat K), (∀ t, chainAt (f t) (lv t) (rv t) b = fs.map (· t)) ∧ List.Forall₂ (fun f D => MatJet f D t₀) fs (chainAt d dlv drv b)) ∧
    (lv t₀).map (rowAt · b) = (dlv.map (rowAt · b)).map Mat.primal ∧ matsAt (f t₀) b = (matsAt d b).map Mat.primal ∧
    (rv t₀).map (colAt · b) = (drv.map (colAt · b)).map Mat.primal := by
  obtain ⟨fs, h1, h2⟩ := matsAt_jet h dlv drv hw hB b hb
  have hl' : (∃ fs : List (ℝ → Mat K), (∀ t, ((lv t).map (rowAt · b)).toList = fs.map (· t)) ∧ List.Forall₂ (fun f D => MatJet f D t₀) fs (dlv.map (rowAt · b)).toList) ∧
      (lv t₀).map (rowAt · b) = (dlv.map (rowAt · b)).map Mat.primal := by
    cases dlv with
    | none => exact ⟨⟨[], fun t => by rw [hl t]; rfl, List.Forall₂.nil⟩, by rw [hl t₀]; rfl⟩
    | some v =>
      obtain ⟨g, hg, hv⟩ := hl
      have := rowAt_jet hv (hw.2.1 v rfl) b (sourceIndex_inRange hB (by simp [batchShapes]) hb)
      refine ⟨⟨[fun t => rowAt (g t) b], fun t => by rw [hg t]; rfl, List.Forall₂.cons this List.Forall₂.nil⟩, ?_⟩
      rw [hg t₀]
      show some _ = some _
      rw [this.2]
  have hr' : (∃ fs : List (ℝ → Mat K), (∀ t, ((rv t).map (colAt · b)).toList = fs.map (· t)) ∧ List.Forall₂ (fun f D => MatJet f D t₀) fs (drv.map (colAt · b)).toList) ∧
      (rv t₀).map (colAt · b) = (drv.map (colAt · b)).map Mat.primal := by
    cases drv with
    | none => exact ⟨⟨[], fun t => by rw [hr t]; rfl, List.Forall₂.nil⟩, by rw [hr t₀]; rfl⟩
    | some v =>
      obtain ⟨g, hg, hv⟩ := hr
      have := colAt_jet hv (hw.2.2 v rfl) b (sourceIndex_inRange hB (by simp [batchShapes]) hb)
      refine ⟨⟨[fun t => colAt (g t) b], fun t => by rw [hg t]; rfl, List.Forall₂.cons this List.Forall₂.nil⟩, ?_⟩
      rw [hg t₀]
      show some _ = some _
      rw [this.2]
  obtain ⟨⟨fl, l1, l2⟩, l3⟩ := hl'
  obtain ⟨⟨fr, r1, r2⟩, r3⟩ := hr'
  refine ⟨⟨fl ++ fs ++ fr, ?_, ?_⟩, l3, ?_, r3⟩
  · intro t
    rw [chainAt, l1, r1, h1, List.map_append, List.map_append]
  · exact List.rel_append (List.rel_append l2 h2) r2
  · rw [h1]
    clear h1 h hw hB
    generalize matsAt d b = L at h2
    induction h2 with
    | nil => rfl
    | cons k1 k2 ih => rw [List.map_cons, List.map_cons, ih, k1.2]

/-! ### shapes -/

theorem follows_shapes {f : ℝ → TensorSeq K} {d : TensorSeq (DualNumber K)} {lv rv : ℝ → Option (Tensor K)} {dlv drv : Option (Tensor (DualNumber K))} {t₀ : ℝ}
    (h : SeqFollows f d t₀) (hl : OptFollows lv dlv t₀) (hr : OptFollows rv drv t₀) (par : Bool) (t : ℝ) :
    batchShapes (f t) (lv t) (rv t) = batchShapes d dlv drv ∧ (WellRanked d dlv drv → WellRanked (f t) (lv t) (rv t)) ∧
    (UsesParallel (f t) (lv t) (rv t) par ↔ UsesParallel d dlv drv par) ∧ lastAxis (f t) = lastAxis d ∧ (EmptyFits d dlv drv → EmptyFits (f t) (lv t) (rv t)) ∧
    (∀ b i j, outIndex (lv t) (rv t) b i j = outIndex dlv drv b i j) ∧ ((lv t).isNone = dlv.isNone) ∧ ((rv t).isNone = drv.isNone) := by
  have hopt : ∀ {v : ℝ → Option (Tensor K)} {dv : Option (Tensor (DualNumber K))}, OptFollows v dv t₀ → (v t).map Tensor.shape = dv.map Tensor.shape := by
    intro v dv hv
    cases dv with
    | none => rw [hv t]; rfl
    | some x =>
      obtain ⟨g, hg, hx⟩ := hv
      rw [hg t]
      show some _ = some _
      rw [hx.1 t]
  have hL := hopt hl
  have hR := hopt hr
  generalize lv t = l at *
  generalize rv t = r at *
  have hbs : ∀ {v : Option (Tensor K)} {dv : Option (Tensor (DualNumber K))}, v.map Tensor.shape = dv.map Tensor.shape →
      v.toList.map (fun v => batchShape v 1) = dv.toList.map (fun v => batchShape v 1) ∧ v.isNone = dv.isNone ∧ (v = none ↔ dv = none) ∧
      ∀ P : Shape → Prop, (∀ x ∈ dv, P x.shape) → ∀ x ∈ v, P x.shape := by
    intro v dv hv
    cases v <;> cases dv <;> simp at hv
    · simp
    · rename_i a b
      refine ⟨by simp [batchShape_congr hv], rfl, by simp, ?_⟩
      intro P hP x hx
      simp only [Option.mem_def, Option.some.injEq] at hx
      subst hx
      rw [hv]
      exact hP b rfl
  obtain ⟨L1, L2, L3, L4⟩ := hbs hL
  obtain ⟨R1, R2, R3, R4⟩ := hbs hR
  cases d with
  | single d =>
    obtain ⟨g, hg, hd⟩ := h
    have hs := hd.1 t
    rw [hg t]
    refine ⟨?_, ?_, ?_, ?_, ?_, ?_, L2, R2⟩
    · simp only [batchShapes, L1, R1, batchShape_congr hs]
    · rintro ⟨w1, w2, w3⟩
      refine ⟨?_, L4 (fun s => 1 ≤ s.length) w2, R4 (fun s => 1 ≤ s.length) w3⟩
      show 3 ≤ (g t).shape.length
      rw [hs]; exact w1
    · simp only [UsesParallel, L3, R3]
    · simp only [lastAxis, hs]
    · intro w w0
      have w := w (by
        unfold Tensor.ndim at w0 ⊢
        rw [← hs]; exact w0)
      rw [← hs] at w
      exact ⟨L4 (fun s => s.getLastD 0 = (g t).shape.getLastD 0) w.1, R4 (fun s => s.getLastD 0 = (g t).shape.getLastD 0) w.2⟩
    · intro b i j; simp only [outIndex, L2, R2]
  | seq ds =>
    obtain ⟨gs, hg, hd⟩ := h
    have hs : (gs.map (· t)).map Tensor.shape = ds.map Tensor.shape := by
      clear hg
      induction hd with
      | nil => rfl
      | cons h1 h2 ih => simp only [List.map_cons, ih, h1.1 t]
    rw [hg t]
    generalize gs.map (· t) = ts at hs
    have hP : ∀ P : Shape → Prop, (∀ x ∈ ts, P x.shape) ↔ ∀ x ∈ ds, P x.shape := by
      intro P
      have e1 : ∀ {L : Type} (l : List (Tensor L)), (∀ x ∈ l, P x.shape) ↔ ∀ s ∈ l.map Tensor.shape, P s := by
        intro L l; simp
      rw [e1, e1, hs]
    have hn : ts ≠ [] ↔ ds ≠ [] := by
      have := congrArg List.length hs
      rw [List.length_map, List.length_map] at this
      rw [← List.length_pos_iff, ← List.length_pos_iff, this]
    refine ⟨?_, ?_, ?_, rfl, fun _ => trivial, ?_, L2, R2⟩
    · simp only [batchShapes, L1, R1]
      congr 2
      have e1 : ∀ {L : Type} (l : List (Tensor L)), l.map (fun t => batchShape t 2) = (l.map Tensor.shape).map (fun s => s.take (s.length - 2)) := by
        intro L l; rw [List.map_map]; rfl
      rw [e1, e1, hs]
    · rintro ⟨w1, w2, w3⟩
      refine ⟨(hP (fun s => 2 ≤ s.length)).2 w1, L4 (fun s => 1 ≤ s.length) w2, R4 (fun s => 1 ≤ s.length) w3⟩
    · simp only [UsesParallel, L3, R3, hn]
      have : (∀ s ∈ ts, ∀ t ∈ ts, s.shape = t.shape) ↔ ∀ s ∈ ds, ∀ t ∈ ds, s.shape = t.shape := by
        have e : ∀ s : Tensor K, (∀ t ∈ ts, s.shape = t.shape) ↔ ∀ t ∈ ds, s.shape = t.shape := fun s => hP (fun x => s.shape = x)
        simp only [e]
        exact hP (fun x => ∀ t ∈ ds, x = t.shape)
      rw [this]
    · intro b i j; simp only [outIndex, L2, R2]

end TorchMPS
