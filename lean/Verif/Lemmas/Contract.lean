import Verif.Model.Rounded
import Verif.Lemmas.Mat
import Verif.Spec.Contract
import Verif.Props.Utils2
/-
`contract_matseq`: from tensors to the per-element reductions.
-/
namespace TorchMPS
open Spec
variable {K : Type}

theorem Mat.of_congr [Zero K] {r c : ℕ} {f g : ℕ → ℕ → K}
    (h : ∀ i < r, ∀ j < c, f i j = g i j) : Mat.of r c f = Mat.of r c g := by
  unfold Mat.of
  ext
  · rfl
  · rfl
  · rename_i i j
    simp only
    split
    · rename_i hij; exact h i hij.1 j hij.2
    · rfl

@[simp] theorem Mat.of_r [Zero K] (r c : ℕ) (f : ℕ → ℕ → K) : (Mat.of r c f).r = r := rfl
@[simp] theorem Mat.of_c [Zero K] (r c : ℕ) (f : ℕ → ℕ → K) : (Mat.of r c f).c = c := rfl
@[simp] theorem BMat.at_r [Zero K] (A : BMat K) (b : List ℕ) : (A.at b).r = A.r := rfl
@[simp] theorem BMat.at_c [Zero K] (A : BMat K) (b : List ℕ) : (A.at b).c = A.c := rfl

theorem Mat.of_e [Zero K] {r c : ℕ} {f : ℕ → ℕ → K} {i j : ℕ} (hi : i < r) (hj : j < c) :
    (Mat.of r c f).e i j = f i j := by simp [Mat.of, hi, hj]

theorem Mat.at_mul_eye [Semiring K] (A : BMat K) (b : List ℕ) :
    (A.at b).mul (Mat.eye A.c) = A.at b := by
  ext
  · rfl
  · rfl
  · rename_i i j
    simp only [Mat.mul, Mat.eye, BMat.at_c, mul_ite, mul_one, mul_zero]
    rw [Finset.sum_ite_eq']
    simp only [Finset.mem_range, BMat.at, Mat.of]
    split
    · rfl
    · rename_i h; rw [if_neg (by tauto)]

theorem Mat.eye_mul_at [Semiring K] (A : BMat K) (b : List ℕ) :
    (Mat.eye A.r).mul (A.at b) = A.at b := by
  ext
  · rfl
  · rfl
  · rename_i i j
    simp only [Mat.mul, Mat.eye, ite_mul, one_mul, zero_mul]
    rw [Finset.sum_ite_eq]
    simp only [Finset.mem_range, BMat.at, Mat.of]
    split
    · rfl
    · rename_i h; rw [if_neg (by tauto)]

/-! ### broadcast views -/

/-- `out` is the broadcast of `t` (with `k` non-batch axes) to batch shape `B`. -/
def IsExpansion (B : Shape) (t : Tensor K) (k : ℕ) (out : Tensor K) : Prop :=
  out.shape = B ++ nonBatchShape t k ∧
    ∀ b nb, InRange b B → InRange nb (nonBatchShape t k) →
      out.get (b ++ nb) = t.get (sourceIndex (batchShape t k) b ++ nb)

theorem nonBatchShape_length (t : Tensor K) (k : ℕ) (h : k ≤ t.ndim) :
    (nonBatchShape t k).length = k := by
  unfold nonBatchShape; rw [List.length_drop]; unfold Tensor.ndim at *; omega

theorem shape_split (t : Tensor K) (k : ℕ) : t.shape = batchShape t k ++ nonBatchShape t k :=
  (List.take_append_drop _ _).symm

theorem nonBatch_one (t : Tensor K) (h : 1 ≤ t.ndim) :
    nonBatchShape t 1 = [t.shape.getLastD 0] := by
  obtain ⟨d, hd⟩ := List.length_eq_one_iff.1 (nonBatchShape_length t 1 h)
  rw [shape_split t 1, hd]
  rw [List.getLastD_concat]

theorem rowView_expansion [Zero K] {B : Shape} {t out : Tensor K} (h : 1 ≤ t.ndim)
    (he : IsExpansion B t 1 out) :
    (rowView out).r = 1 ∧ (rowView out).c = t.shape.getLastD 0 ∧
    ∀ b, InRange b B → (rowView out).at b = rowAt t b := by
  obtain ⟨hs, hg⟩ := he
  rw [nonBatch_one t h] at hs hg
  have hl : out.shape.getLastD 0 = t.shape.getLastD 0 := by rw [hs, List.getLastD_concat]
  refine ⟨rfl, hl, ?_⟩
  intro b hb
  unfold rowView BMat.at rowAt
  simp only [hl]
  refine Mat.of_congr (fun i _ j hj => ?_)
  exact hg b [j] hb (by simpa using hj)

theorem colView_expansion [Zero K] {B : Shape} {t out : Tensor K} (h : 1 ≤ t.ndim)
    (he : IsExpansion B t 1 out) :
    (colView out).r = t.shape.getLastD 0 ∧ (colView out).c = 1 ∧
    ∀ b, InRange b B → (colView out).at b = colAt t b := by
  obtain ⟨hs, hg⟩ := he
  rw [nonBatch_one t h] at hs hg
  have hl : out.shape.getLastD 0 = t.shape.getLastD 0 := by rw [hs, List.getLastD_concat]
  refine ⟨hl, rfl, ?_⟩
  intro b hb
  unfold colView BMat.at colAt
  simp only [hl]
  refine Mat.of_congr (fun i hi j _ => ?_)
  exact hg b [i] hb (by simpa using hi)

theorem matView_expansion [Zero K] {B : Shape} {t out : Tensor K} {r c : ℕ}
    (hrc : nonBatchShape t 2 = [r, c]) (he : IsExpansion B t 2 out) :
    (matView out).r = r ∧ (matView out).c = c ∧
    ∀ b, InRange b B → (matView out).at b =
      Mat.of r c (fun i j => t.get (sourceIndex (batchShape t 2) b ++ [i, j])) := by
  obtain ⟨hs, hg⟩ := he
  rw [hrc] at hs hg
  have hr : (matView out).r = r := by simp [matView, Tensor.ndim, hs]
  have hc : (matView out).c = c := by simp [matView, Tensor.ndim, hs]
  refine ⟨hr, hc, ?_⟩
  intro b hb
  unfold BMat.at
  rw [hr, hc]
  refine Mat.of_congr (fun i hi j hj => ?_)
  exact hg b [i, j] hb (by simp [hi, hj])

theorem matsAt_single [Zero K] (t : Tensor K) {n r c : ℕ} (hrc : nonBatchShape t 3 = [n, r, c])
    (b : List ℕ) : matsAt (.single t) b = (List.range n).map (fun k =>
      Mat.of r c (fun i j => t.get (sourceIndex (batchShape t 3) b ++ [k, i, j]))) := by
  simp only [matsAt, hrc]

theorem matsView_expansion [Zero K] {B : Shape} {t out : Tensor K} {n r c : ℕ}
    (hrc : nonBatchShape t 3 = [n, r, c]) (he : IsExpansion B t 3 out) :
    (matsView out).length = n ∧ (∀ m ∈ matsView out, m.r = r ∧ m.c = c) ∧
    ∀ b, InRange b B → (matsView out).map (·.at b) = matsAt (.single t) b := by
  obtain ⟨hs, hg⟩ := he
  rw [hrc] at hs hg
  have e1 : out.shape.getD (out.ndim - 3) 0 = n := by simp [Tensor.ndim, hs]
  have e2 : out.shape.getD (out.ndim - 2) 0 = r := by simp [Tensor.ndim, hs]
  have e3 : out.shape.getD (out.ndim - 1) 0 = c := by simp [Tensor.ndim, hs]
  unfold matsView
  rw [e1, e2, e3]
  refine ⟨by simp, ?_, ?_⟩
  · intro m hm
    obtain ⟨k, _, rfl⟩ := List.mem_map.1 hm
    exact ⟨rfl, rfl⟩
  · intro b hb
    rw [matsAt_single t hrc, List.map_map]
    refine List.map_congr_left (fun k hk => ?_)
    simp only [Function.comp_apply, BMat.at]
    refine Mat.of_congr (fun i hi j hj => ?_)
    exact hg b [k, i, j] hb (by simp [List.mem_range.1 hk, hi, hj])

theorem isBroadcast_singleton (s B : Shape) (h : IsBroadcast [s] B) : B = s := by
  have h1 := (shapeBroadcast_ok_iff _ _).2 h
  have h2 : shapeBroadcast [s] = .ok s := by
    simp [shapeBroadcast, firstLongest, broadcastLoop, bind, Except.bind, pure, Except.pure]
  rw [h2] at h1
  simpa using h1.symm

theorem sourceIndex_self (s : Shape) (b : List ℕ) (h : InRange b s) : sourceIndex s b = b := by
  unfold sourceIndex
  rw [h.length_eq, Nat.sub_self, List.drop_zero]
  exact Tensor.clampIdx_of_inRange h

theorem isExpansion_self (t : Tensor K) (k : ℕ) : IsExpansion (batchShape t k) t k t :=
  ⟨shape_split t k, fun b nb hb _ => by rw [sourceIndex_self _ _ hb]⟩

theorem sourceIndex_inRange {shapes : List Shape} {B s : Shape} (h : IsBroadcast shapes B)
    (hs : s ∈ shapes) {b : List ℕ} (hb : InRange b B) : InRange (sourceIndex s b) s := by
  have hlen := h.rank_ge s hs
  have hbl := hb.length_eq
  unfold InRange sourceIndex
  rw [List.forall₂_iff_get]
  have hL : (List.zipWith (fun n i => if n = 1 then 0 else i) s
      (b.drop (b.length - s.length))).length = s.length := by
    rw [List.length_zipWith, List.length_drop]; omega
  refine ⟨hL, ?_⟩
  intro i h1 h2
  simp only [List.get_eq_getElem, List.getElem_zipWith, List.getElem_drop]
  have hi : b.length - s.length + i < B.length := by omega
  have hbB : b[b.length - s.length + i]'(by omega) < B[b.length - s.length + i] := by
    have := (List.forall₂_iff_get.1 hb).2 (b.length - s.length + i) (by omega) hi
    simpa using this
  have e1 := axis_getElem s i h2
  have e2 := axis_getElem B _ hi
  have e3 : B.length - 1 - (b.length - s.length + i) = s.length - 1 - i := by omega
  rw [e3] at e2
  split
  · rename_i h1; omega
  · rename_i h1
    rcases h.fits (s.length - 1 - i) s hs with h' | h'
    · rw [e1] at h'; exact absurd h' h1
    · rw [← e1, h', e2]; exact hbB

/-! ### the broadcast step -/

/-- What the broadcast step delivers, in terms of the specification. -/
structure Delivers [Zero K] (ms : TensorSeq K) (lv rv : Option (Tensor K)) (B : Shape)
    (s : MatSeq K) : Prop where
  batch : s.batch = B
  left : s.left.isNone = lv.isNone
  right : s.right.isNone = rv.isNone
  dims : s.full.map (fun m => (m.r, m.c)) = (chainAt ms lv rv []).map (fun m => (m.r, m.c))
  matsLen : s.mats.length = (matsAt ms []).length
  vals : ∀ b, InRange b B → s.full.map (·.at b) = chainAt ms lv rv b
  mats : ∀ b, InRange b B → s.mats.map (·.at b) = matsAt ms b
  leftDim : ∀ l ∈ s.left, ∃ v ∈ lv, l.c = v.shape.getLastD 0 ∧ l.r = 1
  rightDim : ∀ l ∈ s.right, ∃ v ∈ rv, l.r = v.shape.getLastD 0 ∧ l.c = 1

theorem matsAt_single_dims [Zero K] (t : Tensor K) {n r c : ℕ} (hrc : nonBatchShape t 3 = [n, r, c])
    (b : List ℕ) : (matsAt (.single t) b).map (fun m => (m.r, m.c)) = List.replicate n (r, c) := by
  rw [matsAt_single t hrc]
  simp only [List.map_map]
  rw [List.eq_replicate_iff]
  refine ⟨by simp, ?_⟩
  intro x hx
  obtain ⟨k, _, rfl⟩ := List.mem_map.1 hx
  rfl

theorem exists_three (t : Tensor K) (h : 3 ≤ t.ndim) :
    ∃ n r c, nonBatchShape t 3 = [n, r, c] :=
  List.length_eq_three.1 (nonBatchShape_length t 3 h)

theorem exists_two (t : Tensor K) (h : 2 ≤ t.ndim) :
    ∃ r c, nonBatchShape t 2 = [r, c] :=
  List.length_eq_two.1 (nonBatchShape_length t 2 h)

theorem map_dims_of_replicate (l : List (BMat K)) (n r c : ℕ) (h1 : l.length = n)
    (h2 : ∀ m ∈ l, m.r = r ∧ m.c = c) :
    l.map (fun m => (m.r, m.c)) = List.replicate n (r, c) := by
  rw [List.eq_replicate_iff]
  refine ⟨by simpa using h1, ?_⟩
  intro x hx
  obtain ⟨m, hm, rfl⟩ := List.mem_map.1 hx
  rw [(h2 m hm).1, (h2 m hm).2]

/-- assembling `Delivers` from views of expanded tensors -/
theorem delivers_of_same [Zero K] (t : Tensor K) (lv rv : Option (Tensor K)) (B : Shape)
    (hw : WellRanked (.single t) lv rv) (t' : Tensor K) (lv' rv' : Option (Tensor K))
    (ht : IsExpansion B t 3 t')
    (hl : Option.Rel (fun v v' => IsExpansion B v 1 v') lv lv')
    (hr : Option.Rel (fun v v' => IsExpansion B v 1 v') rv rv') :
    Delivers (.single t) lv rv B
      ⟨t'.shape.take (t'.ndim - 3), true, matsView t', lv'.map rowView, rv'.map colView⟩ := by
  obtain ⟨hw1, hw2, hw3⟩ := hw
  obtain ⟨n, r, c, hrc⟩ := exists_three t hw1
  obtain ⟨m1, m2, m3⟩ := matsView_expansion hrc ht
  have hbatch : t'.shape.take (t'.ndim - 3) = B := by
    have := ht.1
    rw [hrc] at this
    simp [Tensor.ndim, this]
  have hlen : (matsView t').length = (matsAt (.single t) []).length := by
    rw [m1, matsAt_single t hrc]; simp
  have hdims : (matsView t').map (fun m => (m.r, m.c)) =
      (matsAt (.single t) []).map (fun m => (m.r, m.c)) := by
    rw [matsAt_single_dims t hrc, map_dims_of_replicate _ n r c m1 m2]
  cases hl with
  | none =>
    cases hr with
    | none =>
      exact ⟨hbatch, rfl, rfl, by simpa [MatSeq.full, chainAt] using hdims, hlen,
        fun b hb => by simpa [MatSeq.full, chainAt] using m3 b hb, m3, by simp, by simp⟩
    | some hr =>
      rename_i w w'
      obtain ⟨c1, c2, c3⟩ := colView_expansion (hw3 w rfl) hr
      refine ⟨hbatch, rfl, rfl, ?_, hlen, ?_, m3, by simp, by simp [c1, c2]⟩
      · simp [MatSeq.full, chainAt, hdims, c1, c2, colAt]
      · intro b hb; simp [MatSeq.full, chainAt, m3 b hb, c3 b hb]
  | some hl =>
    rename_i v v'
    obtain ⟨b1, b2, b3⟩ := rowView_expansion (hw2 v rfl) hl
    cases hr with
    | none =>
      refine ⟨hbatch, rfl, rfl, ?_, hlen, ?_, m3, by simp [b1, b2], by simp⟩
      · simp [MatSeq.full, chainAt, hdims, b1, b2, rowAt]
      · intro b hb; simp [MatSeq.full, chainAt, m3 b hb, b3 b hb]
    | some hr =>
      rename_i w w'
      obtain ⟨c1, c2, c3⟩ := colView_expansion (hw3 w rfl) hr
      refine ⟨hbatch, rfl, rfl, ?_, hlen, ?_, m3, by simp [b1, b2], by simp [c1, c2]⟩
      · simp [MatSeq.full, chainAt, hdims, c1, c2, colAt, b1, b2, rowAt]
      · intro b hb; simp [MatSeq.full, chainAt, m3 b hb, c3 b hb, b3 b hb]

theorem broadcastSame_ok [Zero K] (t : Tensor K) (lv rv : Option (Tensor K)) (B : Shape)
    (hw : WellRanked (.single t) lv rv)
    (hB : IsBroadcast (batchShapes (.single t) lv rv) B) :
    ∃ s, broadcastSame t lv rv = .ok s ∧ s.sameShape = true ∧ Delivers (.single t) lv rv B s := by
  have hw' := hw
  obtain ⟨hw1, hw2, hw3⟩ := hw'
  cases lv with
  | none =>
    cases rv with
    | none =>
      have hBt : B = batchShape t 3 := isBroadcast_singleton _ _ (by simpa [batchShapes] using hB)
      refine ⟨_, rfl, rfl, ?_⟩
      exact delivers_of_same t none none B hw t none none (hBt ▸ isExpansion_self t 3)
        Option.Rel.none Option.Rel.none
    | some w =>
      obtain ⟨outs, ho, hF⟩ := C03_batchBroadcast_ok [w, t] [1, 3] B rfl
        (by simpa using ⟨hw3 w rfl, hw1⟩) (by simp)
        (isBroadcast_congr (fun s => by simp [batchShapes]; tauto) B hB)
      simp only [List.zip_cons_cons, List.zip_nil_right] at hF
      obtain _ | ⟨h0, _ | ⟨h1, _ | _⟩⟩ := hF
      rename_i w' t'
      refine ⟨⟨t'.shape.take (t'.ndim - 3), true, matsView t', none, some (colView w')⟩,
        by simp only [broadcastSame]; rw [ho]; rfl, rfl, ?_⟩
      exact delivers_of_same t none (some w) B hw t' none (some w') h1 Option.Rel.none
        (Option.Rel.some h0)
  | some v =>
    cases rv with
    | none =>
      obtain ⟨outs, ho, hF⟩ := C03_batchBroadcast_ok [v, t] [1, 3] B rfl
        (by simpa using ⟨hw2 v rfl, hw1⟩) (by simp)
        (isBroadcast_congr (fun s => by simp [batchShapes]; tauto) B hB)
      simp only [List.zip_cons_cons, List.zip_nil_right] at hF
      obtain _ | ⟨h0, _ | ⟨h1, _ | _⟩⟩ := hF
      rename_i v' t'
      refine ⟨⟨t'.shape.take (t'.ndim - 3), true, matsView t', some (rowView v'), none⟩,
        by simp only [broadcastSame]; rw [ho]; rfl, rfl, ?_⟩
      exact delivers_of_same t (some v) none B hw t' (some v') none h1 (Option.Rel.some h0)
        Option.Rel.none
    | some w =>
      obtain ⟨outs, ho, hF⟩ := C03_batchBroadcast_ok [v, w, t] [1, 1, 3] B rfl
        (by simpa using ⟨hw2 v rfl, hw3 w rfl, hw1⟩) (by simp)
        (isBroadcast_congr (fun s => by simp [batchShapes]; tauto) B hB)
      simp only [List.zip_cons_cons, List.zip_nil_right] at hF
      obtain _ | ⟨h0, _ | ⟨h1, _ | ⟨h2, _ | _⟩⟩⟩ := hF
      rename_i v' w' t'
      refine ⟨⟨t'.shape.take (t'.ndim - 3), true, matsView t', some (rowView v'),
        some (colView w')⟩, by simp only [broadcastSame]; rw [ho]; rfl, rfl, ?_⟩
      exact delivers_of_same t (some v) (some w) B hw t' (some v') (some w') h2
        (Option.Rel.some h0) (Option.Rel.some h1)


/-! ### sequences of different shapes -/

theorem matsAt_seq [Zero K] (ts : List (Tensor K)) (b : List ℕ) :
    matsAt (.seq ts) b = ts.map (fun t => match nonBatchShape t 2 with
      | [r, c] => Mat.of r c (fun i j => t.get (sourceIndex (batchShape t 2) b ++ [i, j]))
      | _ => Mat.of 0 0 (fun _ _ => 0)) := rfl

theorem views_of_expansions [Zero K] {B : Shape} {ts outs : List (Tensor K)}
    (hw : ∀ t ∈ ts, 2 ≤ t.ndim) (h : List.Forall₂ (fun t out => IsExpansion B t 2 out) ts outs) :
    (outs.map matView).map (fun m => (m.r, m.c)) =
        (matsAt (.seq ts) []).map (fun m => (m.r, m.c)) ∧
      ∀ b, InRange b B → (outs.map matView).map (·.at b) = matsAt (.seq ts) b := by
  induction h with
  | nil => exact ⟨rfl, fun _ _ => rfl⟩
  | @cons t out ts outs h1 h2 ih =>
    obtain ⟨i1, i2⟩ := ih (fun t ht => hw t (by simp [ht]))
    obtain ⟨r, c, hrc⟩ := exists_two t (hw t (by simp))
    obtain ⟨v1, v2, v3⟩ := matView_expansion hrc h1
    refine ⟨?_, ?_⟩
    · simp only [List.map_cons, matsAt_seq] at i1 ⊢
      rw [i1, v1, v2, hrc]; rfl
    · intro b hb
      have := i2 b hb
      simp only [List.map_cons, matsAt_seq] at this ⊢
      rw [this, v3 b hb, hrc]

theorem forall₂_zip_two {B : Shape} {ts outs : List (Tensor K)}
    (h : List.Forall₂ (fun (p : Tensor K × ℕ) out => IsExpansion B p.1 p.2 out)
      (ts.zip (List.replicate ts.length 2)) outs) :
    List.Forall₂ (fun t out => IsExpansion B t 2 out) ts outs := by
  induction ts generalizing outs with
  | nil => cases h; exact List.Forall₂.nil
  | cons t ts ih =>
    simp only [List.length_cons, List.replicate_succ, List.zip_cons_cons] at h
    obtain _ | ⟨h1, h2⟩ := h
    exact List.Forall₂.cons h1 (ih h2)

theorem mem_zip_two {ts : List (Tensor K)} {p : Tensor K × ℕ}
    (h : p ∈ ts.zip (List.replicate ts.length 2)) : p.1 ∈ ts ∧ p.2 = 2 := by
  have := List.of_mem_zip (a := p.1) (b := p.2) h
  exact ⟨this.1, List.eq_of_mem_replicate this.2⟩

theorem map_batchShape_zip_two (ts : List (Tensor K)) :
    (ts.zip (List.replicate ts.length 2)).map (fun p => batchShape p.1 p.2) =
      ts.map (fun t => batchShape t 2) := by
  induction ts with
  | nil => rfl
  | cons t ts ih =>
    simp only [List.length_cons, List.replicate_succ, List.zip_cons_cons, List.map_cons, ih]

theorem delivers_of_seq [Zero K] (ts : List (Tensor K)) (lv rv : Option (Tensor K)) (B B' : Shape)
    (hw : WellRanked (.seq ts) lv rv) (ts' : List (Tensor K)) (lv' rv' : Option (Tensor K))
    (hB : B' = B)
    (ht : List.Forall₂ (fun t out => IsExpansion B t 2 out) ts ts')
    (hl : Option.Rel (fun v v' => IsExpansion B v 1 v') lv lv')
    (hr : Option.Rel (fun v v' => IsExpansion B v 1 v') rv rv') :
    Delivers (.seq ts) lv rv B
      ⟨B', false, ts'.map matView, lv'.map rowView, rv'.map colView⟩ := by
  obtain ⟨hw1, hw2, hw3⟩ := hw
  obtain ⟨hdims, m3⟩ := views_of_expansions hw1 ht
  have hlen : (ts'.map matView).length = (matsAt (.seq ts) []).length := by
    have := congrArg List.length hdims
    simpa using this
  cases hl with
  | none =>
    cases hr with
    | none =>
      exact ⟨hB, rfl, rfl, by simpa [MatSeq.full, chainAt] using hdims, hlen,
        fun b hb => by simpa [MatSeq.full, chainAt] using m3 b hb, m3, by simp, by simp⟩
    | some hr =>
      rename_i w w'
      obtain ⟨c1, c2, c3⟩ := colView_expansion (hw3 w rfl) hr
      refine ⟨hB, rfl, rfl, ?_, hlen, ?_, m3, by simp, by simp [c1, c2]⟩
      · simp only [MatSeq.full, chainAt, Option.toList_none, List.nil_append, Option.map_none,
          Option.map_some, Option.toList_some, List.map_append, hdims]
        simp [c1, c2, colAt]
      · intro b hb
        simp only [MatSeq.full, chainAt, Option.toList_none, List.nil_append, Option.map_none,
          Option.map_some, Option.toList_some, List.map_append, m3 b hb]
        simp [c3 b hb]
  | some hl =>
    rename_i v v'
    obtain ⟨b1, b2, b3⟩ := rowView_expansion (hw2 v rfl) hl
    cases hr with
    | none =>
      refine ⟨hB, rfl, rfl, ?_, hlen, ?_, m3, by simp [b1, b2], by simp⟩
      · simp only [MatSeq.full, chainAt, Option.toList_none, List.append_nil, Option.map_none,
          Option.map_some, Option.toList_some, List.map_append, hdims]
        simp [b1, b2, rowAt]
      · intro b hb
        simp only [MatSeq.full, chainAt, Option.toList_none, List.append_nil, Option.map_none,
          Option.map_some, Option.toList_some, List.map_append, m3 b hb]
        simp [b3 b hb]
    | some hr =>
      rename_i w w'
      obtain ⟨c1, c2, c3⟩ := colView_expansion (hw3 w rfl) hr
      refine ⟨hB, rfl, rfl, ?_, hlen, ?_, m3, by simp [b1, b2], by simp [c1, c2]⟩
      · simp only [MatSeq.full, chainAt, Option.map_some, Option.toList_some, List.map_append,
          hdims]
        simp [c1, c2, colAt, b1, b2, rowAt]
      · intro b hb
        simp only [MatSeq.full, chainAt, Option.map_some, Option.toList_some, List.map_append,
          m3 b hb]
        simp [c3 b hb, b3 b hb]

theorem IsExpansion.batch {B : Shape} {t out : Tensor K} {k : ℕ} (hk : k ≤ t.ndim)
    (h : IsExpansion B t k out) : out.shape.take (out.ndim - k) = B := by
  have hl := nonBatchShape_length t k hk
  have : out.ndim - k = B.length := by unfold Tensor.ndim; rw [h.1]; simp [hl]
  rw [this, h.1]; simp

theorem broadcastSeq_ok [Zero K] (ts : List (Tensor K)) (lv rv : Option (Tensor K)) (B : Shape)
    (hw : WellRanked (.seq ts) lv rv)
    (hB : IsBroadcast (batchShapes (.seq ts) lv rv) B) (hts : ts.length ≠ 1) :
    ∃ s, broadcastSeq ts lv rv = .ok s ∧ s.sameShape = false ∧ Delivers (.seq ts) lv rv B s := by
  have hw' := hw
  obtain ⟨hw1, hw2, hw3⟩ := hw'
  have hnn : ∀ p ∈ ts.zip (List.replicate ts.length 2), p.2 ≤ p.1.ndim := by
    intro p hp
    obtain ⟨h1, h2⟩ := mem_zip_two hp
    rw [h2]; exact hw1 _ h1
  cases lv with
  | none =>
    cases rv with
    | none =>
      have hne : ts ≠ [] := by
        rintro rfl
        obtain ⟨s, hs, -⟩ := hB.rank_eq
        simp [batchShapes] at hs
      have h2 : 2 ≤ ts.length := by
        cases ts with
        | nil => exact absurd rfl hne
        | cons a l => cases l <;> simp_all
      obtain ⟨outs, ho, hF⟩ := C03_batchBroadcast_ok ts (List.replicate ts.length 2) B (by simp)
        hnn h2 (by rw [map_batchShape_zip_two]; simpa [batchShapes] using hB)
      have hF := forall₂_zip_two hF
      obtain _ | ⟨t', outs⟩ := outs
      · cases hF; exact absurd rfl hne
      · obtain _ | ⟨t, ts⟩ := ts
        · exact absurd rfl hne
        obtain _ | ⟨h0, hF'⟩ := hF
        refine ⟨⟨t'.shape.take (t'.ndim - 2), false, (t' :: outs).map matView, none, none⟩,
          by simp only [broadcastSeq]; rw [ho]; rfl, rfl, ?_⟩
        exact delivers_of_seq _ none none B _ hw (t' :: outs) none none
          (h0.batch (hw1 t (by simp))) (List.Forall₂.cons h0 hF') Option.Rel.none Option.Rel.none
    | some w =>
      have hwn : 1 ≤ w.ndim := hw3 w rfl
      by_cases hne : ts = []
      · subst hne
        have hBw : B = batchShape w 1 := isBroadcast_singleton _ _ (by simpa [batchShapes] using hB)
        have ho := C03_batchBroadcast_short [w] [1] rfl (by simpa using hwn) (by simp)
        refine ⟨⟨w.shape.take (w.ndim - 1), false, [], none, some (colView w)⟩,
          by simp only [broadcastSeq, List.length_nil, List.replicate_zero]; rw [ho]; rfl, rfl, ?_⟩
        exact delivers_of_seq [] none (some w) B _ hw [] none (some w) hBw.symm List.Forall₂.nil
          Option.Rel.none (Option.Rel.some (hBw ▸ isExpansion_self w 1))
      · obtain ⟨outs, ho, hF⟩ := C03_batchBroadcast_ok (w :: ts) (1 :: List.replicate ts.length 2) B
          (by simp) (by simpa using ⟨hwn, fun a b h => hnn (a, b) h⟩)
          (by cases ts <;> simp_all)
          (by
            simp only [List.zip_cons_cons, List.map_cons]
            rw [map_batchShape_zip_two]
            exact isBroadcast_congr (fun s => by
              simp only [batchShapes, Option.toList_some, Option.toList_none, List.map_cons, List.map_nil,
                List.append_nil, List.mem_append, List.mem_cons, List.not_mem_nil, or_false]
              generalize (s ∈ List.map (fun t => batchShape t 2) ts) = P
              tauto) B hB)
        simp only [List.zip_cons_cons] at hF
        obtain _ | ⟨h0, hF⟩ := hF
        rename_i w' outs
        have hF := forall₂_zip_two hF
        refine ⟨⟨w'.shape.take (w'.ndim - 1), false, outs.map matView, none, some (colView w')⟩,
          by simp only [broadcastSeq]; rw [ho]; rfl, rfl, ?_⟩
        exact delivers_of_seq ts none (some w) B _ hw outs none (some w')
          (IsExpansion.batch hwn h0) hF Option.Rel.none (Option.Rel.some h0)
  | some v =>
    have hvn : 1 ≤ v.ndim := hw2 v rfl
    cases rv with
    | none =>
      by_cases hne : ts = []
      · subst hne
        have hBv : B = batchShape v 1 := isBroadcast_singleton _ _ (by simpa [batchShapes] using hB)
        have ho := C03_batchBroadcast_short [v] [1] rfl (by simpa using hvn) (by simp)
        refine ⟨⟨v.shape.take (v.ndim - 1), false, [], some (rowView v), none⟩,
          by simp only [broadcastSeq, List.length_nil, List.replicate_zero]; rw [ho]; rfl, rfl, ?_⟩
        exact delivers_of_seq [] (some v) none B _ hw [] (some v) none hBv.symm List.Forall₂.nil
          (Option.Rel.some (hBv ▸ isExpansion_self v 1)) Option.Rel.none
      · obtain ⟨outs, ho, hF⟩ := C03_batchBroadcast_ok (v :: ts) (1 :: List.replicate ts.length 2) B
          (by simp) (by simpa using ⟨hvn, fun a b h => hnn (a, b) h⟩)
          (by cases ts <;> simp_all)
          (by
            simp only [List.zip_cons_cons, List.map_cons]
            rw [map_batchShape_zip_two]
            exact isBroadcast_congr (fun s => by
              simp only [batchShapes, Option.toList_some, Option.toList_none, List.map_cons, List.map_nil,
                List.append_nil, List.mem_append, List.mem_cons, List.not_mem_nil, or_false]
              generalize (s ∈ List.map (fun t => batchShape t 2) ts) = P
              tauto) B hB)
        simp only [List.zip_cons_cons] at hF
        obtain _ | ⟨h0, hF⟩ := hF
        rename_i v' outs
        have hF := forall₂_zip_two hF
        refine ⟨⟨v'.shape.take (v'.ndim - 1), false, outs.map matView, some (rowView v'), none⟩,
          by simp only [broadcastSeq]; rw [ho]; rfl, rfl, ?_⟩
        exact delivers_of_seq ts (some v) none B _ hw outs (some v') none
          (IsExpansion.batch hvn h0) hF (Option.Rel.some h0) Option.Rel.none
    | some w =>
      have hwn : 1 ≤ w.ndim := hw3 w rfl
      obtain ⟨outs, ho, hF⟩ := C03_batchBroadcast_ok (v :: w :: ts)
          (1 :: 1 :: List.replicate ts.length 2) B
          (by simp) (by simpa using ⟨hvn, hwn, fun a b h => hnn (a, b) h⟩)
          (by simp)
          (by
            simp only [List.zip_cons_cons, List.map_cons]
            rw [map_batchShape_zip_two]
            exact isBroadcast_congr (fun s => by
              simp only [batchShapes, Option.toList_some, Option.toList_none, List.map_cons, List.map_nil,
                List.append_nil, List.mem_append, List.mem_cons, List.not_mem_nil, or_false]
              generalize (s ∈ List.map (fun t => batchShape t 2) ts) = P
              tauto) B hB)
      simp only [List.zip_cons_cons] at hF
      obtain _ | ⟨h0, _ | ⟨h1, hF⟩⟩ := hF
      rename_i v' w' outs
      have hF := forall₂_zip_two hF
      refine ⟨⟨v'.shape.take (v'.ndim - 1), false, outs.map matView, some (rowView v'),
        some (colView w')⟩, by simp only [broadcastSeq]; rw [ho]; rfl, rfl, ?_⟩
      exact delivers_of_seq ts (some v) (some w) B _ hw outs (some v') (some w')
          (IsExpansion.batch hvn h0) hF (Option.Rel.some h0) (Option.Rel.some h1)


/-! ### bundling -/

theorem matsAt_bundle [Zero K] (ts : List (Tensor K)) (sh : Shape) (hne : ts ≠ [])
    (hsh : ∀ t ∈ ts, t.shape = sh) (h2 : 2 ≤ sh.length) :
    ∃ out, bundleTensors (-3) (.seq ts) = .ok (.single out) ∧ 3 ≤ out.ndim ∧
      (∀ lv rv B, IsBroadcast (batchShapes (.seq ts) lv rv) B ↔
        IsBroadcast (batchShapes (.single out) lv rv) B) ∧
      (matsAt (.single out) []).map (fun m => (m.r, m.c)) =
        (matsAt (.seq ts) []).map (fun m => (m.r, m.c)) ∧
      out.shape.getD (out.ndim - 3) 0 = ts.length ∧
      ∀ b, (∀ t ∈ ts, InRange (sourceIndex (batchShape t 2) b) (batchShape t 2)) →
        matsAt (.single out) b = matsAt (.seq ts) b := by
  obtain ⟨out, ho, hos, hog⟩ := C05_bundle_stacks ts sh (sh.length - 2) (-3) hne hsh (by omega)
    (Or.inr (by omega))
  have hts : ∃ t0, t0 ∈ ts := List.exists_mem_of_ne_nil ts hne
  obtain ⟨r, c, hrc⟩ : ∃ r c, sh.drop (sh.length - 2) = [r, c] :=
    List.length_eq_two.1 (by rw [List.length_drop]; omega)
  have hB2 : ∀ t ∈ ts, batchShape t 2 = sh.take (sh.length - 2) := by
    intro t ht; unfold batchShape Tensor.ndim; rw [hsh t ht]
  have hN2 : ∀ t ∈ ts, nonBatchShape t 2 = [r, c] := by
    intro t ht; unfold nonBatchShape Tensor.ndim; rw [hsh t ht, hrc]
  have hnd : out.ndim = sh.length + 1 := by
    unfold Tensor.ndim; rw [hos]; simp; omega
  have hB3 : batchShape out 3 = sh.take (sh.length - 2) := by
    unfold batchShape
    rw [hnd, hos, show sh.length + 1 - 3 = (sh.take (sh.length - 2)).length by simp]
    simp
  have hN3 : nonBatchShape out 3 = [ts.length, r, c] := by
    unfold nonBatchShape
    rw [hnd, hos, show sh.length + 1 - 3 = (sh.take (sh.length - 2)).length by simp,
      List.drop_left, hrc]
  refine ⟨out, ho, by omega, ?_, ?_, ?_, ?_⟩
  · intro lv rv B
    have hset : ∀ s, s ∈ batchShapes (.seq ts) lv rv ↔ s ∈ batchShapes (.single out) lv rv := by
      intro s
      simp only [batchShapes, List.mem_append, List.mem_map, List.mem_cons, List.not_mem_nil,
        or_false, hB3]
      have : (∃ a ∈ ts, batchShape a 2 = s) ↔ s = sh.take (sh.length - 2) := by
        constructor
        · rintro ⟨a, ha, rfl⟩; exact hB2 a ha
        · rintro rfl
          obtain ⟨t0, h0⟩ := hts
          exact ⟨t0, h0, hB2 t0 h0⟩
      rw [this]
    exact ⟨isBroadcast_congr hset B, isBroadcast_congr (fun s => (hset s).symm) B⟩
  · rw [matsAt_single_dims out hN3, matsAt_seq, List.map_map, eq_comm, List.eq_replicate_iff]
    refine ⟨by simp, ?_⟩
    intro x hx
    obtain ⟨t, ht, rfl⟩ := List.mem_map.1 hx
    simp only [Function.comp_apply, hN2 t ht]
    rfl
  · have := shape_split out 3
    rw [hN3, hB3] at this
    rw [hnd, this]
    have e : sh.length + 1 - 3 = (sh.take (sh.length - 2)).length := by simp
    rw [e]
    simp
  · intro b hb
    rw [matsAt_single out hN3, matsAt_seq]
    refine List.ext_getElem (by simp) ?_
    intro k h1 h2
    simp only [List.length_map, List.length_range] at h1
    simp only [List.getElem_map, List.getElem_range]
    have hk := List.getElem_mem (l := ts) (n := k) h1
    rw [hN2 _ hk]
    refine Mat.of_congr (fun i hi j hj => ?_)
    rw [hB3, ← hB2 _ hk]
    have hin := hb _ hk
    have hlen := hin.length_eq
    have hlb : (batchShape ts[k] 2).length = sh.length - 2 := by rw [hB2 _ hk]; simp
    have := hog k h1 (sourceIndex (batchShape ts[k] 2) b) [i, j] (by
      have := InRange.append hin (show InRange [i, j] [r, c] by simp [hi, hj])
      rw [← hN2 _ hk, ← shape_split, hsh _ hk] at this
      exact this) (by rw [hlen, hlb])
    exact this

/-- all matrices have the same shape, i.e. they end up in one tensor -/
def Bundled : TensorSeq K → Prop
  | .single _ => True
  | .seq ts => ts ≠ [] ∧ ∀ s ∈ ts, ∀ t ∈ ts, s.shape = t.shape

/-- the preparation of `contract_matseq`: bundling and broadcasting -/
def prepareMatseq (ms : TensorSeq K) (lv rv : Option (Tensor K)) : Except Err (MatSeq K × ℕ) := do
  match ← bundleTensors (-3) ms with
  | .single t =>
    if t.ndim < 3 then .error .index
    else
      let s ← broadcastSame t lv rv
      return (s, t.shape.getD (t.ndim - 1) 0)
  | .seq ts =>
      let s ← broadcastSeq ts lv rv
      return (s, 0)

theorem contractMatseq_prepare [RCLike K] (ms : TensorSeq K) (lv rv : Option (Tensor K)) (par : Bool) :
    contractMatseq ms lv rv par = (prepareMatseq ms lv rv).bind (fun p => evalMatSeq p.1 par p.2) := by
  unfold contractMatseq prepareMatseq
  cases bundleTensors (-3) ms with
  | error e => rfl
  | ok m =>
    cases m with
    | single t =>
      show (if t.ndim < 3 then _ else _) = Except.bind (if t.ndim < 3 then _ else _) _
      by_cases h : t.ndim < 3
      · rw [if_pos h, if_pos h]; rfl
      · rw [if_neg h, if_neg h]
        cases broadcastSame t lv rv <;> rfl
    | seq ts =>
      show (broadcastSeq ts lv rv).bind _ = ((broadcastSeq ts lv rv).bind _).bind _
      cases broadcastSeq ts lv rv <;> rfl

theorem Arith.contractMatseq_prepare [Semiring K] {S : Type} [Zero S] (ops : Arith K S) (ms : TensorSeq K) (lv rv : Option (Tensor K)) (par : Bool) :
    ops.contractMatseq ms lv rv par = (prepareMatseq ms lv rv).bind (fun p => ops.evalMatSeq p.1 par p.2) := by
  unfold Arith.contractMatseq prepareMatseq
  cases bundleTensors (-3) ms with
  | error e => rfl
  | ok m =>
    cases m with
    | single t =>
      show (if t.ndim < 3 then _ else _) = Except.bind (if t.ndim < 3 then _ else _) _
      by_cases h : t.ndim < 3
      · rw [if_pos h, if_pos h]; rfl
      · rw [if_neg h, if_neg h]
        cases broadcastSame t lv rv <;> rfl
    | seq ts =>
      show (broadcastSeq ts lv rv).bind _ = ((broadcastSeq ts lv rv).bind _).bind _
      cases broadcastSeq ts lv rv <;> rfl

theorem prepareMatseq_ok [Zero K] (ms : TensorSeq K) (lv rv : Option (Tensor K))
    (B : Shape) (hw : WellRanked ms lv rv) (hB : IsBroadcast (batchShapes ms lv rv) B) :
    ∃ s D, prepareMatseq ms lv rv = .ok (s, D) ∧ Delivers ms lv rv B s ∧
      (s.sameShape = true ↔ Bundled ms) ∧
      (s.sameShape = true → ∀ m ∈ s.mats, ∀ m' ∈ s.mats, m.r = m'.r ∧ m.c = m'.c) ∧
      (∀ t, ms = .single t → D = t.shape.getLastD 0 ∧
        (s.mats = [] ↔ t.shape.getD (t.ndim - 3) 0 = 0)) ∧
      (∀ ts, ms = .seq ts → ts ≠ [] → s.mats ≠ []) := by
  have hsame : ∀ (t : Tensor K), 3 ≤ t.ndim → ∀ s : MatSeq K,
      (s.mats.map (fun m => (m.r, m.c)) = (matsAt (.single t) []).map (fun m => (m.r, m.c))) →
      ∀ m ∈ s.mats, ∀ m' ∈ s.mats, m.r = m'.r ∧ m.c = m'.c := by
    intro t ht s h m hm m' hm'
    obtain ⟨n, r, c, hrc⟩ := exists_three t ht
    rw [matsAt_single_dims t hrc, List.eq_replicate_iff] at h
    have h1 := h.2 _ (List.mem_map.2 ⟨m, hm, rfl⟩)
    have h2 := h.2 _ (List.mem_map.2 ⟨m', hm', rfl⟩)
    simp only [Prod.mk.injEq] at h1 h2
    exact ⟨h1.1.trans h2.1.symm, h1.2.trans h2.2.symm⟩
  have hmatsdims : ∀ (ms : TensorSeq K) (s : MatSeq K), Delivers ms lv rv B s →
      s.mats.map (fun m => (m.r, m.c)) = (matsAt ms []).map (fun m => (m.r, m.c)) := by
    intro ms s hd
    have h := hd.dims
    have h1 : s.left.toList.length = (lv.map (rowAt · [])).toList.length := by
      have := hd.left
      cases hl : s.left <;> cases hlv : lv <;> simp_all
    simp only [MatSeq.full, chainAt, List.map_append, List.append_assoc] at h
    have h2 := (List.append_inj h (by simpa using h1)).2
    exact (List.append_inj h2 (by simpa using hd.matsLen)).1
  cases ms with
  | single t =>
    obtain ⟨s, hs, hss, hd⟩ := broadcastSame_ok t lv rv B hw hB
    have h3 : 3 ≤ t.ndim := hw.1
    refine ⟨s, t.shape.getD (t.ndim - 1) 0, ?_, hd, by simp [hss, Bundled], ?_, ?_, by simp⟩
    · unfold prepareMatseq
      simp only [bundleTensors]
      show (if t.ndim < 3 then _ else _) = _
      rw [if_neg (by omega), hs]; rfl
    · intro _
      exact hsame t h3 s (hmatsdims _ s hd)
    · intro t' ht'
      cases ht'
      obtain ⟨n, r, c, hrc⟩ := exists_three t h3
      have hsp := shape_split t 3
      rw [hrc] at hsp
      refine ⟨?_, ?_⟩
      · unfold Tensor.ndim
        rw [hsp]; simp
      · have hl := hd.matsLen
        rw [matsAt_single t hrc] at hl
        have : t.shape.getD (t.ndim - 3) 0 = n := by unfold Tensor.ndim; rw [hsp]; simp
        rw [this, ← List.length_eq_zero_iff, hl]; simp
  | seq ts =>
    by_cases hb : Bundled (.seq ts)
    · obtain ⟨hne, hall⟩ := hb
      obtain ⟨t0, h0⟩ := List.exists_mem_of_ne_nil ts hne
      have hr2 : ∀ t ∈ ts, 2 ≤ t.ndim := hw.1
      obtain ⟨out, ho, h3, hBB, hdims, hnn, hvals⟩ := matsAt_bundle ts t0.shape hne
        (fun t ht => hall t ht t0 h0) (hr2 t0 h0)
      have hB' := (hBB lv rv B).1 hB
      obtain ⟨s, hs, hss, hd⟩ := broadcastSame_ok out lv rv B ⟨h3, hw.2⟩ hB'
      have hm : ∀ b, InRange b B → matsAt (.single out) b = matsAt (.seq ts) b := by
        intro b hb
        refine hvals b (fun t ht => sourceIndex_inRange hB ?_ hb)
        simp only [batchShapes, List.mem_append, List.mem_map]
        exact Or.inl (Or.inl ⟨t, ht, rfl⟩)
      refine ⟨s, out.shape.getD (out.ndim - 1) 0, ?_, ?_, by simp [hss, Bundled, hne]; exact hall,
        ?_, by simp, ?_⟩
      · unfold prepareMatseq
        rw [ho]
        show (if out.ndim < 3 then _ else _) = _
        rw [if_neg (by omega), hs]; rfl
      · refine ⟨hd.batch, hd.left, hd.right, ?_, ?_, ?_, ?_, hd.leftDim, hd.rightDim⟩
        · rw [hd.dims]
          simp only [chainAt, List.map_append, hdims]
        · rw [hd.matsLen]
          have := congrArg List.length hdims
          simpa using this
        · intro b hb
          rw [hd.vals b hb]
          simp only [chainAt, hm b hb]
        · intro b hb
          rw [hd.mats b hb, hm b hb]
      · intro _
        exact hsame out h3 s (hmatsdims _ s hd)
      · intro ts' hts' _ hs0
        cases hts'
        have hl := hd.matsLen
        rw [hs0] at hl
        have := congrArg List.length hdims
        simp [matsAt_seq] at this
        simp [this] at hl
        exact hne (List.length_eq_zero_iff.1 hl.symm)
    · have hbund : bundleTensors (-3) (.seq ts) = .ok (.seq ts) := by
        apply C05_bundle_unchanged
        by_cases hne : ts = []
        · right; left; rw [hne]
        · right; right
          refine ⟨ts, rfl, ?_⟩
          by_contra hcon
          push Not at hcon
          exact hb ⟨hne, hcon⟩
      have hl1 : ts.length ≠ 1 := by
        intro h
        obtain ⟨t, rfl⟩ := List.length_eq_one_iff.1 h
        exact hb ⟨by simp, by simp⟩
      obtain ⟨s, hs, hss, hd⟩ := broadcastSeq_ok ts lv rv B hw hB hl1
      refine ⟨s, 0, ?_, hd, by simp [hss, hb], by simp [hss], by simp, ?_⟩
      · unfold prepareMatseq
        rw [hbund]
        show (broadcastSeq ts lv rv).bind _ = _
        rw [hs]; rfl
      · intro ts' hts' hne hs0
        cases hts'
        have hl := hd.matsLen
        rw [hs0, matsAt_seq] at hl
        simp at hl
        exact hne (List.length_eq_zero_iff.1 hl.symm)

theorem contractMatseq_eqF [RCLike K] (ms : TensorSeq K) (lv rv : Option (Tensor K)) (par : Bool)
    (B : Shape) (hw : WellRanked ms lv rv) (hB : IsBroadcast (batchShapes ms lv rv) B) :
    ∃ s D, (contractMatseq ms lv rv par = evalMatSeq s par D ∧
      ∀ ops : FlOps K, ops.contractMatseq ms lv rv par = ops.evalMatSeq s par D) ∧ Delivers ms lv rv B s ∧
      (s.sameShape = true ↔ Bundled ms) ∧
      (s.sameShape = true → ∀ m ∈ s.mats, ∀ m' ∈ s.mats, m.r = m'.r ∧ m.c = m'.c) ∧
      (∀ t, ms = .single t → D = t.shape.getLastD 0 ∧
        (s.mats = [] ↔ t.shape.getD (t.ndim - 3) 0 = 0)) ∧
      (∀ ts, ms = .seq ts → ts ≠ [] → s.mats ≠ []) := by
  obtain ⟨s, D, h, h'⟩ := prepareMatseq_ok ms lv rv B hw hB
  refine ⟨s, D, ⟨?_, fun ops => ?_⟩, h'⟩
  · rw [contractMatseq_prepare, h]; rfl
  · rw [Arith.contractMatseq_prepare, h]; rfl

theorem contractMatseq_eq [RCLike K] (ms : TensorSeq K) (lv rv : Option (Tensor K)) (par : Bool)
    (B : Shape) (hw : WellRanked ms lv rv) (hB : IsBroadcast (batchShapes ms lv rv) B) :
    ∃ s D, contractMatseq ms lv rv par = evalMatSeq s par D ∧ Delivers ms lv rv B s ∧
      (s.sameShape = true ↔ Bundled ms) ∧
      (s.sameShape = true → ∀ m ∈ s.mats, ∀ m' ∈ s.mats, m.r = m'.r ∧ m.c = m'.c) ∧
      (∀ t, ms = .single t → D = t.shape.getLastD 0 ∧
        (s.mats = [] ↔ t.shape.getD (t.ndim - 3) 0 = 0)) ∧
      (∀ ts, ms = .seq ts → ts ≠ [] → s.mats ≠ []) := by
  obtain ⟨s, D, h, h'⟩ := contractMatseq_eqF ms lv rv par B hw hB
  exact ⟨s, D, h.1, h'⟩

end TorchMPS
