import Verif.Lemmas.BatchBroadcast
import Mathlib.Data.List.Perm.Basic
/-
Properties of `torchmps/utils2.py`: C01 - C05.
-/
namespace TorchMPS
open Spec
variable {K : Type}

/-! ### C01 -/

/-- C01. `shape_broadcast` returns `out` exactly when `out` is the broadcast of the (non-empty) list. -/
theorem C01_shapeBroadcast_ok_iff (shapes : List Shape) (out : Shape) :
    shapeBroadcast shapes = .ok out ↔ IsBroadcast shapes out := shapeBroadcast_ok_iff shapes out

/-- C01. It succeeds exactly when on each axis all sizes other than 1 agree. -/
theorem C01_shapeBroadcast_succeeds_iff (shapes : List Shape) (h : shapes ≠ []) :
    (∃ out, shapeBroadcast shapes = .ok out) ↔ Compatible shapes := by
  simp only [shapeBroadcast_ok_iff]
  exact exists_isBroadcast_iff shapes h

/-- C01. In every other case it raises ValueError. -/
theorem C01_shapeBroadcast_error (shapes : List Shape) (h : ¬ Compatible shapes) :
    shapeBroadcast shapes = .error .value := by
  by_cases hne : shapes = []
  · subst hne; rfl
  · cases hr : shapeBroadcast shapes with
    | ok out => exact absurd ((C01_shapeBroadcast_succeeds_iff shapes hne).1 ⟨out, hr⟩) h
    | error e => rw [shapeBroadcast_error _ _ hr]

example : Compatible [[5, 1, 4], [3, 1], [1]] ∧
    shapeBroadcast [[5, 1, 4], [3, 1], [1]] = .ok [5, 3, 4] := by
  have h : shapeBroadcast [[5, 1, 4], [3, 1], [1]] = .ok [5, 3, 4] := rfl
  exact ⟨(C01_shapeBroadcast_succeeds_iff _ (by simp)).1 ⟨_, h⟩, h⟩

example : ¬ Compatible [[2, 3], [2]] := by
  intro h
  have := h 0 [2, 3] (by simp) [2] (by simp)
  simp [sizeAt] at this

/-! ### C02 -/

theorem isBroadcast_congr {l₁ l₂ : List Shape} (h : ∀ s, s ∈ l₁ ↔ s ∈ l₂) (out : Shape) :
    IsBroadcast l₁ out → IsBroadcast l₂ out := fun H =>
  ⟨fun s hs => H.rank_ge s ((h s).2 hs),
   H.rank_eq.imp fun s hs => ⟨(h s).1 hs.1, hs.2⟩,
   fun i s hs => H.fits i s ((h s).2 hs),
   fun i => (H.attained i).imp fun s hs => ⟨(h s).1 hs.1, hs.2⟩⟩

/-- C02. The result of `shape_broadcast` (value or exception) depends only on the set of shapes:
neither order nor repetition matters. -/
theorem C02_shapeBroadcast_set (l₁ l₂ : List Shape) (h : ∀ s, s ∈ l₁ ↔ s ∈ l₂) :
    shapeBroadcast l₁ = shapeBroadcast l₂ := by
  cases h1 : shapeBroadcast l₁ with
  | ok out =>
    rw [shapeBroadcast_ok_iff] at h1
    exact ((shapeBroadcast_ok_iff _ _).2 (isBroadcast_congr h out h1)).symm
  | error e =>
    cases h2 : shapeBroadcast l₂ with
    | error e' => rw [shapeBroadcast_error _ _ h1, shapeBroadcast_error _ _ h2]
    | ok out =>
      rw [shapeBroadcast_ok_iff] at h2
      rw [(shapeBroadcast_ok_iff _ _).2 (isBroadcast_congr (fun s => (h s).symm) out h2)] at h1
      exact absurd h1 (by simp)

/-- C02. Permutations. -/
theorem C02_shapeBroadcast_perm (l₁ l₂ : List Shape) (h : l₁.Perm l₂) :
    shapeBroadcast l₁ = shapeBroadcast l₂ :=
  C02_shapeBroadcast_set _ _ (fun _ => h.mem_iff)

/-- C02. Repetition. -/
theorem C02_shapeBroadcast_repeat (s : Shape) (l : List Shape) (h : s ∈ l) :
    shapeBroadcast (s :: l) = shapeBroadcast l :=
  C02_shapeBroadcast_set _ _ (fun x => by
    simp only [List.mem_cons]; exact ⟨fun hx => hx.elim (fun e => e ▸ h) id, Or.inr⟩)

example : ([[1, 2], [3, 1]] : List Shape).Perm [[3, 1], [1, 2]] ∧
    shapeBroadcast [[1, 2], [3, 1]] = .ok [3, 2] := ⟨List.Perm.swap _ _ _, rfl⟩

/-! ### C03 -/

/-- C03. On at least two tensors whose batch shapes have broadcast `B`, `batch_broadcast` succeeds and
output `i` has shape `B ++ nonbatch shape` and the values of input `i`, read at the broadcast
source index. -/
theorem C03_batchBroadcast_ok (ts : List (Tensor K)) (nnb : List ℕ) (B : Shape)
    (h1 : ts.length = nnb.length) (h2 : ∀ p ∈ ts.zip nnb, p.2 ≤ p.1.ndim) (h3 : 2 ≤ ts.length)
    (hB : IsBroadcast ((ts.zip nnb).map (fun p => batchShape p.1 p.2)) B) :
    ∃ outs, batchBroadcast ts nnb = .ok outs ∧
      List.Forall₂ (fun p out => out.shape = B ++ nonBatchShape p.1 p.2 ∧
        ∀ b nb, InRange b B → InRange nb (nonBatchShape p.1 p.2) →
          out.get (b ++ nb) = p.1.get (sourceIndex (batchShape p.1 p.2) b ++ nb))
        (ts.zip nnb) outs := by
  rw [batchBroadcast_eq ts nnb h1 h2 h3]
  have := (shapeBroadcast_ok_iff _ _).2 hB
  unfold batchShape at this
  rw [this]
  refine mapM_except_ok (bcOne B) _ _ ?_
  rintro ⟨t, k⟩ hp
  have hmem : batchShape t k ∈ (ts.zip nnb).map (fun p => batchShape p.1 p.2) :=
    List.mem_map.2 ⟨(t, k), hp, rfl⟩
  exact bcOne_ok B t k (h2 _ hp) (hB.rank_ge _ hmem) (fun j => hB.fits j _ hmem)

/-- C03. It raises ValueError exactly when the batch shapes cannot be broadcast. -/
theorem C03_batchBroadcast_value_error (ts : List (Tensor K)) (nnb : List ℕ)
    (h1 : ts.length = nnb.length) (h2 : ∀ p ∈ ts.zip nnb, p.2 ≤ p.1.ndim) (h3 : 2 ≤ ts.length) :
    batchBroadcast ts nnb = .error .value ↔
      ¬ Compatible ((ts.zip nnb).map (fun p => batchShape p.1 p.2)) := by
  have hne : (ts.zip nnb).map (fun p => batchShape p.1 p.2) ≠ [] := by
    intro h
    have hl := congrArg List.length h
    rw [List.length_map, List.length_zip, List.length_nil] at hl
    omega
  constructor
  · intro h hc
    obtain ⟨B, hB⟩ := (exists_isBroadcast_iff _ hne).2 hc
    obtain ⟨outs, ho, -⟩ := C03_batchBroadcast_ok ts nnb B h1 h2 h3 hB
    rw [ho] at h; exact absurd h (by simp)
  · intro h
    rw [batchBroadcast_eq ts nnb h1 h2 h3]
    have := C01_shapeBroadcast_error _ h
    unfold batchShape at this
    rw [this]; rfl

/-- C03. The two remaining outcomes: a wrong number of counts or a count larger than the rank is an
AssertionError. -/
theorem C03_batchBroadcast_assertion (ts : List (Tensor K)) (nnb : List ℕ)
    (h : ts.length ≠ nnb.length ∨ ∃ p ∈ ts.zip nnb, p.1.ndim < p.2) :
    batchBroadcast ts nnb = .error .assertion := by
  unfold batchBroadcast
  by_cases h1 : ts.length = nnb.length
  · rw [assert_true _ h1]
    obtain ⟨p, hp, hlt⟩ := h.resolve_left (fun h' => h' h1)
    rw [assert_false _ (fun hall => absurd (hall p hp) (by omega))]
    rfl
  · rw [assert_false _ h1]; rfl

/-- C03. Fewer than two tensors are returned unchanged. -/
theorem C03_batchBroadcast_short (ts : List (Tensor K)) (nnb : List ℕ)
    (h1 : ts.length = nnb.length) (h2 : ∀ p ∈ ts.zip nnb, p.2 ≤ p.1.ndim) (h3 : ts.length < 2) :
    batchBroadcast ts nnb = .ok ts := by
  unfold batchBroadcast
  rw [assert_true _ h1, assert_true _ h2]
  show (if ts.length < 2 then _ else _) = _
  rw [if_pos h3]; rfl

example : IsBroadcast ((([⟨[2, 1, 7], fun _ => 0⟩, ⟨[3, 4, 4], fun _ => 1⟩] : List (Tensor ℕ)).zip
    [1, 2]).map (fun p => batchShape p.1 p.2)) [2, 3] :=
  (shapeBroadcast_ok_iff _ _).1 rfl

/-! ### C04 -/

/-- the property "batch_to never returns a batch shape other than the requested one" -/
def Spec.BatchToExact (K : Type) : Prop :=
  ∀ (t : Tensor K) (B : Shape) (k : ℕ) (ref : List ℕ → K) (out : Tensor K), k ≤ t.ndim →
    batchTo t B k ref = .ok out → out.shape = B ++ nonBatchShape t k

/-- C04 is false of the code: a tensor with batch shape (5,) "expanded" to batch shape (1,) keeps
its batch shape (5,). -/
theorem C04_batchTo_not_exact [Inhabited K] : ¬ BatchToExact K := by
  intro h
  have := h ⟨[5], fun _ => default⟩ [1] 0 (fun _ => default) _ (by simp) rfl
  simp [nonBatchShape, Tensor.ndim] at this

/-- C04: exact when the batch shape of the tensor broadcasts into the requested one
(rank not larger, every axis 1 or equal). See `C04_batchTo_rejects_iff` and
`C04_batchTo_returns` for the other requests. -/
theorem C04_batchTo_exact (t : Tensor K) (B : Shape) (k : ℕ) (ref : List ℕ → K) (hk : k ≤ t.ndim)
    (hr : (batchShape t k).length ≤ B.length)
    (hfit : ∀ i, sizeAt (batchShape t k) i = 1 ∨ sizeAt (batchShape t k) i = sizeAt B i) :
    ∃ out, batchTo t B k ref = .ok out ∧ out.shape = B ++ nonBatchShape t k ∧
      ∀ b nb, InRange b B → InRange nb (nonBatchShape t k) →
        out.get (b ++ nb) = t.get (sourceIndex (batchShape t k) b ++ nb) := by
  have hB : IsBroadcast (([t, ⟨B, ref⟩].zip [k, 0]).map (fun p => batchShape p.1 p.2)) B := by
    have hBB : batchShape (⟨B, ref⟩ : Tensor K) 0 = B := by simp [batchShape, Tensor.ndim]
    simp only [List.zip_cons_cons, List.zip_nil_right, List.map_cons, List.map_nil, hBB]
    refine ⟨?_, ⟨B, by simp, rfl⟩, ?_, fun i => ⟨B, by simp, rfl⟩⟩
    · intro s hs
      simp only [List.mem_cons, List.not_mem_nil, or_false] at hs
      rcases hs with rfl | rfl <;> simp [hr]
    · intro i s hs
      simp only [List.mem_cons, List.not_mem_nil, or_false] at hs
      rcases hs with rfl | rfl
      · exact hfit i
      · exact Or.inr rfl
  obtain ⟨outs, ho, hF⟩ := C03_batchBroadcast_ok [t, ⟨B, ref⟩] [k, 0] B rfl
    (by simp [hk]) (by simp) hB
  simp only [List.zip_cons_cons, List.zip_nil_right] at hF
  obtain _ | ⟨h0, _ | ⟨h1, _ | _⟩⟩ := hF
  refine ⟨_, ?_, h0⟩
  unfold batchTo; rw [ho]; rfl

/-- C04. What is rejected: `batch_to` raises iff the two batch shapes are incompatible. -/
theorem C04_batchTo_rejects_iff (t : Tensor K) (B : Shape) (k : ℕ) (ref : List ℕ → K)
    (hk : k ≤ t.ndim) :
    batchTo t B k ref = .error .value ↔ ¬ Compatible [batchShape t k, B] := by
  have hBB : batchShape (⟨B, ref⟩ : Tensor K) 0 = B := by simp [batchShape, Tensor.ndim]
  have key := C03_batchBroadcast_value_error [t, ⟨B, ref⟩] [k, 0] rfl (by simp [hk]) (by simp)
  simp only [List.zip_cons_cons, List.zip_nil_right, List.map_cons, List.map_nil, hBB] at key
  rw [← key]
  constructor
  · intro h
    by_contra hne
    have hc : Compatible [batchShape t k, B] := by
      by_contra hc; exact hne (key.2 hc)
    obtain ⟨D, hD⟩ := (exists_isBroadcast_iff _ (by simp)).2 hc
    obtain ⟨outs, ho, hF⟩ := C03_batchBroadcast_ok [t, ⟨B, ref⟩] [k, 0] D rfl
      (by simp [hk]) (by simp) (by simpa [hBB] using hD)
    simp only [List.zip_cons_cons, List.zip_nil_right] at hF
    obtain _ | ⟨h0, _ | ⟨h1, _ | _⟩⟩ := hF
    unfold batchTo at h; rw [ho] at h
    exact absurd h (by simp [bind, Except.bind, pure, Except.pure])
  · intro h; unfold batchTo; rw [h]; rfl

example : (batchShape (⟨[1, 4, 6], fun _ => 0⟩ : Tensor ℕ) 2).length ≤ [3].length ∧
    ∀ i, sizeAt (batchShape (⟨[1, 4, 6], fun _ => 0⟩ : Tensor ℕ) 2) i = 1 ∨
      sizeAt (batchShape (⟨[1, 4, 6], fun _ => 0⟩ : Tensor ℕ) 2) i = sizeAt [3] i := by
  refine ⟨by decide, fun i => Or.inl ?_⟩
  cases i with
  | zero => rfl
  | succ i => cases i <;> rfl

/-! ### C05 -/

/-- C05. A non-empty sequence of tensors of one shape is stacked: with the new axis at position `p`
(`dim = p`, or `dim = p - (rank + 1)` counted from the end), entry `i` along that axis is
tensor `i`. -/
theorem C05_bundle_stacks (ts : List (Tensor K)) (sh : Shape) (p : ℕ) (dim : ℤ)
    (hne : ts ≠ []) (hsh : ∀ t ∈ ts, t.shape = sh) (hp : p ≤ sh.length)
    (hdim : dim = p ∨ dim = (p : ℤ) - (sh.length + 1)) :
    ∃ out, bundleTensors dim (.seq ts) = .ok (.single out) ∧
      out.shape = sh.take p ++ ts.length :: sh.drop p ∧
      ∀ (i : ℕ) (hi : i < ts.length) (l r : List ℕ), InRange (l ++ r) sh → l.length = p →
        out.get (l ++ i :: r) = (ts[i]).get (l ++ r) := by
  obtain _ | ⟨t, ts⟩ := ts
  · exact absurd rfl hne
  have ht : t.shape = sh := hsh t (by simp)
  have hpos : stackPos t.ndim dim = .ok p := by
    unfold stackPos Tensor.ndim
    rw [ht]
    rcases hdim with rfl | rfl
    · rw [if_pos (by omega), if_pos (by omega)]; simp
    · rw [if_pos (by omega)]
      by_cases h0 : 0 ≤ (p : ℤ) - (sh.length + 1)
      · omega
      · rw [if_neg h0]; congr 1; omega
  refine ⟨t.stack ts p, ?_, ?_, ?_⟩
  · simp only [bundleTensors]
    rw [if_neg, hpos]
    · rfl
    · rintro ⟨s, hs, hne⟩
      exact hne (by rw [ht]; exact hsh s (by simp [hs]))
  · simp [Tensor.stack, ht]
  · intro i hi l r _ hl
    simp only [Tensor.stack]
    have e1 : (l ++ i :: r).getD p 0 = i := by
      rw [← hl, List.getD_eq_getElem?_getD]; simp
    have e2 : (l ++ i :: r).take p = l := by rw [← hl]; simp
    have e3 : (l ++ i :: r).drop (p + 1) = r := by
      rw [← hl, List.drop_append, List.drop_eq_nil_of_le (by omega)]; simp
    rw [e1, e2, e3]
    rw [List.getD_eq_getElem?_getD, List.getElem?_eq_getElem hi]; rfl

/-- C05. Everything else comes back unchanged: a single tensor, an empty sequence, a sequence with
two different shapes. -/
theorem C05_bundle_unchanged (dim : ℤ) (x : TensorSeq K)
    (h : (∃ t, x = .single t) ∨ x = .seq [] ∨
      ∃ ts, x = .seq ts ∧ ∃ s ∈ ts, ∃ t ∈ ts, s.shape ≠ t.shape) :
    bundleTensors dim x = .ok x := by
  rcases h with ⟨t, rfl⟩ | rfl | ⟨ts, rfl, s, hs, t, ht, hne⟩
  · rfl
  · rfl
  · obtain _ | ⟨u, us⟩ := ts
    · rfl
    · simp only [bundleTensors]
      rw [if_pos]
      by_contra hall
      push Not at hall
      have key : ∀ v ∈ u :: us, v.shape = u.shape := by
        intro v hv
        rcases List.mem_cons.1 hv with rfl | hv
        · rfl
        · exact hall v hv
      exact hne ((key s hs).trans (key t ht).symm)

/-- C05. Hence a stacked tensor comes out of a sequence iff it is non-empty and all shapes agree (for an axis
torch accepts). -/
theorem C05_bundle_single_iff (ts : List (Tensor K)) (dim : ℤ)
    (hdim : ∀ t ∈ ts, -(t.ndim + 1 : ℤ) ≤ dim ∧ dim ≤ t.ndim) :
    (∃ out, bundleTensors dim (.seq ts) = .ok (.single out)) ↔
      ts ≠ [] ∧ ∀ s ∈ ts, ∀ t ∈ ts, s.shape = t.shape := by
  constructor
  · rintro ⟨out, h⟩
    refine ⟨?_, ?_⟩
    · rintro rfl; simp [bundleTensors] at h
    · intro s hs t ht
      by_contra hne
      rw [C05_bundle_unchanged dim _ (Or.inr (Or.inr ⟨ts, rfl, s, hs, t, ht, hne⟩))] at h
      simp at h
  · rintro ⟨hne, hall⟩
    obtain _ | ⟨t, us⟩ := ts
    · exact absurd rfl hne
    have hd := hdim t (by simp)
    unfold Tensor.ndim at hd
    obtain ⟨p, hp, hp'⟩ : ∃ p : ℕ, p ≤ t.shape.length ∧
        (dim = p ∨ dim = (p : ℤ) - (t.shape.length + 1)) := by
      by_cases h0 : 0 ≤ dim
      · exact ⟨dim.toNat, by omega, Or.inl (by omega)⟩
      · exact ⟨(dim + (t.shape.length + 1)).toNat, by omega, Or.inr (by omega)⟩
    obtain ⟨out, ho, -⟩ := C05_bundle_stacks (t :: us) t.shape p dim hne
      (fun s hs => hall s hs t (by simp)) hp hp'
    exact ⟨out, ho⟩

example : ∃ out, bundleTensors (-3) (.seq [⟨[4, 4], fun _ => 1⟩, ⟨[4, 4], fun _ => 2⟩] : TensorSeq ℕ)
    = .ok (.single out) :=
  (C05_bundle_single_iff _ _ (by simp [Tensor.ndim])).2 (by simp)

end TorchMPS
