import Verif.Spec.Registry
import Verif.Props.Mps
/-
C87: saving and loading of the state of MPS and TI_MPS.
-/
namespace TorchMPS
open Spec
variable {K : Type}

/-! ### `load_state_dict` in general -/

theorem lookup_mem {d : StateDict K} {k : Key} {t : Tensor K} (h : lookupKey d k = some t) : (k, t) ∈ d := by
  induction d with
  | nil => simp [lookupKey] at h
  | cons e d ih =>
    unfold lookupKey at h
    split at h
    · rename_i he
      cases h; subst he; exact List.mem_cons_self ..
    · exact List.mem_cons_of_mem _ (ih h)

theorem lookup_of_mem {d : StateDict K} (hd : (d.map Prod.fst).Nodup) {k : Key} {t : Tensor K} (h : (k, t) ∈ d) : lookupKey d k = some t := by
  induction d with
  | nil => simp at h
  | cons e d ih =>
    rw [List.map_cons, List.nodup_cons] at hd
    unfold lookupKey
    rcases List.mem_cons.1 h with rfl | h
    · simp
    · rw [if_neg, ih hd.2 h]
      intro he
      exact hd.1 (he ▸ List.mem_map.2 ⟨_, h, rfl⟩)

theorem fits_iff {d : StateDict K} (hd : (d.map Prod.fst).Nodup) (k : Key) (s : List ℕ) : Fits d k s ↔ ∃ t, (k, t) ∈ d ∧ t.shape = s := by
  unfold Fits
  constructor
  · intro h
    cases hl : lookupKey d k with
    | none => rw [hl] at h; exact h.elim
    | some t => rw [hl] at h; exact ⟨t, lookup_mem hl, h⟩
  · rintro ⟨t, ht, hs⟩
    rw [lookup_of_mem hd ht]
    exact hs

/-- C87: `load_state_dict` succeeds exactly if the entries of the dict and the tensors of the receiving model agree in names and shapes. -/
theorem C87_accepts_iff (d own : StateDict K) (hd : (d.map Prod.fst).Nodup) :
    loadResult d own = .ok () ↔ SameEntries d own := by
  unfold loadResult SameEntries
  constructor
  · intro h k s
    split at h
    · rename_i hh
      obtain ⟨h1, h2⟩ := hh
      constructor
      · rintro ⟨t, ht, rfl⟩
        obtain ⟨e', he', hk⟩ := h2 _ ht
        have hk : e'.1 = k := hk
        obtain ⟨t', ht', hs'⟩ := (fits_iff hd _ _).1 (h1 _ he')
        rw [hk] at ht'
        have := lookup_of_mem hd ht
        rw [lookup_of_mem hd ht'] at this
        cases this
        refine ⟨e'.2, ?_, hs'.symm⟩
        rw [← hk]; exact he'
      · rintro ⟨t, ht, rfl⟩
        exact (fits_iff hd _ _).1 (h1 _ ht)
    · cases h
  · intro h
    rw [if_pos]
    refine ⟨fun e he => (fits_iff hd _ _).2 ((h _ _).2 ⟨e.2, he, rfl⟩), fun e he => ?_⟩
    obtain ⟨t, ht, -⟩ := (h e.1 e.2.shape).1 ⟨e.2, he, rfl⟩
    exact ⟨_, ht, rfl⟩

theorem loadResult_cases (d own : StateDict K) : loadResult d own = .ok () ∨ loadResult d own = .error .runtime := by
  unfold loadResult; split <;> simp

/-! ### MPS -/

theorem key_inj {l l' : String} {i i' : ℕ} {s s' : String} : regionKey l i s = regionKey l' i' s' ↔ l = l' ∧ i = i' ∧ s = s' := by
  simp [regionKey]

theorem lookup_append (d d' : StateDict K) (k : Key) : lookupKey (d ++ d') k = (lookupKey d k).or (lookupKey d' k) := by
  induction d with
  | nil => simp [lookupKey]
  | cons e d ih =>
    simp only [List.cons_append, lookupKey]
    split
    · simp
    · exact ih

theorem named_key [Zero K] {l : String} {i : ℕ} {ms : List (Module K)} {e : Key × Tensor K} (h : e ∈ namedFrom l i ms) :
    ∃ j s, i ≤ j ∧ e.1 = regionKey l j s := by
  induction ms generalizing i with
  | nil => simp [namedFrom] at h
  | cons m ms ih =>
    simp only [namedFrom, List.mem_append, List.mem_map] at h
    rcases h with ⟨a, _, rfl⟩ | h
    · exact ⟨i, a.1, le_refl _, rfl⟩
    · obtain ⟨j, s, hj, he⟩ := ih h
      exact ⟨j, s, by omega, he⟩

theorem module_names_nodup [Zero K] (m : Module K) : (m.named.map Prod.fst).Nodup := by cases m <;> simp [Module.named]

theorem named_nodup [Zero K] (l : String) (i : ℕ) (ms : List (Module K)) : ((namedFrom l i ms).map Prod.fst).Nodup := by
  induction ms generalizing i with
  | nil => simp [namedFrom]
  | cons m ms ih =>
    simp only [namedFrom, List.map_append, List.map_map]
    rw [List.nodup_append]
    refine ⟨?_, ih _, ?_⟩
    · have := module_names_nodup m
      rw [show (Prod.fst ∘ fun e : String × Tensor K => (regionKey l i e.1, e.2)) = (fun s => regionKey l i s) ∘ Prod.fst from rfl, ← List.map_map]
      exact this.map (fun a b h => (key_inj.1 h).2.2)
    · rintro a ha b hb rfl
      obtain ⟨e, _, rfl⟩ := List.mem_map.1 ha
      obtain ⟨e', he', h'⟩ := List.mem_map.1 hb
      obtain ⟨j, s, hj, hk⟩ := named_key he'
      rw [h'] at hk
      have := (key_inj.1 hk).2.1
      omega

/-- modules of the same class with tensors of the same shapes -/
inductive Like : Module K → Module K → Prop
  | region {t t' b b'} : t.shape = t'.shape → b.map Tensor.shape = b'.map Tensor.shape → Like (.inputRegion t b) (.inputRegion t' b')
  | mergedInput {t t'} : t.shape = t'.shape → Like (.mergedInput t) (.mergedInput t')
  | site {t t'} : t.shape = t'.shape → Like (.inputSite t) (.inputSite t')
  | out {t t'} : t.shape = t'.shape → Like (.outputSite t) (.outputSite t')
  | mergedOutput {t t' l} : t.shape = t'.shape → Like (.mergedOutput t l) (.mergedOutput t' l)

theorem like_shapes [Zero K] {m m' : Module K} (h : Like m m') :
    m.named.map (fun e => (e.1, e.2.shape)) = m'.named.map (fun e => (e.1, e.2.shape)) := by
  cases h with
  | region h hb =>
    rename_i t t' b b'
    cases b <;> cases b' <;> simp_all [Module.named]
  | _ h => simp [Module.named, Module.tensor, h]

theorem like_from [Zero K] {l : String} {ms ms' : List (Module K)} (h : List.Forall₂ Like ms ms') (i : ℕ) :
    (namedFrom l i ms).map (fun e => (e.1, e.2.shape)) = (namedFrom l i ms').map (fun e => (e.1, e.2.shape)) := by
  induction h generalizing i with
  | nil => rfl
  | cons h _ ih =>
    simp only [namedFrom, List.map_append, List.map_map, ih]
    congr 1
    have := congrArg (List.map (fun e : String × List ℕ => (regionKey l i e.1, e.2))) (like_shapes h)
    simpa [Function.comp_def] using this

theorem sameEntries_of_shapes {d d' : StateDict K} (h : d.map (fun e => (e.1, e.2.shape)) = d'.map (fun e => (e.1, e.2.shape))) : SameEntries d d' := by
  have key : ∀ (d : StateDict K) (k : Key) (s : List ℕ), (∃ t, (k, t) ∈ d ∧ t.shape = s) ↔ (k, s) ∈ d.map (fun e => (e.1, e.2.shape)) := by
    intro d k s
    rw [List.mem_map]
    constructor
    · rintro ⟨t, ht, rfl⟩; exact ⟨_, ht, rfl⟩
    · rintro ⟨⟨k', t⟩, ht, h⟩
      simp only [Prod.mk.injEq] at h
      obtain ⟨rfl, rfl⟩ := h
      exact ⟨t, ht, rfl⟩
  intro k s
  rw [key, key, h]

theorem loadedValue_eq {d : StateDict K} {k : Key} {t t' : Tensor K} (h : lookupKey d k = some t) (hs : t.shape = t'.shape) : loadedValue d k t' = t := by
  unfold loadedValue; rw [h]; simp [hs]

theorem load_like [Zero K] {d : StateDict K} (hd : (d.map Prod.fst).Nodup) {l : String} {ms ms' : List (Module K)} (h : List.Forall₂ Like ms ms') (i : ℕ)
    (hm : ∀ e ∈ namedFrom l i ms, e ∈ d) : loadFrom d l i ms' = ms := by
  induction h generalizing i with
  | nil => rfl
  | cons h _ ih =>
    rename_i m m' ms ms' _
    simp only [loadFrom]
    rw [ih (i + 1) (fun e he => hm e (by simp only [namedFrom, List.mem_append]; exact Or.inr he))]
    congr 1
    have hk : ∀ e ∈ m.named, lookupKey d (regionKey l i e.1) = some e.2 := fun e he =>
      lookup_of_mem hd (hm _ (by simp only [namedFrom, List.mem_append, List.mem_map]; exact Or.inl ⟨e, he, rfl⟩))
    cases h with
    | region h hb =>
      rename_i t t' b b'
      have h1 := hk ("tensor", t) (by simp [Module.named])
      simp only [Module.mapNamed]
      rw [loadedValue_eq h1 h]
      cases b with
      | none => cases b' with
        | none => rfl
        | some _ => simp at hb
      | some b => cases b' with
        | none => simp at hb
        | some b' =>
          have h2 := hk ("bias_mat", b) (by simp [Module.named])
          simp only [Option.map_some, Option.some.injEq] at hb
          simp only [Option.map_some]
          rw [loadedValue_eq h2 hb]
    | mergedInput h =>
      rename_i t t'
      simp only [Module.mapNamed, Module.setTensor, Module.tensor]
      rw [loadedValue_eq (hk ("tensor", t) (by simp [Module.named, Module.tensor])) h]
    | site h =>
      rename_i t t'
      simp only [Module.mapNamed, Module.setTensor, Module.tensor]
      rw [loadedValue_eq (hk ("tensor", t) (by simp [Module.named, Module.tensor])) h]
    | out h =>
      rename_i t t'
      simp only [Module.mapNamed, Module.setTensor, Module.tensor]
      rw [loadedValue_eq (hk ("tensor", t) (by simp [Module.named, Module.tensor])) h]
    | mergedOutput h =>
      rename_i t t' b
      simp only [Module.mapNamed, Module.setTensor, Module.tensor]
      rw [loadedValue_eq (hk ("tensor", t) (by simp [Module.named, Module.tensor])) h]

theorem mps_like (k : ℕ) (ub : Bool) (p p' : Params K) (m m' : MPS K) (h : IsMps k ub p m) (h' : IsMps k ub p' m') (hs : SameArgs m m') :
    List.Forall₂ Like m.modules m'.modules := by
  have h1 : p.left.shape = p'.left.shape := by rw [h.left, h'.left, hs.bondDim, hs.featureDim]
  have h2 : p.leftBias.shape = p'.leftBias.shape := by rw [h.leftBias, h'.leftBias, hs.bondDim]
  have h3 : p.out.shape = p'.out.shape := by rw [h.out, h'.out, hs.bondDim, hs.outputDim]
  have h4 : p.right.shape = p'.right.shape := by rw [h.right, h'.right, hs.bondDim, hs.featureDim, hs.inputDim]
  have h5 : p.rightBias.shape = p'.rightBias.shape := by rw [h.rightBias, h'.rightBias, hs.bondDim]
  rw [h.modules, h'.modules, hs.inputDim]
  have hr : Like (Module.inputRegion p.right (if ub then some p.rightBias else none)) (.inputRegion p'.right (if ub then some p'.rightBias else none)) :=
    .region h4 (by cases ub <;> simp [h5])
  have hl : Like (Module.inputRegion p.left (if ub then some p.leftBias else none)) (.inputRegion p'.left (if ub then some p'.leftBias else none)) :=
    .region h1 (by cases ub <;> simp [h2])
  have ho : Like (Module.outputSite p.out) (.outputSite p'.out) := .out h3
  by_cases hk : k = 0 <;> by_cases hn : k = m'.inputDim <;> simp [hk, hn] <;> first | assumption | skip
  all_goals simp_all

/-- C87: the state of a model loaded into another model made with the same arguments: the other model becomes the same as the first one, except for the
feature map, which is not part of the state. -/
theorem C87_mps [Zero K] (k : ℕ) (ub : Bool) (p p' : Params K) (m m' : MPS K) (h : IsMps k ub p m) (h' : IsMps k ub p' m') (hs : SameArgs m m') :
    m'.loadStateDict m.stateDict = (.ok (), { m with featureMap := m'.featureMap }) := by
  have hl := mps_like k ub p p' m m' h h' hs
  have hn : (m.stateDict.map Prod.fst).Nodup := named_nodup _ _ _
  unfold MPS.loadStateDict
  rw [(C87_accepts_iff m.stateDict m'.stateDict hn).2 (sameEntries_of_shapes (like_from hl 0)),
    load_like hn hl 0 (fun e he => he)]
  obtain ⟨h1, h2, h3, h4, h5, h6, h7⟩ := hs
  rw [h1, h2, h3, h4, h5, h6, h7]

/-- C87: save a trained model, construct a model with the same arguments in another process (other random draws), load the state, and register the feature map
again: every call gives what it gave before. -/
theorem C87_mps_restored (d d' : Draws) (a : MpsArgs) (k : ℕ) (hk : k ≤ a.inputDim)
    (hl : a.labelSite = some (k : ℤ) ∨ (a.labelSite = none ∧ k = a.inputDim / 2)) (path : Option (List ℤ))
    (hp : checkPath a.path a.inputDim = .ok path) (m0 m : MPS ℝ) (h0 : MPS.init d a = .ok m0) (p : Params ℝ)
    (h : IsMps k a.useBias p m) (hm : SameArgs m m0) :
    ∃ m', MPS.init d' a = .ok m' ∧ (m'.loadStateDict m.stateDict).1 = .ok () ∧
      (∀ x g, ({ (m'.loadStateDict m.stateDict).2 with featureMap := m.featureMap } : MPS ℝ).forward x g = m.forward x g) ∧
      (m.featureMap = none → ∀ x g, (m'.loadStateDict m.stateDict).2.forward x g = m.forward x g) := by
  obtain ⟨n0, p0, q1, q2, q3, q4, q5, q6, q7, q8, q9, -⟩ := C55_construction d a k hk hl path hp
  rw [h0] at q1
  cases q1
  obtain ⟨m', p', r1, r2, r3, r4, r5, r6, r7, r8, r9, r10⟩ := C55_construction d' a k hk hl path hp
  obtain ⟨s1, s2, s3, s4, s5, s6, s7⟩ := hm
  have hs : SameArgs m m' := ⟨by rw [s1, q3, r3], by rw [s2, q4, r4], by rw [s3, q5, r5], by rw [s4, q6, r6], by rw [s5, q7, r7], by rw [s6, q8, r8], by rw [s7, q9, r9]⟩
  refine ⟨m', r1, ?_⟩
  rw [C87_mps k a.useBias p p' m m' h r2 hs]
  refine ⟨rfl, fun x g => rfl, fun hf x g => ?_⟩
  simp only [r10]
  rw [← hf]

theorem lookup_shape {d d' : StateDict K} (hd : (d.map Prod.fst).Nodup) (hd' : (d'.map Prod.fst).Nodup) (h : SameEntries d d') (k : Key) :
    (lookupKey d k).map Tensor.shape = (lookupKey d' k).map Tensor.shape := by
  have a := fun s => (fits_iff hd k s).trans ((h k s).trans (fits_iff hd' k s).symm)
  unfold Fits at a
  cases h1 : lookupKey d k with
  | none => cases h2 : lookupKey d' k with
    | none => rfl
    | some t => rw [h1, h2] at a; exact ((a t.shape).2 rfl).elim
  | some t => cases h2 : lookupKey d' k with
    | none => rw [h1, h2] at a; exact ((a t.shape).1 rfl).elim
    | some t' =>
      rw [h1, h2] at a
      have : t'.shape = t.shape := (a t.shape).1 rfl
      simp [this]

theorem mps_modules {k : ℕ} {ub : Bool} {p : Params K} {m : MPS K} (h : IsMps k ub p m) :
    (k = 0 ∧ k = m.inputDim ∧ m.modules = [.outputSite p.out]) ∨
    (k = 0 ∧ k ≠ m.inputDim ∧ m.modules = [.outputSite p.out, .inputRegion p.right (if ub then some p.rightBias else none)]) ∨
    (k ≠ 0 ∧ k = m.inputDim ∧ m.modules = [.inputRegion p.left (if ub then some p.leftBias else none), .outputSite p.out]) ∨
    (k ≠ 0 ∧ k ≠ m.inputDim ∧ m.modules = [.inputRegion p.left (if ub then some p.leftBias else none), .outputSite p.out,
      .inputRegion p.right (if ub then some p.rightBias else none)]) := by
  rw [h.modules]
  by_cases c1 : k = 0 <;> by_cases c2 : k = m.inputDim
  · rw [if_pos c1, if_pos c2]; left; exact ⟨c1, c2, rfl⟩
  · rw [if_pos c1, if_neg c2]; right; left; exact ⟨c1, c2, rfl⟩
  · rw [if_neg c1, if_pos c2]; right; right; left; exact ⟨c1, c2, rfl⟩
  · rw [if_neg c1, if_neg c2]; right; right; right; exact ⟨c1, c2, rfl⟩

theorem bias_shape [Zero K] {u u' : Bool} {t t' : Tensor K} {D D' : ℕ} (h1 : t.shape = [1, D, D]) (h2 : t'.shape = [1, D', D'])
    (h3 : ((if u then some t else none).getD (⟨[0], fun _ => 0⟩ : Tensor K)).shape = ((if u' then some t' else none).getD ⟨[0], fun _ => 0⟩).shape) : u = u' := by
  cases u <;> cases u' <;> simp_all

/-- The state of a model is accepted by another one if and only if they have the same number of pixels and outputs, the same label site and bond dimension, and -
unless there are no pixels - the same feature dimension and both or neither use bias matrices. Otherwise RuntimeError. The boundary conditions, the path and
parallel evaluation are not checked. -/
theorem C87_mps_accepts_iff [Zero K] (k k' : ℕ) (ub ub' : Bool) (p p' : Params K) (m m' : MPS K) (h : IsMps k ub p m) (h' : IsMps k' ub' p' m') :
    ((m'.loadStateDict m.stateDict).1 = .ok () ↔ m.inputDim = m'.inputDim ∧ m.outputDim = m'.outputDim ∧ m.bondDim = m'.bondDim ∧ k = k' ∧
      (m.inputDim ≠ 0 → m.featureDim = m'.featureDim ∧ ub = ub')) ∧
    ((m'.loadStateDict m.stateDict).1 ≠ .ok () → (m'.loadStateDict m.stateDict).1 = .error .runtime) := by
  refine ⟨?_, fun hne => (loadResult_cases _ _).resolve_left hne⟩
  have e := C87_accepts_iff m.stateDict m'.stateDict (named_nodup _ _ _)
  change loadResult m.stateDict m'.stateDict = .ok () ↔ _
  rw [e]
  have hkl := h.label
  have hkl' := h'.label
  constructor
  · intro hse
    have lk := fun i s => lookup_shape (named_nodup _ _ _) (named_nodup _ _ _) hse (regionKey "module_list" i s)
    have t0 := lk 0 "tensor"
    have b0 := lk 0 "bias_mat"
    have t1 := lk 1 "tensor"
    have b1 := lk 1 "bias_mat"
    have t2 := lk 2 "tensor"
    have b2 := lk 2 "bias_mat"
    clear hse e lk
    unfold MPS.stateDict at *
    rcases mps_modules h with ⟨c1, c2, c⟩ | ⟨c1, c2, c⟩ | ⟨c1, c2, c⟩ | ⟨c1, c2, c⟩ <;>
    rcases mps_modules h' with ⟨c3, c4, c'⟩ | ⟨c3, c4, c'⟩ | ⟨c3, c4, c'⟩ | ⟨c3, c4, c'⟩ <;>
      rw [c, c'] at t0 b0 t1 b1 t2 b2 <;>
      simp only [namedFrom, Module.named, Module.tensor, lookupKey, List.map_cons, List.map_nil, List.cons_append, List.nil_append, key_inj, Nat.reduceAdd,
        String.reduceEq, Nat.reduceEqDiff, and_true, and_false, if_true, if_false, Option.map_some, Option.map_none, Option.some.injEq, reduceCtorEq,
        h.left, h'.left, h.right, h'.right, h.out, h'.out, List.cons.injEq, true_and, false_and, one_ne_zero, zero_ne_one, OfNat.ofNat_ne_one, OfNat.ofNat_ne_zero,
        OfNat.one_ne_ofNat, OfNat.zero_ne_ofNat] at t0 b0 t1 b1 t2 b2
    · exact ⟨by omega, t0.1, t0.2.1, by omega, fun hn => absurd (by omega) hn⟩
    · exact ⟨by omega, t0.1, t0.2.1, by omega, fun _ => ⟨t1.2.2.2, bias_shape h.rightBias h'.rightBias b1⟩⟩
    · exact ⟨by omega, t1.1, t1.2.1, by omega, fun _ => ⟨t0.2.2.2, bias_shape h.leftBias h'.leftBias b0⟩⟩
    · exact ⟨by omega, t1.1, t1.2.1, by omega, fun _ => ⟨t0.2.2.2, bias_shape h.leftBias h'.leftBias b0⟩⟩
  · rintro ⟨e1, e2, e3, rfl, e4⟩
    by_cases hn : m.inputDim = 0
    · have hk : k = 0 := by omega
      rcases mps_modules h with ⟨c1, c2, c⟩ | ⟨c1, c2, c⟩ | ⟨c1, c2, c⟩ | ⟨c1, c2, c⟩ <;> try omega
      rcases mps_modules h' with ⟨c3, c4, c'⟩ | ⟨c3, c4, c'⟩ | ⟨c3, c4, c'⟩ | ⟨c3, c4, c'⟩ <;> try omega
      refine sameEntries_of_shapes ?_
      unfold MPS.stateDict
      rw [c, c']
      simp [namedFrom, Module.named, Module.tensor, h.out, h'.out, e2, e3]
    · obtain ⟨e5, rfl⟩ := e4 hn
      have hl := mps_like k ub p p' m { m' with periodic := m.periodic, parallel := m.parallel, path := m.path }
        h ⟨h'.label, h'.modules, h'.left, h'.leftBias, h'.out, h'.right, h'.rightBias⟩ ⟨e1, e2, e3, e5, rfl, rfl, rfl⟩
      exact sameEntries_of_shapes (like_from hl 0)

/-! ### TI_MPS -/

theorem ti_nodup (m : TiMps K) : (m.stateDict.map Prod.fst).Nodup := by
  unfold TiMps.stateDict
  cases m.biasMat <;> simp

/-- C87: TI_MPS. The state of one model is accepted by another exactly if bond dimension, feature dimension and number of outputs are the same and both or neither
use a bias matrix, and then the other one has the tensors of the first - whatever is fixed in either of them: also a `fixed` bias matrix or end vector
is replaced. Otherwise RuntimeError. -/
theorem C87_ti_mps [Zero K] [One K] (m m' : TiMps K) (h : IsTi m) (h' : IsTi m') (hb : m.useBias = false → m.biasMat = none)
    (hb' : m'.useBias = false → m'.biasMat = none) :
    (m.bondDim = m'.bondDim ∧ m.featureDim = m'.featureDim ∧ m.outputDim = m'.outputDim ∧ m.useBias = m'.useBias →
      m'.loadStateDict m.stateDict = (.ok (), { m' with core := m.core, biasMat := m.biasMat, initVec := m.initVec, termMat := m.termMat })) ∧
    (¬ (m.bondDim = m'.bondDim ∧ m.featureDim = m'.featureDim ∧ m.outputDim = m'.outputDim ∧ m.useBias = m'.useBias) →
      (m'.loadStateDict m.stateDict).1 = .error .runtime) := by
  have e := C87_accepts_iff m.stateDict m'.stateDict (ti_nodup m)
  constructor
  · rintro ⟨e1, e2, e3, e4⟩
    have s1 : m.core.shape = m'.core.shape := by rw [h.core, h'.core, e1, e2]
    have s2 : m.initVec.shape = m'.initVec.shape := by rw [h.initVec, h'.initVec, e1]
    have s3 : m.termMat.shape = m'.termMat.shape := by rw [h.termMat, h'.termMat, e1, e3]
    have s4 : m.biasMat.map Tensor.shape = m'.biasMat.map Tensor.shape := by
      cases hu : m.useBias with
      | false => rw [hb hu, hb' (by rw [← e4]; exact hu)]
      | true =>
        obtain ⟨b, b1, b2⟩ := h.bias hu
        obtain ⟨b', b1', b2'⟩ := h'.bias (by rw [← e4]; exact hu)
        rw [b1, b1', Option.map_some, Option.map_some, b2, b2', e1]
    have hse : SameEntries m.stateDict m'.stateDict := by
      refine sameEntries_of_shapes ?_
      unfold TiMps.stateDict
      cases hm : m.biasMat <;> cases hm' : m'.biasMat <;> simp_all
    unfold TiMps.loadStateDict
    rw [e.2 hse]
    have l1 : lookupKey m.stateDict [.name "core_tensor"] = some m.core := by unfold TiMps.stateDict; simp [lookupKey]
    have l2 : lookupKey m.stateDict [.name "init_vector", .name "vec"] = some m.initVec := by
      unfold TiMps.stateDict; cases m.biasMat <;> simp [lookupKey]
    have l3 : lookupKey m.stateDict [.name "terminal_mat", .name "mat"] = some m.termMat := by
      unfold TiMps.stateDict; cases m.biasMat <;> simp [lookupKey]
    rw [loadedValue_eq l1 s1, loadedValue_eq l2 s2, loadedValue_eq l3 s3]
    congr 1
    congr 1
    cases hm : m.biasMat with
    | none => cases hm' : m'.biasMat with
      | none => rfl
      | some _ => rw [hm, hm'] at s4; simp at s4
    | some b => cases hm' : m'.biasMat with
      | none => rw [hm, hm'] at s4; simp at s4
      | some b' =>
        rw [hm, hm'] at s4
        simp only [Option.map_some, Option.some.injEq] at s4
        have l4 : lookupKey m.stateDict [.name "bias_mat"] = some b := by unfold TiMps.stateDict; simp [hm, lookupKey]
        rw [Option.map_some, loadedValue_eq l4 s4]
  · intro hn
    refine (loadResult_cases _ _).resolve_left fun hok => hn ?_
    have hse := e.1 hok
    have lk := lookup_shape (ti_nodup m) (ti_nodup m') hse
    have k1 := lk [.name "core_tensor"]
    have k2 := lk [.name "terminal_mat", .name "mat"]
    have k3 := lk [.name "bias_mat"]
    have f1 : ∀ n : TiMps K, lookupKey n.stateDict [.name "core_tensor"] = some n.core := by intro n; unfold TiMps.stateDict; simp [lookupKey]
    have f2 : ∀ n : TiMps K, lookupKey n.stateDict [.name "terminal_mat", .name "mat"] = some n.termMat := by
      intro n; unfold TiMps.stateDict; cases n.biasMat <;> simp [lookupKey]
    have f3 : ∀ n : TiMps K, lookupKey n.stateDict [.name "bias_mat"] = n.biasMat := by
      intro n; unfold TiMps.stateDict; cases n.biasMat <;> simp [lookupKey]
    rw [f1, f1, Option.map_some, Option.map_some, h.core, h'.core] at k1
    rw [f2, f2, Option.map_some, Option.map_some, h.termMat, h'.termMat] at k2
    rw [f3, f3] at k3
    simp only [Option.some.injEq, List.cons.injEq, and_true] at k1 k2
    refine ⟨k1.1, k1.2.2, k2.2, ?_⟩
    cases hu : m.useBias <;> cases hu' : m'.useBias
    · rfl
    · obtain ⟨b, b1, -⟩ := h'.bias hu'
      rw [hb hu, b1] at k3; simp at k3
    · obtain ⟨b, b1, -⟩ := h.bias hu
      rw [hb' hu', b1] at k3; simp at k3
    · rfl

end TorchMPS
