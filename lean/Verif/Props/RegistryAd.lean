import Verif.Props.Registry
import Verif.Props.AdaptiveHeap
import Verif.Props.AdaptiveRecover
/-
C88: saving and loading in adaptive mode.
-/
namespace TorchMPS
open Spec

/-- the state of the modules of a list -/
def tensorsFrom (l : String) : ℕ → List (Module ℝ) → StateDict ℝ
  | _, [] => []
  | i, m :: ms => (regionKey l i "tensor", m.tensor) :: tensorsFrom l (i + 1) ms

theorem slots_vals (h : Heap) (l : String) (i : ℕ) (L : List ℕ) : (slotsFrom l i L).map (fun s => (s.1, (h.mem s.2).tensor)) = tensorsFrom l i (h.vals L) := by
  induction L generalizing i with
  | nil => rfl
  | cons j L ih => simp only [slotsFrom, List.map_cons, ih, Heap.vals, tensorsFrom]

theorem state_eq (m : HMps) : m.stateDict = tensorsFrom "module_list" 0 (m.region.heap.vals m.region.active) ++
    tensorsFrom "module_list_0" 0 (m.region.heap.vals m.region.list0) ++ tensorsFrom "module_list_1" 0 (m.region.heap.vals m.region.list1) := by
  unfold HMps.stateDict HRegion.slots
  rw [List.map_append, List.map_append, slots_vals, slots_vals, slots_vals]

theorem tensors_key {l : String} {i : ℕ} {ms : List (Module ℝ)} {e : Key × Tensor ℝ} (h : e ∈ tensorsFrom l i ms) : ∃ j, i ≤ j ∧ e.1 = regionKey l j "tensor" := by
  induction ms generalizing i with
  | nil => simp [tensorsFrom] at h
  | cons m ms ih =>
    simp only [tensorsFrom, List.mem_cons] at h
    rcases h with rfl | h
    · exact ⟨i, le_refl _, rfl⟩
    · obtain ⟨j, hj, he⟩ := ih h
      exact ⟨j, by omega, he⟩

theorem tensors_nodup (l : String) (i : ℕ) (ms : List (Module ℝ)) : ((tensorsFrom l i ms).map Prod.fst).Nodup := by
  induction ms generalizing i with
  | nil => simp [tensorsFrom]
  | cons m ms ih =>
    simp only [tensorsFrom, List.map_cons, List.nodup_cons]
    refine ⟨fun h => ?_, ih _⟩
    obtain ⟨e, he, hk⟩ := List.mem_map.1 h
    obtain ⟨j, hj, he⟩ := tensors_key he
    rw [hk] at he
    have := (key_inj.1 he).2.1
    omega

theorem state_nodup (m : HMps) : (m.stateDict.map Prod.fst).Nodup := by
  rw [state_eq, List.map_append, List.map_append]
  have hd : ∀ (l l' : String) (i i' : ℕ) (ms ms' : List (Module ℝ)), l ≠ l' → ∀ a ∈ (tensorsFrom l i ms).map Prod.fst, ∀ b ∈ (tensorsFrom l' i' ms').map Prod.fst, a ≠ b := by
    rintro l l' i i' ms ms' hl a ha b hb rfl
    obtain ⟨e, he, hk⟩ := List.mem_map.1 ha
    obtain ⟨e', he', hk'⟩ := List.mem_map.1 hb
    obtain ⟨j, -, h1⟩ := tensors_key he
    obtain ⟨j', -, h2⟩ := tensors_key he'
    rw [hk] at h1
    rw [hk', h1] at h2
    exact hl (key_inj.1 h2).1
  rw [List.nodup_append, List.nodup_append]
  refine ⟨⟨tensors_nodup _ _ _, tensors_nodup _ _ _, hd _ _ _ _ _ _ (by simp)⟩, tensors_nodup _ _ _, fun a ha b hb => ?_⟩
  rcases List.mem_append.1 ha with ha | ha
  · exact hd _ _ _ _ _ _ (by simp) a ha b hb
  · exact hd _ _ _ _ _ _ (by simp) a ha b hb

/-! ### the copies -/

theorem load_append (d : StateDict ℝ) (h : Heap) (ss ss' : List (Key × ℕ)) : hLoad d h (ss ++ ss') = hLoad d (hLoad d h ss) ss' := by
  induction ss generalizing h with
  | nil => rfl
  | cons s ss ih => simp only [List.cons_append, hLoad, ih]

theorem load_next (d : StateDict ℝ) (h : Heap) (ss : List (Key × ℕ)) : (hLoad d h ss).next = h.next := by
  induction ss generalizing h with
  | nil => rfl
  | cons s ss ih => simp only [hLoad, ih]; rfl

theorem load_other (d : StateDict ℝ) (l : String) (i : ℕ) (L : List ℕ) (h : Heap) (j : ℕ) (hj : j ∉ L) : (hLoad d h (slotsFrom l i L)).mem j = h.mem j := by
  induction L generalizing i h with
  | nil => rfl
  | cons a L ih =>
    rw [List.mem_cons, not_or] at hj
    simp only [slotsFrom, hLoad]
    rw [ih _ _ hj.2]
    simp [Heap.write, Function.update_of_ne hj.1]

theorem loadedValue_shape (d : StateDict ℝ) (k : Key) (t : Tensor ℝ) : (loadedValue d k t).shape = t.shape := by
  unfold loadedValue
  split
  · split
    · assumption
    · rfl
  · rfl

theorem shaped_set (D F O : ℕ) (κ : Kind) (m : Module ℝ) (h : κ.Shaped D F O m) (t : Tensor ℝ) (ht : t.shape = m.tensor.shape) : κ.Shaped D F O (m.setTensor t) := by
  cases κ <;> cases m <;> simp_all [Kind.Shaped, Module.setTensor, Module.tensor]

theorem load_shaped (d : StateDict ℝ) (D F O : ℕ) (κ : Kind) (j : ℕ) (ss : List (Key × ℕ)) (h : Heap) (hs : κ.Shaped D F O (h.mem j)) :
    κ.Shaped D F O ((hLoad d h ss).mem j) := by
  induction ss generalizing h with
  | nil => exact hs
  | cons s ss ih =>
    simp only [hLoad]
    refine ih _ ?_
    by_cases hj : j = s.2
    · subst hj
      simp only [Heap.write, Function.update_self]
      exact shaped_set D F O κ _ hs _ (loadedValue_shape _ _ _)
    · simp only [Heap.write, Function.update_of_ne hj]
      exact hs

theorem load_shapes (d : StateDict ℝ) (D F O : ℕ) (ks : List Kind) (L : List ℕ) (ss : List (Key × ℕ)) (h : Heap)
    (hs : List.Forall₂ (fun κ m => κ.Shaped D F O m) ks (h.vals L)) : List.Forall₂ (fun κ m => κ.Shaped D F O m) ks ((hLoad d h ss).vals L) := by
  unfold Heap.vals at *
  rw [List.forall₂_map_right_iff] at *
  exact hs.imp fun κ j hj => load_shaped d D F O κ j ss h hj

theorem shaped_same (D F O : ℕ) (κ : Kind) (m m' : Module ℝ) (h : κ.Shaped D F O m) (h' : κ.Shaped D F O m') :
    m'.setTensor m.tensor = m ∧ m.tensor.shape = m'.tensor.shape := by
  cases κ <;> cases m <;> simp only [Kind.Shaped] at h <;> cases m' <;> simp only [Kind.Shaped] at h' <;> simp_all [Module.setTensor, Module.tensor]
  
theorem load_vals (d : StateDict ℝ) (hd : (d.map Prod.fst).Nodup) (D F O : ℕ) (ks : List Kind) (l : String) (i : ℕ) (ms : List (Module ℝ)) (L : List ℕ) (h : Heap)
    (hn : L.Nodup) (hm : List.Forall₂ (fun κ m => κ.Shaped D F O m) ks ms) (hL : List.Forall₂ (fun κ m => κ.Shaped D F O m) ks (h.vals L))
    (hsub : ∀ e ∈ tensorsFrom l i ms, e ∈ d) : (hLoad d h (slotsFrom l i L)).vals L = ms := by
  induction L generalizing i ms h ks with
  | nil =>
    cases hL
    cases hm
    rfl
  | cons j L ih =>
    rw [List.nodup_cons] at hn
    change List.Forall₂ _ ks (h.mem j :: h.vals L) at hL
    cases hL with
    | cons h1 hL =>
      rename_i κ ks
      cases hm with
      | cons h2 hm =>
        rename_i m ms
        obtain ⟨e1, e2⟩ := shaped_same D F O κ m (h.mem j) h2 h1
        have hk := lookup_of_mem hd (hsub (regionKey l i "tensor", m.tensor) (by simp [tensorsFrom]))
        simp only [slotsFrom, hLoad, loadedValue_eq hk e2, e1]
        change (hLoad d (h.write j m) (slotsFrom l (i + 1) L)).mem j :: (hLoad d (h.write j m) (slotsFrom l (i + 1) L)).vals L = m :: ms
        rw [load_other d l (i + 1) L _ j hn.1]
        congr 1
        · simp [Heap.write]
        · refine ih ks (i + 1) ms (h.write j m) hn.2 hm ?_ (fun e he => hsub e (by simp only [tensorsFrom]; exact List.mem_cons_of_mem _ he))
          have : (h.write j m).vals L = h.vals L := by
            unfold Heap.vals
            refine List.map_congr_left fun a ha => ?_
            have : a ≠ j := fun hh => hn.1 (hh ▸ ha)
            simp [Heap.write, Function.update_of_ne this]
          rw [this]
          exact hL

/-! ### the outcome -/

theorem tensors_shapes (D F O : ℕ) (ks : List Kind) (l : String) (i : ℕ) (ms ms' : List (Module ℝ)) (hm : List.Forall₂ (fun κ m => κ.Shaped D F O m) ks ms)
    (hm' : List.Forall₂ (fun κ m => κ.Shaped D F O m) ks ms') :
    (tensorsFrom l i ms).map (fun e => (e.1, e.2.shape)) = (tensorsFrom l i ms').map (fun e => (e.1, e.2.shape)) := by
  induction hm generalizing i ms' with
  | nil => cases hm'; rfl
  | cons h _ ih =>
    cases hm' with
    | cons h' hm' =>
      simp only [tensorsFrom, List.map_cons, List.cons.injEq, Prod.mk.injEq, true_and]
      exact ⟨(shaped_same D F O _ _ _ h h').2, ih _ _ hm'⟩

/-- the first module of a chain merged from position 1 on has three axes, merged from position 0 on more -/
theorem first_axes (D F O p k n : ℕ) (hp : p ≤ 1) (hk : k ≤ n) (hn : 2 ≤ n) (ms : List (Module ℝ)) (h : MergedShape D F O p k n ms) :
    ∃ m ms', ms = m :: ms' ∧ (p = 1 ↔ m.tensor.shape.length = 3) := by
  have hl : ∃ κ ks, layout p k n = κ :: ks ∧ ((p = 1 ∧ ((∃ i, κ = .site i) ∨ κ = .out)) ∨ (p = 0 ∧ ((∃ i c, κ = .pairs i c) ∨ ∃ i b, κ = .mout i b))) := by
    obtain rfl | rfl : p = 0 ∨ p = 1 := by omega
    · unfold layout leftKinds
      simp only [zero_ne_one, if_false, List.nil_append, Nat.sub_zero]
      split_ifs <;> first | omega | simp
    · unfold layout leftKinds
      split_ifs <;> first | omega | simp
  obtain ⟨κ, ks, hκ, hc⟩ := hl
  unfold MergedShape at h
  rw [hκ] at h
  cases h with
  | @cons _ m _ ms' h _ =>
    refine ⟨m, ms', rfl, ?_⟩
    rcases hc with ⟨rfl, ⟨i, rfl⟩ | rfl⟩ | ⟨rfl, ⟨i, c, rfl⟩ | ⟨i, b, rfl⟩⟩ <;> cases m <;> simp_all [Kind.Shaped, Module.tensor]

/-- C88: loading the state of a model in adaptive mode into a model of the same architecture (each after any history of training and flips in which no flip failed).
It succeeds if both are in the same merge state, otherwise it raises RuntimeError; but in both cases the cores of both merge states are afterwards those of the
saved model, while merge state, counter, bond dimensions and singular values are those the receiving model had before. -/
theorem C88_load (k : ℕ) (m m' : HMps) (h : Proper m) (h' : Proper m') (ha : IsAdMps k (HMps.read m)) (ha' : IsAdMps k (HMps.read m'))
    (hn : m.mps.inputDim = m'.mps.inputDim) (hO : m.mps.outputDim = m'.mps.outputDim) (hD : m.mps.bondDim = m'.mps.bondDim) (hF : m.mps.featureDim = m'.mps.featureDim) :
    (m'.loadStateDict m.stateDict).1 = (if m.region.offset = m'.region.offset then .ok () else .error .runtime) ∧
    HMps.read (m'.loadStateDict m.stateDict).2 =
      { HMps.read m' with region := { (HMps.read m').region with list0 := (HMps.read m).region.list0, list1 := (HMps.read m).region.list1 } } ∧
    (m'.loadStateDict m.stateDict).2.region.list0 = m'.region.list0 ∧ (m'.loadStateDict m.stateDict).2.region.list1 = m'.region.list1 ∧
    Proper (m'.loadStateDict m.stateDict).2 := by
  have s0 : MergedShape m'.mps.bondDim m'.mps.featureDim m'.mps.outputDim 0 k m'.mps.inputDim (m.region.heap.vals m.region.list0) := by
    have := ha.list0; rw [← hn, ← hO, ← hD, ← hF]; exact this
  have s1 : MergedShape m'.mps.bondDim m'.mps.featureDim m'.mps.outputDim 1 k m'.mps.inputDim (m.region.heap.vals m.region.list1) := by
    have := ha.list1; rw [← hn, ← hO, ← hD, ← hF]; exact this
  have t0 : MergedShape m'.mps.bondDim m'.mps.featureDim m'.mps.outputDim 0 k m'.mps.inputDim (m'.region.heap.vals m'.region.list0) := ha'.list0
  have t1 : MergedShape m'.mps.bondDim m'.mps.featureDim m'.mps.outputDim 1 k m'.mps.inputDim (m'.region.heap.vals m'.region.list1) := ha'.list1
  have hnd := state_nodup m
  have act : ∀ n : HMps, Proper n → (n.region.offset = 0 ∧ n.region.active = n.region.list0) ∨ (n.region.offset = 1 ∧ n.region.active = n.region.list1) := by
    intro n hp
    have := hp.offset
    obtain ho | ho : n.region.offset = 0 ∨ n.region.offset = 1 := by omega
    · exact Or.inl ⟨ho, by simp [HRegion.active, HRegion.listAt, hp.stray, ho]⟩
    · exact Or.inr ⟨ho, by simp [HRegion.active, HRegion.listAt, hp.stray, ho]⟩
  refine ⟨?_, ?_, rfl, rfl, ?_⟩
  · have e := C87_accepts_iff m.stateDict m'.stateDict hnd
    have sameAct : ∀ p, m.region.offset = p → m'.region.offset = p → loadResult m.stateDict m'.stateDict = .ok () := by
      intro p hp hp'
      refine e.2 (sameEntries_of_shapes ?_)
      rw [state_eq, state_eq]
      simp only [List.map_append]
      rw [tensors_shapes _ _ _ _ "module_list_0" 0 _ _ s0 t0, tensors_shapes _ _ _ _ "module_list_1" 0 _ _ s1 t1]
      congr 2
      rcases act m h with ⟨o, a⟩ | ⟨o, a⟩ <;> rcases act m' h' with ⟨o', a'⟩ | ⟨o', a'⟩ <;> rw [a, a']
      · exact tensors_shapes _ _ _ _ _ 0 _ _ s0 t0
      · omega
      · omega
      · exact tensors_shapes _ _ _ _ _ 0 _ _ s1 t1
    split
    · rename_i ho
      exact sameAct _ ho rfl
    · rename_i ho
      refine (loadResult_cases _ _).resolve_left fun hok => ho ?_
      have lk := lookup_shape hnd (state_nodup m') (e.1 hok) (regionKey "module_list" 0 "tensor")
      have hfirst : ∀ (n : HMps) (p : ℕ) (c : Module ℝ) (cs : List (Module ℝ)), n.region.heap.vals n.region.active = c :: cs →
          lookupKey n.stateDict (regionKey "module_list" 0 "tensor") = some c.tensor := by
        intro n p c cs hc
        rw [state_eq, hc]
        simp [tensorsFrom, lookupKey]
      have kn := ha'.label
      have nn := ha'.size
      have ax : ∀ n : HMps, Proper n → MergedShape m'.mps.bondDim m'.mps.featureDim m'.mps.outputDim 0 k m'.mps.inputDim (n.region.heap.vals n.region.list0) →
          MergedShape m'.mps.bondDim m'.mps.featureDim m'.mps.outputDim 1 k m'.mps.inputDim (n.region.heap.vals n.region.list1) →
          ∃ c, lookupKey n.stateDict (regionKey "module_list" 0 "tensor") = some c ∧ (n.region.offset = 1 ↔ c.shape.length = 3) := by
        intro n hp q0 q1
        rcases act n hp with ⟨o, a⟩ | ⟨o, a⟩
        · obtain ⟨c, cs, c1, c2⟩ := first_axes _ _ _ 0 k _ (by omega) kn nn _ q0
          exact ⟨c.tensor, hfirst n 0 c cs (by rw [a]; exact c1), by rw [o]; exact c2⟩
        · obtain ⟨c, cs, c1, c2⟩ := first_axes _ _ _ 1 k _ (by omega) kn nn _ q1
          exact ⟨c.tensor, hfirst n 0 c cs (by rw [a]; exact c1), by rw [o]; exact c2⟩
      obtain ⟨c, c1, c2⟩ := ax m h s0 s1
      obtain ⟨c', c1', c2'⟩ := ax m' h' t0 t1
      rw [c1, c1', Option.map_some, Option.map_some, Option.some.injEq] at lk
      have := h.offset
      have := h'.offset
      rw [lk, ← c2'] at c2
      omega
  · have hsub0 : ∀ e ∈ tensorsFrom "module_list_0" 0 (m.region.heap.vals m.region.list0), e ∈ m.stateDict := by
      intro e he; rw [state_eq]; exact List.mem_append_left _ (List.mem_append_right _ he)
    have hsub1 : ∀ e ∈ tensorsFrom "module_list_1" 0 (m.region.heap.vals m.region.list1), e ∈ m.stateDict := by
      intro e he; rw [state_eq]; exact List.mem_append_right _ he
    obtain ⟨n0, n1, n2⟩ := List.nodup_append.1 h'.nodup
    have key : (hLoad m.stateDict m'.region.heap m'.region.slots).vals m'.region.list0 = m.region.heap.vals m.region.list0 ∧
        (hLoad m.stateDict m'.region.heap m'.region.slots).vals m'.region.list1 = m.region.heap.vals m.region.list1 := by
      unfold HRegion.slots
      rw [load_append, load_append]
      set h1 := hLoad m.stateDict m'.region.heap (slotsFrom "module_list" 0 m'.region.active)
      have w0 : MergedShape m'.mps.bondDim m'.mps.featureDim m'.mps.outputDim 0 k m'.mps.inputDim (h1.vals m'.region.list0) := load_shapes _ _ _ _ _ _ _ _ t0
      have w1 : MergedShape m'.mps.bondDim m'.mps.featureDim m'.mps.outputDim 1 k m'.mps.inputDim (h1.vals m'.region.list1) := load_shapes _ _ _ _ _ _ _ _ t1
      have v0 := load_vals m.stateDict hnd _ _ _ _ "module_list_0" 0 _ m'.region.list0 h1 n0 s0 w0 hsub0
      set h2 := hLoad m.stateDict h1 (slotsFrom "module_list_0" 0 m'.region.list0)
      have w2 : MergedShape m'.mps.bondDim m'.mps.featureDim m'.mps.outputDim 1 k m'.mps.inputDim (h2.vals m'.region.list1) := load_shapes _ _ _ _ _ _ _ _ w1
      have v1 := load_vals m.stateDict hnd _ _ _ _ "module_list_1" 0 _ m'.region.list1 h2 n1 s1 w2 hsub1
      refine ⟨?_, v1⟩
      rw [← v0]
      unfold Heap.vals
      refine List.map_congr_left fun a ha => ?_
      exact load_other _ _ _ _ _ a fun hb => n2 a ha a hb rfl
    unfold HMps.read HMps.loadStateDict
    simp only [key.1, key.2, h'.stray, Option.map_none]
  · refine ⟨h'.offset, fun i hi => ?_, h'.nodup, h'.stray⟩
    simp only [HMps.loadStateDict, load_next]
    exact h'.live i hi

/-- a call when no flip is due depends on the options of the model and the list of modules in use only -/
theorem undue_call (svd : Mat ℝ → SVD) (pop : List Char → Char) (m m' : AdMps) (hm : m.mps = m'.mps) (hc : m.region.counter < m.region.threshold)
    (hc' : m'.region.counter < m'.region.threshold) (ha : m.region.active = m'.region.active) (x : Tensor ℝ) (g : Option ℕ) :
    (m.forward svd pop x g).1 = (m'.forward svd pop x g).1 := by
  unfold AdMps.forward AdRegion.maybeFlip
  rw [hm]
  cases followPath m'.mps.path x >>= m'.mps.embedInput with
  | error e => rfl
  | ok e =>
    simp only [if_neg (not_le.2 hc), if_neg (not_le.2 hc')]
    have e1 : ∀ c, AdRegion.active { m.region with counter := c } = m.region.active := fun c => rfl
    have e2 : ∀ c, AdRegion.active { m'.region with counter := c } = m'.region.active := fun c => rfl
    rw [e1, e2, ha]
    generalize linearForward m'.region.active m'.mps.periodic m'.mps.parallel e g = z
    obtain ⟨z, g'⟩ := z
    cases z <;> rfl

theorem heap_call (svd : Mat ℝ → SVD) (pop : List Char → Char) (m : HMps) (h : Proper m) (x : Tensor ℝ) (g : Option ℕ) :
    (m.forward svd pop x g).1 = ((HMps.read m).forward svd pop x g).1 := by
  have := C86_results svd pop m h g [.call x]
  simpa [hResults, vResults, hStep, vStep] using this

theorem admps_mps (d : Draws) (a : MpsArgs) (cutoff : ℝ) (threshold : ℕ) (path : Option (List ℤ)) (hp : checkPath a.path a.inputDim = .ok path) (m : AdMps)
    (h : AdMps.init d a cutoff threshold = .ok m) :
    m.mps = ⟨a.inputDim, a.outputDim, a.bondDim, a.featureDim, a.periodic, a.parallel, path, .none, []⟩ := by
  unfold AdMps.init at h
  obtain ⟨k, _, h⟩ := bind_ok_inv h
  obtain ⟨ms, _, h⟩ := bind_ok_inv h
  obtain ⟨r, _, h⟩ := bind_ok_inv h
  obtain ⟨_, _, h⟩ := bind_ok_inv h
  obtain ⟨q, hq, h⟩ := bind_ok_inv h
  rw [hp] at hq
  cases hq
  cases h
  rfl

/-- C88: restarting from a checkpoint of a model in adaptive mode: construct a model with the same arguments (other random draws), load the state. This succeeds
exactly if the merge state of the saved model had been flipped an even number of times; otherwise RuntimeError is raised. In both cases the model now starts
in the initial merge state and with the counter 0, with the cores the saved model had for that merge state: in the first case its outputs are those of the saved model (with
the same feature map), in the second those of the cores which the saved model had given up at its last flip. -/
theorem C88_restart (svd : Mat ℝ → SVD) (hsvd : ∀ A, IsSVD A (svd A)) (pop : List Char → Char) (hpop : ∀ x xs, pop (x :: xs) ∈ x :: xs)
    (d d' : Draws) (a : MpsArgs) (cutoff : ℝ) (threshold k : ℕ) (hk : k ≤ a.inputDim) (hn : 2 ≤ a.inputDim) (hD : 1 ≤ a.bondDim)
    (hl : a.labelSite = some (k : ℤ) ∨ (a.labelSite = none ∧ k = a.inputDim / 2)) (path : Option (List ℤ))
    (hp : checkPath a.path a.inputDim = .ok path) (m0 : AdMps) (h0 : AdMps.init d a cutoff threshold = .ok m0)
    (m : HMps) (hm : Proper m) (g g' : Option ℕ) (Bs : List ℕ) (fs : List Bool) (hh : History svd pop m0 g Bs fs (HMps.read m) g') :
    ∃ m', HMps.init d' a cutoff threshold = .ok m' ∧
      (m'.loadStateDict m.stateDict).1 = (if fs.count true % 2 = 0 then .ok () else .error .runtime) ∧
      (m'.loadStateDict m.stateDict).2.region.offset = 0 ∧ (m'.loadStateDict m.stateDict).2.region.counter = 0 ∧
      (m'.loadStateDict m.stateDict).2.bondList = initBonds a.inputDim a.bondDim a.periodic ∧
      ∀ (m'' : HMps), m'' = { (m'.loadStateDict m.stateDict).2 with mps := { (m'.loadStateDict m.stateDict).2.mps with featureMap := m.mps.featureMap } } →
        0 < threshold → m.region.counter < threshold → ∀ x g,
          (m''.forward svd pop x g).1 = if fs.count true % 2 = 0 then (m.forward svd pop x g).1 else ((switched (HMps.read m)).forward svd pop x g).1 := by
  obtain ⟨q0, c1, c2, c3, c4, c5, c6, c7, c8, c9, c10, c11, c12, c13, c14, -⟩ := C59_construction d a cutoff threshold k hk hn hl path hp
  rw [h0] at c1
  cases c1
  obtain ⟨q1, d1, d2, d3, d4, d5, d6, d7, d8, d9, d10, d11, d12, d13, d14, -⟩ := C59_construction d' a cutoff threshold k hk hn hl path hp
  obtain ⟨m', i1, i2, i3, -⟩ := C86_construction d' a cutoff threshold k hk hn hl path hp
  rw [i2] at d1
  cases d1
  obtain ⟨s1, ⟨f, s2⟩, s3, s4⟩ := C61_structure svd hsvd pop hpop k m0 (HMps.read m) g g' Bs fs c2 (by rw [c5]; exact hD) hh
  obtain ⟨f1, f2, f3, f4, -⟩ := C60_flips svd pop m0 (HMps.read m) g g' Bs fs (by rw [c11]; omega) hh
  have t : ∀ n : HMps, (HMps.read n).mps = n.mps ∧ (HMps.read n).region.offset = n.region.offset ∧ (HMps.read n).region.counter = n.region.counter ∧
    (HMps.read n).region.threshold = n.region.threshold ∧ (HMps.read n).bondList = n.bondList := fun n => ⟨rfl, rfl, rfl, rfl, rfl⟩
  obtain ⟨tm1, tm2, tm3, tm4, tm5⟩ := t m
  obtain ⟨tn1, tn2, tn3, tn4, tn5⟩ := t m'
  rw [tm1] at s2
  rw [tm2, c11, zero_add] at f4
  rw [tn1] at d3 d4 d5 d6 d7 d8 d9 d10
  rw [tn2] at d11
  rw [tn3] at d12
  rw [tn4] at d13
  rw [tm4, c13] at s4
  obtain ⟨l1, l2, -, -, l5⟩ := C88_load k m m' hm i3 s1 d2 (by rw [s2, d3]; exact c3) (by rw [s2, d4]; exact c4) (by rw [s2, d5]; exact c5) (by rw [s2, d6]; exact c6)
  refine ⟨m', i1, ?_, d11, d12, ?_, ?_⟩
  · rw [l1, f4, d11]
  · exact (C62_construction d' a cutoff threshold (HMps.read m') hD i2).1
  · rintro m'' rfl hth hct x g
    set L := (m'.loadStateDict m.stateDict).2 with hL
    have hp' : Proper ({ L with mps := { L.mps with featureMap := m.mps.featureMap } } : HMps) := ⟨l5.offset, l5.live, l5.nodup, l5.stray⟩
    have hLm : L.mps = m'.mps := rfl
    have hcnt : L.region.counter = 0 := d12
    have hthr : L.region.threshold = threshold := d13
    have hmps : ({ L.mps with featureMap := m.mps.featureMap } : MPS ℝ) = m.mps := by
      have e1 : m'.mps = _ := admps_mps d' a cutoff threshold path hp (HMps.read m') i2
      rw [hLm, s2, admps_mps d a cutoff threshold path hp m0 h0, e1]
    have l2' : ∀ p, (HMps.read L).region.listAt p = (HMps.read m).region.listAt p := by
      intro p
      rw [l2]
      rfl
    have hact : (HMps.read ({ L with mps := { L.mps with featureMap := m.mps.featureMap } } : HMps)).region.active = (HMps.read m).region.listAt 0 := by
      rw [← l2' 0]
      have o1 : L.region.offset = 0 := d11
      have o2 : L.region.stray = none := l5.stray
      simp [AdRegion.active, HMps.read, o1, o2]
    have q1 : (HMps.read ({ L with mps := { L.mps with featureMap := m.mps.featureMap } } : HMps)).region.counter <
        (HMps.read ({ L with mps := { L.mps with featureMap := m.mps.featureMap } } : HMps)).region.threshold := by
      change L.region.counter < L.region.threshold
      rw [hcnt, hthr]; exact hth
    have q2 : (HMps.read m).region.counter < (HMps.read m).region.threshold := by
      change m.region.counter < m.region.threshold
      rw [s4]; exact hct
    rw [heap_call svd pop _ hp', heap_call svd pop m hm]
    have st : (HMps.read m).region.stray = none := by simp [HMps.read, hm.stray]
    split
    · rename_i he
      rw [he] at f4
      refine undue_call svd pop _ _ hmps q1 q2 ?_ x g
      rw [hact]
      unfold AdRegion.active
      rw [st, tm2, f4]
      rfl
    · rename_i he
      have f5 : m.region.offset = 1 := by omega
      refine undue_call svd pop _ (switched (HMps.read m)) hmps q1 q2 ?_ x g
      rw [hact]
      unfold AdRegion.active switched
      simp only [st, tm2, f5]
      rfl

end TorchMPS
