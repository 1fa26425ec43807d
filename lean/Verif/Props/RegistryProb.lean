import Verif.Props.Registry
/-
C87: saving and loading of the state of ProbMPS and ProbUnifMPS.
-/
namespace TorchMPS
open Spec
variable {K : Type}

theorem emb_keys (e : EmbObject K) (x : Key × Tensor K) (h : x ∈ e.named) : ∃ s, x.1 = [.name "embedding", .name "emb_fun", .name s] := by
  unfold EmbObject.named at h
  split at h
  · simp at h
  · obtain ⟨p, -, rfl⟩ := List.mem_map.1 h
    exact ⟨p.1, rfl⟩

theorem emb_nodup (e : EmbObject K) (h : e.wrapped.names.Nodup) (hl : e.values.length = e.wrapped.names.length) : (e.named.map Prod.fst).Nodup := by
  unfold EmbObject.named
  split
  · simp
  · rw [List.map_map]
    have : (Prod.fst ∘ fun p : String × Tensor K => (([.name "embedding", .name "emb_fun", .name p.1] : Key), p.2)) =
      (fun s : String => ([.name "embedding", .name "emb_fun", .name s] : Key)) ∘ Prod.fst := rfl
    rw [this, ← List.map_map]
    refine List.Nodup.map (fun a b h => by simpa using h) ?_
    rw [List.map_fst_zip (by omega)]
    exact h

theorem prob_nodup (m : ProbObject K) (h : ProbObject.Named m) : (m.stateDict.map Prod.fst).Nodup := by
  unfold ProbObject.stateDict
  have key : (m.embNamed.map Prod.fst).Nodup ∧ ∀ x ∈ m.embNamed, ∃ s, x.1 = [.name "embedding", .name "emb_fun", .name s] := by
    unfold ProbObject.embNamed
    cases he : m.embedding with
    | none => simp
    | some e => exact ⟨emb_nodup e (h e (by rw [he]; rfl)).1 (h e (by rw [he]; rfl)).2, emb_keys e⟩
  obtain ⟨k1, k2⟩ := key
  rw [List.map_append, List.nodup_append]
  refine ⟨by cases m.bias <;> simp, k1, ?_⟩
  rintro a ha b hb rfl
  obtain ⟨x, hx, hx'⟩ := List.mem_map.1 hb
  obtain ⟨s, hs⟩ := k2 x hx
  rw [hx'] at hs
  rw [hs] at ha
  cases hm : m.bias <;> simp [hm] at ha

theorem prob_core (m : ProbObject K) : lookupKey m.stateDict [.name "core_tensors"] = some m.core := by
  unfold ProbObject.stateDict; simp [lookupKey]

theorem prob_edge (m : ProbObject K) : lookupKey m.stateDict [.name "edge_vecs"] = some m.edge := by
  unfold ProbObject.stateDict; simp [lookupKey]

theorem lookup_none {d : StateDict K} {k : Key} (h : ∀ x ∈ d, x.1 ≠ k) : lookupKey d k = none := by
  cases hl : lookupKey d k with
  | none => rfl
  | some t => exact absurd rfl (h _ (lookup_mem hl))

theorem prob_bias (m : ProbObject K) : lookupKey m.stateDict [.name "bias_mat"] = m.bias := by
  unfold ProbObject.stateDict
  rw [lookup_append]
  cases hb : m.bias with
  | some b => simp [lookupKey]
  | none =>
    simp only [List.append_nil, lookupKey, List.cons.injEq, KeyPart.name.injEq, String.reduceEq, false_and, if_false, Option.none_or, ProbObject.embNamed]
    cases he : m.embedding with
    | none => rfl
    | some e =>
      refine lookup_none fun x hx h => ?_
      obtain ⟨s, hs⟩ := emb_keys e x hx
      rw [hs] at h
      simp at h

theorem named_entries (m : ProbObject K) :
    m.embNamed.map (fun e => (e.1, e.2.shape)) =
      (embEntries m).map (fun p => (([.name "embedding", .name "emb_fun", .name p.1] : Key), p.2)) := by
  unfold embEntries ProbObject.embNamed
  cases m.embedding with
  | none => rfl
  | some e =>
    simp only [EmbObject.named]
    split
    · rfl
    · rw [List.map_map, List.zip_map_right, List.map_map]
      rfl

theorem prob_shapes (m m' : ProbObject K) (h1 : m.core.shape = m'.core.shape) (h2 : m.edge.shape = m'.edge.shape)
    (h3 : m.bias.map Tensor.shape = m'.bias.map Tensor.shape) (h4 : embEntries m = embEntries m') :
    m.stateDict.map (fun e => (e.1, e.2.shape)) = m'.stateDict.map (fun e => (e.1, e.2.shape)) := by
  unfold ProbObject.stateDict
  simp only [List.map_append, named_entries, h4]
  congr 1
  cases hm : m.bias <;> cases hm' : m'.bias <;> simp_all

/-- C87: ProbMPS and ProbUnifMPS. If the tensors have the same shapes (and the callables in fixed embeddings the same named parameters), the state of one model is
accepted by the other, which then has the cores, edge vectors and bias matrix of the first and, in a fixed embedding, the parameters of its
callable; a trainable embedding, and the lambda matrix of any embedding, remain as they were. -/
theorem C87_prob_mps (m m' : ProbObject K) (hn : ProbObject.Named m) (hn' : ProbObject.Named m') (h1 : m.core.shape = m'.core.shape) (h2 : m.edge.shape = m'.edge.shape)
    (h3 : m.bias.map Tensor.shape = m'.bias.map Tensor.shape) (h4 : embEntries m = embEntries m') :
    (m'.loadStateDict m.stateDict).1 = .ok () ∧
    (m'.loadStateDict m.stateDict).2.uniform = m'.uniform ∧ (m'.loadStateDict m.stateDict).2.core = m.core ∧
    (m'.loadStateDict m.stateDict).2.edge = m.edge ∧ (m'.loadStateDict m.stateDict).2.bias = m.bias ∧
    (m'.embedding = none → (m'.loadStateDict m.stateDict).2.embedding = none) ∧
    (∀ e', m'.embedding = some e' → e'.trainable = true → (m'.loadStateDict m.stateDict).2.embedding = some e') ∧
    (∀ e', m'.embedding = some e' → e'.trainable = false → e'.wrapped.names = [] → (m'.loadStateDict m.stateDict).2.embedding = some e') ∧
    (∀ e e', m.embedding = some e → m'.embedding = some e' → e.trainable = false → e'.trainable = false →
      (m'.loadStateDict m.stateDict).2.embedding = some { e' with values := e.values }) := by
  have hnd := prob_nodup m hn
  refine ⟨(C87_accepts_iff _ _ hnd).2 (sameEntries_of_shapes (prob_shapes m m' h1 h2 h3 h4)), rfl,
    loadedValue_eq (prob_core m) h1, loadedValue_eq (prob_edge m) h2, ?_, ?_, ?_, ?_, ?_⟩
  · have hb := prob_bias m
    change m'.bias.map (loadedValue m.stateDict [.name "bias_mat"]) = m.bias
    cases hm : m.bias with
    | none => cases hm' : m'.bias with
      | none => rfl
      | some _ => rw [hm, hm'] at h3; simp at h3
    | some b => cases hm' : m'.bias with
      | none => rw [hm, hm'] at h3; simp at h3
      | some b' =>
        rw [hm, hm'] at h3
        simp only [Option.map_some, Option.some.injEq] at h3
        rw [Option.map_some, loadedValue_eq (hb.trans hm) h3]
  · intro h; simp [ProbObject.loadStateDict, ProbObject.mapNamed, h]
  · intro e' h ht; simp [ProbObject.loadStateDict, ProbObject.mapNamed, h, EmbObject.mapNamed, ht]
  · intro e' h ht hnil
    have hv := (hn' e' (by rw [h]; rfl)).2
    rw [hnil, List.length_nil, List.length_eq_zero_iff] at hv
    obtain ⟨_, _, _, _, _⟩ := e'
    simp only at ht hv hnil
    subst hv
    simp [ProbObject.loadStateDict, ProbObject.mapNamed, h, EmbObject.mapNamed, ht, hnil]
  · intro e e' he he' ht ht'
    have hname : e.wrapped.names = e'.wrapped.names ∧ e.values.map Tensor.shape = e'.values.map Tensor.shape := by
      unfold embEntries at h4
      rw [he, he'] at h4
      simp only [ht, ht', Bool.false_eq_true, if_false] at h4
      have l1 := (hn e (by rw [he]; rfl)).2
      have l2 := (hn' e' (by rw [he']; rfl)).2
      have a := congrArg (List.map Prod.fst) h4
      have b := congrArg (List.map Prod.snd) h4
      rw [List.map_fst_zip (by simp [l1]), List.map_fst_zip (by simp [l2])] at a
      rw [List.map_snd_zip (by simp [l1]), List.map_snd_zip (by simp [l2])] at b
      exact ⟨a, b⟩
    have l1 := (hn e (by rw [he]; rfl)).2
    have l2 := (hn' e' (by rw [he']; rfl)).2
    have hmem : ∀ p ∈ e.wrapped.names.zip e.values, lookupKey m.stateDict [.name "embedding", .name "emb_fun", .name p.1] = some p.2 := by
      intro p hp
      refine lookup_of_mem hnd ?_
      unfold ProbObject.stateDict
      rw [List.mem_append]
      right
      simp only [ProbObject.embNamed, he, EmbObject.named, ht, Bool.false_eq_true, if_false, List.mem_map]
      exact ⟨p, hp, rfl⟩
    change m'.embedding.map (EmbObject.mapNamed (loadedValue m.stateDict)) = _
    rw [he', Option.map_some]
    congr 1
    unfold EmbObject.mapNamed
    rw [ht']
    simp only [Bool.false_eq_true, if_false]
    congr 1
    obtain ⟨ha, hb⟩ := hname
    rw [← ha]
    rw [← ha] at l2
    clear ha h4 he he' hn hn' hnd
    generalize e.wrapped.names = ns at *
    generalize e.values = vs at *
    generalize e'.values = vs' at *
    induction ns generalizing vs vs' with
    | nil =>
      simp only [List.length_nil, List.length_eq_zero_iff] at l1
      simp [l1]
    | cons n ns ih =>
      cases vs with
      | nil => simp at l1
      | cons v vs => cases vs' with
        | nil => simp at l2
        | cons v' vs' =>
          simp only [List.map_cons, List.cons.injEq] at hb
          simp only [List.length_cons, Nat.add_right_cancel_iff] at l1 l2
          simp only [List.zip_cons_cons, List.map_cons, List.cons.injEq]
          exact ⟨loadedValue_eq (hmem (n, v) (by simp)) hb.1, ih vs l1 (fun p hp => hmem p (by rw [List.zip_cons_cons]; exact List.mem_cons_of_mem _ hp)) vs' l2 hb.2⟩

/-- C87: a state whose cores, edge vectors or bias matrix have other shapes, or are missing, is rejected. -/
theorem C87_prob_mps_rejects (m m' : ProbObject K) (hn : ProbObject.Named m) (hn' : ProbObject.Named m')
    (h : m.core.shape ≠ m'.core.shape ∨ m.edge.shape ≠ m'.edge.shape ∨ m.bias.map Tensor.shape ≠ m'.bias.map Tensor.shape ∨
      ((embEntries m = []) ≠ (embEntries m' = []))) :
    (m'.loadStateDict m.stateDict).1 = .error .runtime := by
  refine (loadResult_cases _ _).resolve_left fun hok => ?_
  have hse := (C87_accepts_iff _ _ (prob_nodup m hn)).1 hok
  have lk := lookup_shape (prob_nodup m hn) (prob_nodup m' hn') hse
  rcases h with h | h | h | h
  · have := lk [.name "core_tensors"]
    rw [prob_core, prob_core] at this
    exact h (by simpa using this)
  · have := lk [.name "edge_vecs"]
    rw [prob_edge, prob_edge] at this
    exact h (by simpa using this)
  · have := lk [.name "bias_mat"]
    rw [prob_bias, prob_bias] at this
    exact h this
  · refine h (propext ?_)
    have key : ∀ n n' : ProbObject K, SameEntries n.stateDict n'.stateDict → embEntries n = [] → embEntries n' = [] := by
      intro n n' hs hnil
      by_contra hc
      obtain ⟨p, hp⟩ := List.exists_mem_of_ne_nil _ hc
      have h1 : (([.name "embedding", .name "emb_fun", .name p.1] : Key), p.2) ∈
          n'.embNamed.map (fun e => (e.1, e.2.shape)) := by
        rw [named_entries]; exact List.mem_map.2 ⟨p, hp, rfl⟩
      obtain ⟨x, hx, hx'⟩ := List.mem_map.1 h1
      simp only [Prod.mk.injEq] at hx'
      have h2 : x ∈ n'.stateDict := by unfold ProbObject.stateDict; exact List.mem_append_right _ hx
      obtain ⟨t, ht, -⟩ := (hs x.1 x.2.shape).2 ⟨x.2, h2, rfl⟩
      unfold ProbObject.stateDict at ht
      rw [List.mem_append] at ht
      rcases ht with ht | ht
      · rw [hx'.1] at ht
        cases hb : n.bias <;> simp [hb] at ht
      · have := List.mem_map_of_mem (f := fun e : Key × Tensor K => (e.1, e.2.shape)) ht
        rw [named_entries, hnil] at this
        simp at this
    exact ⟨key m m' hse, key m' m fun k s => (hse k s).symm⟩

/-- C87: with an embedding whose function has no parameters (all the embeddings of the package), or none: loading the state of a model into another one made with the same
arguments and the same embedding gives a model equal to the saved one. -/
theorem C87_prob_mps_restored (m m' : ProbObject K) (hu : m.uniform = m'.uniform) (h1 : m.core.shape = m'.core.shape) (h2 : m.edge.shape = m'.edge.shape)
    (h3 : m.bias.map Tensor.shape = m'.bias.map Tensor.shape) (he : m.embedding = m'.embedding) (h0 : ∀ e ∈ m.embedding, e.wrapped.names = [] ∧ e.values = []) :
    m'.loadStateDict m.stateDict = (.ok (), m) := by
  have hn : ProbObject.Named m := by
    intro e h
    obtain ⟨a, b⟩ := h0 e h
    rw [a, b]
    simp
  have hn' : ProbObject.Named m' := by
    intro e h
    exact hn e (by rw [he]; exact h)
  have h4 : embEntries m = embEntries m' := by unfold embEntries; rw [he]
  obtain ⟨r1, r2, r3, r4, r5, r6, r7, r8, -⟩ := C87_prob_mps m m' hn hn' h1 h2 h3 h4
  have r9 : (m'.loadStateDict m.stateDict).2.embedding = m.embedding := by
    cases hm : m.embedding with
    | none => exact r6 (by rw [← he, hm])
    | some e =>
      have hm' : m'.embedding = some e := by rw [← he, hm]
      cases ht : e.trainable with
      | true => exact r7 e hm' ht
      | false => exact r8 e hm' ht (h0 e hm).1
  generalize m'.loadStateDict m.stateDict = z at *
  obtain ⟨z1, z2⟩ := z
  obtain ⟨u, c, ed, b, em⟩ := z2
  obtain ⟨u', c', ed', b', em'⟩ := m
  simp only at *
  subst r1 r2 r3 r4 r5 r9
  rw [hu]

end TorchMPS
