import Verif.Spec.FeatureModule
import Verif.Props.Registry
import Verif.Props.AutodiffMps
/-
C108: feature maps with parameters of their own.
-/
namespace TorchMPS
open Spec
variable {K : Type}

/-! ### registration -/

/-- the state of the attribute, seen from outside: the map in force and whether a module has been registered before -/
def MapAttr.IsNow (s : MapAttr K) (a : MapArg K) (seen : Prop) : Prop :=
  match s with
  | .plain none => a = .none ∧ ¬ seen
  | .plain (some f) => a = .function f ∧ ¬ seen
  | .child none => a = .none ∧ seen
  | .child (some c) => a = .module c ∧ seen

theorem checkMap_cases [Zero K] (F : ℕ) (a : MapArg K) : (MapFits F a → checkMap F a = .ok ()) ∧ (¬ MapFits F a → checkMap F a = .error .value) := by
  unfold MapFits checkMap
  cases a.callable with
  | none => simp
  | some f => simp

theorem registerMap_cases [Zero K] (F : ℕ) (s : MapAttr K) (a b : MapArg K) (seen : Prop) (h : s.IsNow b seen) :
    (¬ MapFits F a → registerMap F s a = .error .value) ∧
    (MapFits F a → IsFunction a → seen → registerMap F s a = .error .type) ∧
    (MapFits F a → ¬ (IsFunction a ∧ seen) → ∃ s', registerMap F s a = .ok s' ∧ s'.IsNow a (seen ∨ ∃ c, a = .module c)) := by
  refine ⟨fun hf => ?_, fun hf hfun hs => ?_, fun hf hn => ?_⟩
  · unfold registerMap; rw [(checkMap_cases F a).2 hf]; rfl
  · unfold registerMap; rw [(checkMap_cases F a).1 hf]
    obtain ⟨f, rfl⟩ := hfun
    cases s with
    | plain o => cases o <;> exact absurd hs h.2
    | child o => rfl
  · unfold registerMap; rw [(checkMap_cases F a).1 hf]
    cases a with
    | none =>
      cases s with
      | plain o => refine ⟨.plain none, rfl, rfl, ?_⟩; cases o <;> simpa using h.2
      | child o => refine ⟨.child none, rfl, rfl, ?_⟩; cases o <;> exact Or.inl h.2
    | function f =>
      have hs : ¬ seen := fun hs => hn ⟨⟨f, rfl⟩, hs⟩
      cases s with
      | plain o => exact ⟨.plain (some f), rfl, rfl, by simpa using hs⟩
      | child o => cases o <;> exact absurd h.2 hs
    | module c =>
      refine ⟨.child (some c), ?_, rfl, Or.inr ⟨c, rfl⟩⟩
      cases s <;> rfl

theorem isNow_congr {s : MapAttr K} {a : MapArg K} {p q : Prop} (h : p ↔ q) (hs : s.IsNow a p) : s.IsNow a q := by
  rw [← propext h]; exact hs

theorem isNow_callable {s : MapAttr K} {a : MapArg K} {p : Prop} (h : s.IsNow a p) : s.callable = a.callable ∧ s.named = mapEntries a := by
  rcases s with (_ | f) | (_ | c) <;> obtain ⟨rfl, -⟩ := h <;> exact ⟨rfl, rfl⟩

theorem seen_cons [Zero K] (F : ℕ) (a : MapArg K) (as : List (MapArg K)) :
    ModuleSeen F (a :: as) ↔ ModuleSeen F as ∨ (MapFits F a ∧ ∃ c, a = .module c) := by
  unfold ModuleSeen
  constructor
  · rintro ⟨c, hc, hf⟩
    rcases List.mem_cons.1 hc with rfl | hc
    · exact Or.inr ⟨hf, c, rfl⟩
    · exact Or.inl ⟨c, hc, hf⟩
  · rintro (⟨c, hc, hf⟩ | ⟨hf, c, rfl⟩)
    · exact ⟨c, List.mem_cons_of_mem _ hc, hf⟩
    · exact ⟨c, List.mem_cons_self .., hf⟩

/-- attribute after a history, generic in the class of the model -/
def attrAfter [Zero K] (F : ℕ) (s : MapAttr K) : List (MapArg K) → MapAttr K
  | [] => s
  | a :: as => match registerMap F (attrAfter F s as) a with
    | .ok s' => s'
    | .error _ => attrAfter F s as

theorem attrAfter_spec [Zero K] (F : ℕ) (as : List (MapArg K)) :
    ∃ a, LastAccepted F as a ∧ (attrAfter F (.plain none) as).IsNow a (ModuleSeen F as) := by
  induction as with
  | nil => exact ⟨.none, .start, rfl, fun ⟨c, hc, _⟩ => by simp at hc⟩
  | cons a as ih =>
    obtain ⟨b, hb, hn⟩ := ih
    obtain ⟨h1, h2, h3⟩ := registerMap_cases F _ a b _ hn
    by_cases hf : MapFits F a
    · by_cases hfun : IsFunction a ∧ ModuleSeen F as
      · refine ⟨b, .refused _ _ _ (Or.inr hfun) hb, ?_⟩
        simp only [attrAfter, h2 hf hfun.1 hfun.2]
        refine isNow_congr ((seen_cons F a as).trans ?_).symm hn
        exact ⟨fun _ => hfun.2, Or.inl⟩
      · obtain ⟨s', e, hs'⟩ := h3 hf hfun
        refine ⟨a, .taken _ _ hf hfun, ?_⟩
        simp only [attrAfter, e]
        refine isNow_congr ((seen_cons F a as).trans ?_).symm hs'
        simp [hf]
    · refine ⟨b, .refused _ _ _ (Or.inl hf) hb, ?_⟩
      simp only [attrAfter, h1 hf]
      refine isNow_congr ((seen_cons F a as).trans ?_).symm hn
      simp [hf]

theorem afterMaps_eq [Zero K] (m : MpsObject K) (as : List (MapArg K)) : afterMaps m as = { m with map := attrAfter m.mps.featureDim m.map as } := by
  induction as with
  | nil => rfl
  | cons a as ih =>
    simp only [afterMaps, ih, MpsObject.register, attrAfter]
    cases registerMap m.mps.featureDim (attrAfter m.mps.featureDim m.map as) a <;> rfl

theorem tiAfterMaps_eq [Zero K] (m : TiObject K) (as : List (MapArg K)) : tiAfterMaps m as = { m with map := attrAfter m.ti.featureDim m.map as } := by
  induction as with
  | nil => rfl
  | cons a as ih =>
    simp only [tiAfterMaps, ih, TiObject.register, attrAfter]
    cases registerMap m.ti.featureDim (attrAfter m.ti.featureDim m.map as) a <;> rfl

theorem lastAccepted_unique [Zero K] {F : ℕ} {as : List (MapArg K)} {a b : MapArg K} (h : LastAccepted F as a) (h' : LastAccepted F as b) : a = b := by
  induction h generalizing b with
  | start => cases h'; rfl
  | taken a as hf hn =>
    cases h' with
    | taken => rfl
    | refused _ _ _ hr _ => rcases hr with hr | hr; exacts [absurd hf hr, absurd hr hn]
  | refused a as c hr _ ih =>
    cases h' with
    | taken _ _ hf hn => rcases hr with hr | hr; exacts [absurd hf hr, absurd hr hn]
    | refused _ _ _ _ hb => exact ih hb

/-- C108: a newly constructed MPS after any history of registrations (latest first; failures caught). The map in force is the last one accepted, the parameters of the model are
the cores followed by the parameters of that map, and nothing else has changed. -/
theorem C108_history [Zero K] (m : MpsObject K) (h0 : m.map = .plain none) (as : List (MapArg K)) (a : MapArg K) (ha : LastAccepted m.mps.featureDim as a) :
    (afterMaps m as).model = { m.mps with featureMap := a.callable } ∧ (afterMaps m as).stateDict = m.mps.stateDict ++ mapEntries a := by
  obtain ⟨b, hb, hn⟩ := attrAfter_spec m.mps.featureDim as
  cases lastAccepted_unique ha hb
  rw [afterMaps_eq, h0]
  exact ⟨by simp only [MpsObject.model, (isNow_callable hn).1], by simp only [MpsObject.stateDict, (isNow_callable hn).2]⟩

/-- C108: which registrations are refused. After any history, a map of the wrong size is refused with ValueError, and a plain function with TypeError if a module of the
right size was registered at any time before - even if None was registered in between. Everything else is accepted. -/
theorem C108_refused [Zero K] (m : MpsObject K) (h0 : m.map = .plain none) (as : List (MapArg K)) (a : MapArg K) :
    (¬ MapFits m.mps.featureDim a → (afterMaps m as).register a = .error .value) ∧
    (MapFits m.mps.featureDim a → IsFunction a → ModuleSeen m.mps.featureDim as → (afterMaps m as).register a = .error .type) ∧
    (MapFits m.mps.featureDim a → ¬ (IsFunction a ∧ ModuleSeen m.mps.featureDim as) → ∃ m', (afterMaps m as).register a = .ok m' ∧
      m'.model = { m.mps with featureMap := a.callable } ∧ m'.stateDict = m.mps.stateDict ++ mapEntries a) := by
  obtain ⟨b, hb, hn⟩ := attrAfter_spec m.mps.featureDim as
  obtain ⟨h1, h2, h3⟩ := registerMap_cases m.mps.featureDim _ a b _ hn
  rw [afterMaps_eq, h0]
  unfold MpsObject.register
  refine ⟨fun hf => ?_, fun hf hfun hs => ?_, fun hf hnf => ?_⟩
  · simp only [h1 hf]; rfl
  · simp only [h2 hf hfun hs]; rfl
  · obtain ⟨s', e, hs'⟩ := h3 hf hnf
    refine ⟨⟨m.mps, s'⟩, ?_, by simp only [MpsObject.model, (isNow_callable hs').1], by simp only [MpsObject.stateDict, (isNow_callable hs').2]⟩
    simp only [e]; rfl

/-- C108: the same for TI_MPS. -/
theorem C108_ti_history [Zero K] (m : TiObject K) (h0 : m.map = .plain none) (as : List (MapArg K)) :
    (∀ a, LastAccepted m.ti.featureDim as a →
      (tiAfterMaps m as).model = { m.ti with featureMap := a.callable } ∧ (tiAfterMaps m as).stateDict = m.ti.stateDict ++ mapEntries a) ∧
    (∀ a, ¬ MapFits m.ti.featureDim a → (tiAfterMaps m as).register a = .error .value) ∧
    (∀ a, MapFits m.ti.featureDim a → IsFunction a → ModuleSeen m.ti.featureDim as → (tiAfterMaps m as).register a = .error .type) := by
  obtain ⟨b, hb, hn⟩ := attrAfter_spec m.ti.featureDim as
  rw [tiAfterMaps_eq, h0]
  refine ⟨fun a ha => ?_, fun a hf => ?_, fun a hf hfun hs => ?_⟩
  · cases lastAccepted_unique ha hb
    exact ⟨by simp only [TiObject.model, (isNow_callable hn).1], by simp only [TiObject.stateDict, (isNow_callable hn).2]⟩
  · unfold TiObject.register
    simp only [(registerMap_cases m.ti.featureDim _ a b _ hn).1 hf]; rfl
  · unfold TiObject.register
    simp only [(registerMap_cases m.ti.featureDim _ a b _ hn).2.1 hf hfun hs]; rfl

/-! ### training -/

theorem zip_mapNamed {α β : Type} (ns : List α) (vs : List β) (g : α × β → β) : ns.zip ((ns.zip vs).map g) = (ns.zip vs).map (fun e => (e.1, g e)) := by
  induction ns generalizing vs with
  | nil => rfl
  | cons n ns ih => cases vs with
    | nil => simp
    | cons v vs => simp [ih]

theorem steps_map (m : MpsObject K) (c : MapObject K) (hc : m.map = .child (some c)) (hl : c.values.length = c.names.length) (fs : List (Key → Tensor K → Tensor K)) :
    (afterMapSteps m fs).map = .child (some { c with values := (c.names.zip c.values).map (fun e => trainedValue fs (.name "feature_map" :: e.1) e.2) }) := by
  induction fs generalizing m c with
  | nil =>
    simp only [afterMapSteps, trainedValue, List.foldl_nil, hc]
    rw [show (fun e : Key × Tensor K => e.2) = Prod.snd from rfl, List.map_snd_zip (by omega)]
  | cons f fs ih =>
    simp only [afterMapSteps]
    rw [ih (m.step f) (c.mapNamed f) (by simp [MpsObject.step, MapAttr.mapNamed, hc]) (by simp [MapObject.mapNamed, hl])]
    simp only [MapObject.mapNamed, zip_mapNamed, List.map_map, MapAttr.child.injEq, Option.some.injEq, MapObject.mk.injEq, true_and, and_true]
    rfl

theorem steps_plain (m : MpsObject K) (f : K → Tensor K) (hc : m.map = .plain (some f)) (fs : List (Key → Tensor K → Tensor K)) :
    (afterMapSteps m fs).map = .plain (some f) := by
  induction fs generalizing m with
  | nil => exact hc
  | cons g fs ih => exact ih _ (by simp [MpsObject.step, MapAttr.mapNamed, hc])

theorem steps_hyper (m : MpsObject K) (fs : List (Key → Tensor K → Tensor K)) : ∃ ms, (afterMapSteps m fs).mps = { m.mps with modules := ms } := by
  induction fs generalizing m with
  | nil => exact ⟨m.mps.modules, rfl⟩
  | cons g fs ih =>
    obtain ⟨ms, h⟩ := ih (m.step g)
    exact ⟨ms, by simp only [afterMapSteps, h]; rfl⟩

/-- C108: a module registered as feature map is trained with the model. After any sequence of steps of an optimiser made with `parameters()`, the calls of the model use
the map with the parameters updated by those steps, and its current parameters are in the state dict. A plain function is never changed. -/
theorem C108_trained [Zero K] (m : MpsObject K) (fs : List (Key → Tensor K → Tensor K)) :
    (∀ c, m.map = .child (some c) → MapNamed c → ∃ ms, (afterMapSteps m fs).model = { m.mps with
        modules := ms, featureMap := some (c.apply ((c.names.zip c.values).map (fun e => trainedValue fs ([.name "feature_map"] ++ e.1) e.2))) } ∧
      ∀ k t, (k, t) ∈ c.names.zip c.values →
        ([.name "feature_map"] ++ k, trainedValue fs ([.name "feature_map"] ++ k) t) ∈ (afterMapSteps m fs).stateDict) ∧
    (∀ f, m.map = .plain (some f) → ∃ ms, (afterMapSteps m fs).model = { m.mps with modules := ms, featureMap := some f }) := by
  obtain ⟨ms, hms⟩ := steps_hyper m fs
  refine ⟨fun c hc hn => ⟨ms, ?_, fun k t hk => ?_⟩, fun f hf => ⟨ms, ?_⟩⟩
  · simp only [MpsObject.model, hms, steps_map m c hc hn.2 fs, MapAttr.callable]; rfl
  · simp only [MpsObject.stateDict, steps_map m c hc hn.2 fs, MapAttr.named, MapObject.named, zip_mapNamed, List.map_map, List.mem_append, List.mem_map]
    exact Or.inr ⟨(k, t), hk, rfl⟩
  · simp only [MpsObject.model, hms, steps_plain m f hf fs, MapAttr.callable]

/-! ### saving and loading -/

/-- the names of the entries of a map -/
def OfMap (k : Key) : Prop := k.head? = some (.name "feature_map")

instance (k : Key) : Decidable (OfMap k) := by unfold OfMap; infer_instance

theorem named_ofMap (s : MapAttr K) : ∀ e ∈ s.named, OfMap e.1 := by
  intro e he
  rcases s with (_ | f) | (_ | c)
  · simp [MapAttr.named] at he
  · simp [MapAttr.named] at he
  · simp [MapAttr.named] at he
  · simp only [MapAttr.named, MapObject.named, List.mem_map] at he
    obtain ⟨a, -, rfl⟩ := he
    rfl

theorem mps_notMap [Zero K] (m : MPS K) : ∀ e ∈ m.stateDict, ¬ OfMap e.1 := by
  intro e he
  obtain ⟨j, s, -, hk⟩ := named_key he
  rw [hk]
  simp [OfMap, regionKey]

theorem ti_notMap (m : TiMps K) : ∀ e ∈ m.stateDict, ¬ OfMap e.1 := by
  intro e he
  unfold TiMps.stateDict at he
  cases hb : m.biasMat <;> simp only [hb, List.append_nil, List.mem_append, List.mem_cons, List.not_mem_nil, or_false] at he <;>
    aesop (add norm unfold OfMap)

theorem named_keys_nodup (s : MapAttr K) (h : ∀ c, s = .child (some c) → MapNamed c) : (s.named.map Prod.fst).Nodup := by
  rcases s with (_ | f) | (_ | c)
  · simp [MapAttr.named]
  · simp [MapAttr.named]
  · simp [MapAttr.named]
  · have hc := h c rfl
    simp only [MapAttr.named, MapObject.named, List.map_map]
    rw [show (Prod.fst ∘ fun e : Key × Tensor K => (KeyPart.name "feature_map" :: e.1, e.2)) = (fun k => KeyPart.name "feature_map" :: k) ∘ Prod.fst from rfl,
      ← List.map_map, List.map_fst_zip (by rw [hc.2])]
    exact hc.1.map (fun a b hab => by simpa using hab)

theorem append_nodup {d d2 : StateDict K} (h : (d.map Prod.fst).Nodup) (h2 : (d2.map Prod.fst).Nodup) (hd : ∀ e ∈ d, ¬ OfMap e.1) (hd2 : ∀ e ∈ d2, OfMap e.1) :
    ((d ++ d2).map Prod.fst).Nodup := by
  rw [List.map_append, List.nodup_append]
  refine ⟨h, h2, ?_⟩
  rintro a ha b hb rfl
  obtain ⟨e, he, rfl⟩ := List.mem_map.1 ha
  obtain ⟨e', he', h'⟩ := List.mem_map.1 hb
  exact hd e he (h' ▸ hd2 e' he')

theorem sameEntries_append {d d2 o o2 : StateDict K} (hd : ∀ e ∈ d, ¬ OfMap e.1) (hd2 : ∀ e ∈ d2, OfMap e.1) (ho : ∀ e ∈ o, ¬ OfMap e.1) (ho2 : ∀ e ∈ o2, OfMap e.1) :
    SameEntries (d ++ d2) (o ++ o2) ↔ SameEntries d o ∧ SameEntries d2 o2 := by
  have key : ∀ {a b : StateDict K} (_ : ∀ e ∈ a, ¬ OfMap e.1) (_ : ∀ e ∈ b, OfMap e.1) (k : Key) (s : List ℕ),
      (∃ t, (k, t) ∈ a ++ b ∧ t.shape = s) ↔ if OfMap k then (∃ t, (k, t) ∈ b ∧ t.shape = s) else ∃ t, (k, t) ∈ a ∧ t.shape = s := by
    intro a b ha hb k s
    split
    · rename_i hk
      exact exists_congr fun t => and_congr_left fun _ => ⟨fun h => (List.mem_append.1 h).resolve_left fun h => ha _ h hk, fun h => List.mem_append.2 (Or.inr h)⟩
    · rename_i hk
      exact exists_congr fun t => and_congr_left fun _ => ⟨fun h => (List.mem_append.1 h).resolve_right fun h => hk (hb _ h), fun h => List.mem_append.2 (Or.inl h)⟩
  unfold SameEntries
  constructor
  · intro h
    refine ⟨fun k s => ?_, fun k s => ?_⟩
    · by_cases hk : OfMap k
      · exact ⟨fun ⟨t, ht, _⟩ => absurd hk (hd _ ht), fun ⟨t, ht, _⟩ => absurd hk (ho _ ht)⟩
      · have := h k s
        rwa [key hd hd2, key ho ho2, if_neg hk, if_neg hk] at this
    · by_cases hk : OfMap k
      · have := h k s
        rwa [key hd hd2, key ho ho2, if_pos hk, if_pos hk] at this
      · exact ⟨fun ⟨t, ht, _⟩ => absurd (hd2 _ ht) hk, fun ⟨t, ht, _⟩ => absurd (ho2 _ ht) hk⟩
  · rintro ⟨h1, h2⟩ k s
    rw [key hd hd2, key ho ho2]
    split
    · exact h2 k s
    · exact h1 k s

theorem loaded_map {d : StateDict K} (hd : (d.map Prod.fst).Nodup) (c c' : MapObject K) (hs : SameMapClass c c') (hn : MapNamed c)
    (hm : ∀ e ∈ c.named, e ∈ d) : c'.mapNamed (loadedValue d) = c := by
  have key : ∀ (ns : List Key) (vs vs' : List (Tensor K)), vs.length = ns.length → vs.map Tensor.shape = vs'.map Tensor.shape →
      (∀ e ∈ ns.zip vs, (KeyPart.name "feature_map" :: e.1, e.2) ∈ d) →
      (ns.zip vs').map (fun e => loadedValue d (.name "feature_map" :: e.1) e.2) = vs := by
    intro ns
    induction ns with
    | nil => intro vs vs' hl _ _; simp at hl; simp [hl]
    | cons n ns ih =>
      intro vs vs' hl hsh hmem
      cases vs with
      | nil => simp at hl
      | cons v vs =>
        cases vs' with
        | nil => simp at hsh
        | cons v' vs' =>
          simp only [List.map_cons, List.cons.injEq] at hsh
          simp only [List.zip_cons_cons, List.map_cons, List.cons.injEq]
          refine ⟨loadedValue_eq (lookup_of_mem hd (hmem (n, v) (by simp))) hsh.1, ih vs vs' (by simpa using hl) hsh.2 fun e he => hmem e ?_⟩
          simp only [List.zip_cons_cons, List.mem_cons]
          exact Or.inr he
  unfold MapObject.mapNamed
  obtain ⟨h1, h2, h3⟩ := hs
  rw [← h1, key c.names c.values c'.values hn.2 h3 (fun e he => hm _ (List.mem_map.2 ⟨e, he, rfl⟩)), ← h2]

/-- C108: a model with a module as feature map, saved and loaded into a model made with the same arguments in which a module of the same class was registered (with other
parameter values). Nothing is lost: every call then gives what the saved model gave. -/
theorem C108_saved [CommRing K] (k : ℕ) (ub : Bool) (p p' : Params K) (m m' : MpsObject K) (h : IsMps k ub p m.mps) (h' : IsMps k ub p' m'.mps) (hs : SameArgs m.mps m'.mps)
    (c c' : MapObject K) (hc : m.map = .child (some c)) (hc' : m'.map = .child (some c')) (hm : SameMapClass c c') (hn : MapNamed c) :
    ∃ r, m'.loadStateDict m.stateDict = (.ok (), r) ∧ r.model = m.model ∧ ∀ x g, r.model.forward x g = m.model.forward x g := by
  have hl := mps_like k ub p p' m.mps m'.mps h h' hs
  have hnd : (m.stateDict.map Prod.fst).Nodup := append_nodup (named_nodup _ _ _) (named_keys_nodup _ (fun d hd => by rw [hc] at hd; cases hd; exact hn))
    (mps_notMap _) (named_ofMap _)
  have hok : loadResult m.stateDict m'.stateDict = .ok () := by
    refine (C87_accepts_iff _ _ hnd).2 ((sameEntries_append (mps_notMap _) (named_ofMap _) (mps_notMap _) (named_ofMap _)).2 ⟨sameEntries_of_shapes (like_from hl 0), ?_⟩)
    refine sameEntries_of_shapes ?_
    rw [hc, hc']
    simp only [MapAttr.named, MapObject.named, List.map_map, hm.names]
    have key : ∀ (ns : List Key) (vs vs' : List (Tensor K)), vs.map Tensor.shape = vs'.map Tensor.shape →
        (ns.zip vs).map (fun e => (KeyPart.name "feature_map" :: e.1, e.2.shape)) = (ns.zip vs').map (fun e => (KeyPart.name "feature_map" :: e.1, e.2.shape)) := by
      intro ns vs vs' hv
      have := congrArg (fun l => (ns.zip l).map (fun e : Key × List ℕ => (KeyPart.name "feature_map" :: e.1, e.2))) hv
      simpa [List.zip_map_right, Function.comp_def] using this
    exact key _ _ _ hm.shapes
  have hmap : m'.map.mapNamed (loadedValue m.stateDict) = m.map := by
    rw [hc', hc]
    simp only [MapAttr.mapNamed]
    rw [loaded_map hnd c c' hm hn (fun e he => by simp only [MpsObject.stateDict, hc, MapAttr.named, List.mem_append]; exact Or.inr he)]
  have hmod : loadFrom m.stateDict "module_list" 0 m'.mps.modules = m.mps.modules :=
    load_like hnd hl 0 (fun e he => by simp only [MpsObject.stateDict, List.mem_append]; exact Or.inl he)
  have hr : (⟨(m'.mps.loadStateDict m.stateDict).2, m'.map.mapNamed (loadedValue m.stateDict)⟩ : MpsObject K).model = m.model := by
    simp only [MpsObject.model, MPS.loadStateDict, hmap, hmod]
    obtain ⟨h1, h2, h3, h4, h5, h6, h7⟩ := hs
    rw [← h1, ← h2, ← h3, ← h4, ← h5, ← h6, ← h7]
  refine ⟨_, ?_, hr, fun x g => by rw [hr]⟩
  unfold MpsObject.loadStateDict
  rw [hok]

/-- C108: the state of a model is accepted exactly if the cores are accepted (see C87) and the registered maps have parameters of the same names and shapes; otherwise
RuntimeError. -/
theorem C108_accepts_iff [Zero K] (m m' : MpsObject K) (hn : ∀ c, m.map = .child (some c) → MapNamed c) :
    ((m'.loadStateDict m.stateDict).1 = .ok () ↔ (m'.mps.loadStateDict m.mps.stateDict).1 = .ok () ∧ SameEntries m.map.named m'.map.named) ∧
    ((m'.loadStateDict m.stateDict).1 ≠ .ok () → (m'.loadStateDict m.stateDict).1 = .error .runtime) := by
  refine ⟨?_, fun hne => (loadResult_cases _ _).resolve_left hne⟩
  have hnd : (m.stateDict.map Prod.fst).Nodup := append_nodup (named_nodup _ _ _) (named_keys_nodup _ hn) (mps_notMap _) (named_ofMap _)
  change loadResult m.stateDict m'.stateDict = .ok () ↔ loadResult m.mps.stateDict m'.mps.stateDict = .ok () ∧ _
  rw [C87_accepts_iff _ _ hnd, C87_accepts_iff m.mps.stateDict m'.mps.stateDict (named_nodup _ _ _)]
  exact sameEntries_append (mps_notMap _) (named_ofMap _) (mps_notMap _) (named_ofMap _)

/-- C108: the map must be registered before loading. If the saved model has a map with parameters and the receiving model (made with the same arguments) has no module as map,
RuntimeError is raised - although the cores have been loaded. -/
theorem C108_register_first [Zero K] (k : ℕ) (ub : Bool) (p p' : Params K) (m m' : MpsObject K) (h : IsMps k ub p m.mps) (h' : IsMps k ub p' m'.mps) (hs : SameArgs m.mps m'.mps)
    (c : MapObject K) (hc : m.map = .child (some c)) (hn : MapNamed c) (hne : c.names ≠ []) (hc' : ∀ c', m'.map ≠ .child (some c')) :
    (m'.loadStateDict m.stateDict).1 = .error .runtime ∧ (m'.loadStateDict m.stateDict).2.model = { m.mps with featureMap := m'.map.callable } := by
  have hnd : (m.stateDict.map Prod.fst).Nodup := append_nodup (named_nodup _ _ _) (named_keys_nodup _ (fun d hd => by rw [hc] at hd; cases hd; exact hn))
    (mps_notMap _) (named_ofMap _)
  have hl := mps_like k ub p p' m.mps m'.mps h h' hs
  have hmod : loadFrom m.stateDict "module_list" 0 m'.mps.modules = m.mps.modules :=
    load_like hnd hl 0 (fun e he => by simp only [MpsObject.stateDict, List.mem_append]; exact Or.inl he)
  constructor
  · refine (C108_accepts_iff m m' (fun d hd => by rw [hc] at hd; cases hd; exact hn)).2 fun hok => ?_
    have := ((C108_accepts_iff m m' (fun d hd => by rw [hc] at hd; cases hd; exact hn)).1.1 hok).2
    have he : m'.map.named = [] := by
      rcases hm : m'.map with (_ | f) | (_ | c')
      · rfl
      · rfl
      · rfl
      · exact absurd hm (hc' c')
    rw [he, hc] at this
    obtain ⟨n, ns, hns⟩ := List.exists_cons_of_ne_nil hne
    cases hv : c.values with
    | nil => have := hn.2; rw [hv, hns] at this; simp at this
    | cons v vs =>
      have := (this (.name "feature_map" :: n) v.shape).1 ⟨v, by simp [MapAttr.named, MapObject.named, hns, hv], rfl⟩
      simp at this
  · have hmap : m'.map.mapNamed (loadedValue m.stateDict) = m'.map := by
      rcases hm : m'.map with (_ | f) | (_ | c')
      · rfl
      · rfl
      · rfl
      · exact absurd hm (hc' c')
    simp only [MpsObject.loadStateDict, MpsObject.model, MPS.loadStateDict, hmap, hmod]
    obtain ⟨h1, h2, h3, h4, h5, h6, h7⟩ := hs
    rw [← h1, ← h2, ← h3, ← h4, ← h5, ← h6, ← h7]

theorem loadedValue_append {d d2 : StateDict K} (hd2 : ∀ e ∈ d2, OfMap e.1) (k : Key) (hk : ¬ OfMap k) (t : Tensor K) : loadedValue (d ++ d2) k t = loadedValue d k t := by
  have h2 : lookupKey d2 k = none := by
    cases hl : lookupKey d2 k with
    | none => rfl
    | some t => exact absurd (hd2 _ (lookup_mem hl)) hk
  unfold loadedValue
  rw [lookup_append, h2, Option.or_none]

/-- C108: saving and loading a TI_MPS with a module as feature map: accepted by every model of the same sizes with a map of the same class, and then every call gives what the saved model
gave (`parallel_eval` of the receiving model aside). -/
theorem C108_ti_saved [CommRing K] (m m' : TiObject K) (h : IsTi m.ti) (h' : IsTi m'.ti) (hb : m.ti.useBias = false → m.ti.biasMat = none)
    (hb' : m'.ti.useBias = false → m'.ti.biasMat = none)
    (hs : m.ti.bondDim = m'.ti.bondDim ∧ m.ti.featureDim = m'.ti.featureDim ∧ m.ti.outputDim = m'.ti.outputDim ∧ m.ti.useBias = m'.ti.useBias)
    (c c' : MapObject K) (hc : m.map = .child (some c)) (hc' : m'.map = .child (some c')) (hm : SameMapClass c c') (hn : MapNamed c) :
    ∃ r, m'.loadStateDict m.stateDict = (.ok (), r) ∧
      r.model = { m.model with parallel := m'.ti.parallel, fixedBias := m'.ti.fixedBias } := by
  have hnd : (m.stateDict.map Prod.fst).Nodup := append_nodup (ti_nodup _) (named_keys_nodup _ (fun d hd => by rw [hc] at hd; cases hd; exact hn)) (ti_notMap _) (named_ofMap _)
  have hti := (C87_ti_mps m.ti m'.ti h h' hb hb').1 hs
  have hok : loadResult m.stateDict m'.stateDict = .ok () := by
    refine (C87_accepts_iff _ _ hnd).2 ((sameEntries_append (ti_notMap _) (named_ofMap _) (ti_notMap _) (named_ofMap _)).2
      ⟨(C87_accepts_iff m.ti.stateDict m'.ti.stateDict (ti_nodup _)).1 (congrArg Prod.fst hti), ?_⟩)
    refine sameEntries_of_shapes ?_
    rw [hc, hc']
    simp only [MapAttr.named, MapObject.named, List.map_map, hm.names]
    have key : ∀ (ns : List Key) (vs vs' : List (Tensor K)), vs.map Tensor.shape = vs'.map Tensor.shape →
        (ns.zip vs).map (fun e => (KeyPart.name "feature_map" :: e.1, e.2.shape)) = (ns.zip vs').map (fun e => (KeyPart.name "feature_map" :: e.1, e.2.shape)) := by
      intro ns vs vs' hv
      have := congrArg (fun l => (ns.zip l).map (fun e : Key × List ℕ => (KeyPart.name "feature_map" :: e.1, e.2))) hv
      simpa [List.zip_map_right, Function.comp_def] using this
    exact key _ _ _ hm.shapes
  have hmap : m'.map.mapNamed (loadedValue m.stateDict) = m.map := by
    rw [hc', hc]
    simp only [MapAttr.mapNamed]
    rw [loaded_map hnd c c' hm hn (fun e he => by simp only [TiObject.stateDict, hc, MapAttr.named, List.mem_append]; exact Or.inr he)]
  have hv : ∀ (k : Key), ¬ OfMap k → ∀ t, loadedValue m.stateDict k t = loadedValue m.ti.stateDict k t := fun k hk t => loadedValue_append (named_ofMap _) k hk t
  have hl : (m'.ti.loadStateDict m.stateDict).2 = (m'.ti.loadStateDict m.ti.stateDict).2 := by
    unfold TiMps.loadStateDict
    simp only [hv [.name "core_tensor"] (by simp [OfMap]), hv [.name "init_vector", .name "vec"] (by simp [OfMap]), hv [.name "terminal_mat", .name "mat"] (by simp [OfMap])]
    congr 1
    cases m'.ti.biasMat with
    | none => rfl
    | some b => simp only [Option.map_some, hv [.name "bias_mat"] (by simp [OfMap])]
  refine ⟨⟨(m'.ti.loadStateDict m.stateDict).2, m'.map.mapNamed (loadedValue m.stateDict)⟩, by unfold TiObject.loadStateDict; rw [hok], ?_⟩
  rw [hl, hti, hmap]
  simp only [TiObject.model]
  obtain ⟨s1, s2, s3, s4⟩ := hs
  rw [← s1, ← s2, ← s3, ← s4]

/-! ### gradients -/

/-- C108: gradients reach the parameters of the map. Let the cores, the parameters of the map and the inputs (one scalar per pixel) move along differentiable curves, and let the map
be differentiated correctly. Then the differentiated forward pass gives the values and the derivatives of the outputs along the curve. -/
theorem C108_gradient [RCLike K] (k : ℕ) (ub : Bool) (t₀ : ℝ) (p : ℝ → Params K) (m : ℝ → MpsObject K) (h : ∀ t, IsMps k ub (p t) (m t).mps)
    (dp : Params (DualNumber K)) (dm : MpsObject (DualNumber K)) (dh : IsMps k ub dp dm.mps) (hy : ∀ t, SameHyper (m t).mps dm.mps) (hp : ParamsFollow p dp t₀)
    (hpath : (∀ t, (m t).mps.path = none) ∧ dm.mps.path = none)
    (hD : dm.mps.periodic = true ∨ 1 ≤ dm.mps.bondDim) (hs : NoShortRegion dm.mps.inputDim k) (hn : 1 ≤ dm.mps.inputDim)
    (ns : List Key) (v : ℝ → List (Tensor K)) (f : List (Tensor K) → K → Tensor K) (dv : List (Tensor (DualNumber K)))
    (df : List (Tensor (DualNumber K)) → DualNumber K → Tensor (DualNumber K))
    (hm : ∀ t, (m t).map = .child (some ⟨ns, v t, f⟩)) (hdm : dm.map = .child (some ⟨ns, dv, df⟩))
    (hmove : MovingMap (fun t => f (v t)) (df dv) t₀) (hsize : (∀ t s, (f (v t) s).shape = [dm.mps.featureDim]) ∧ ∀ s, (df dv s).shape = [dm.mps.featureDim])
    (B : ℕ) (hB : 1 ≤ B) (x : ℝ → Tensor K) (dx : Tensor (DualNumber K)) (hdx : dx.shape = [B, dm.mps.inputDim]) (hx : TensorFollows x dx t₀) (g : Option ℕ)
    (hg : BatchKnown k B g) :
    ∃ (y : ℝ → Tensor K) (dy : Tensor (DualNumber K)) (g1 : ℝ → Option ℕ) (g2 : Option ℕ), (∀ t, (m t).model.forward (x t) g = (.ok (y t), g1 t)) ∧
      dm.model.forward dx g = (.ok dy, g2) ∧ dy.shape = [B, dm.mps.outputDim] ∧ TensorFollows y dy t₀ := by
  have hf : ∀ t, (m t).model.featureMap = some (f (v t)) := fun t => by simp [MpsObject.model, hm t, MapAttr.callable]
  have hdf : dm.model.featureMap = some (df dv) := by simp [MpsObject.model, hdm, MapAttr.callable]
  have hsx : ∀ t, (x t).shape = [B, dm.mps.inputDim] := fun t => by rw [hx.1 t, hdx]
  have hemb : ∀ t, Embeddable (m t).model (x t) := by
    intro t
    refine Or.inr ⟨by rw [hsx t]; show _ = [_, (m t).mps.inputDim]; rw [(hy t).inputDim]; rfl, ?_⟩
    rw [hf t]
    refine ⟨by rw [hsx t]; exact hB, ?_, fun b _ i _ => ?_⟩
    · show 1 ≤ (m t).mps.inputDim; rw [(hy t).inputDim]; exact hn
    · show _ = [(m t).mps.featureDim]; rw [(hy t).featureDim]; exact hsize.1 t _
  have hde : Embeddable dm.model dx := by
    refine Or.inr ⟨by rw [hdx]; rfl, ?_⟩
    rw [hdf]
    exact ⟨by rw [hdx]; exact hB, hn, fun b _ i _ => hsize.2 _⟩
  have hc := fun t => C57_embedding (m t).model (x t) (hemb t)
  choose e e1 e2 e3 using hc
  obtain ⟨de, d1, d2, d3⟩ := C57_embedding dm.model dx hde
  have hee : TensorFollows e de t₀ := by
    refine ⟨fun t => by rw [e2 t, d2, hx.1 t]; show [_, (m t).mps.inputDim, (m t).mps.featureDim] = [_, dm.mps.inputDim, dm.mps.featureDim]; rw [(hy t).inputDim, (hy t).featureDim], ?_⟩
    intro idx hidx
    rw [d2, hdx] at hidx
    obtain _ | ⟨b, _ | ⟨i, _ | ⟨q, _ | ⟨_, _⟩⟩⟩⟩ := idx <;> simp at hidx
    obtain ⟨hb, hi, hq⟩ := hidx
    have hi : i < dm.mps.inputDim := hi
    have hq : q < dm.mps.featureDim := hq
    rw [d3 b (by rw [hdx]; exact hb) i hi q hq]
    have hcur : (fun t => (e t).get [b, i, q]) = fun t => featureEntry (some (f (v t))) (x t) b i q := by
      funext t
      rw [e3 t b (by rw [hsx t]; exact hb) i (by show i < (m t).mps.inputDim; rw [(hy t).inputDim]; exact hi) q
        (by show q < (m t).mps.featureDim; rw [(hy t).featureDim]; exact hq), hf t]
    rw [hcur, hdf]
    unfold featureEntry
    simp only [hsx, hdx, List.length_cons, List.length_nil]
    have := hmove (fun t => (x t).get [b, i]) (dx.get [b, i]) (hx.2 _ (by rw [hdx]; simp [hb, hi]))
    exact this.2 _ (by rw [hsize.2]; simp [hq])
  have dh' : IsMps k ub dp dm.model := ⟨dh.label, dh.modules, dh.left, dh.leftBias, dh.out, dh.right, dh.rightBias⟩
  have h' : ∀ t, IsMps k ub (p t) (m t).model := fun t => ⟨(h t).label, (h t).modules, (h t).left, (h t).leftBias, (h t).out, (h t).right, (h t).rightBias⟩
  have hy' : ∀ t, SameHyper (m t).model dm.model := fun t => ⟨(hy t).inputDim, (hy t).outputDim, (hy t).bondDim, (hy t).featureDim, (hy t).periodic⟩
  exact C84_mps_forward k ub t₀ p (fun t => (m t).model) h' dp dm.model dh' hy' hp hD hs x e dx de
    (fun t => ⟨x t, by show followPath (m t).mps.path (x t) = _; rw [hpath.1 t]; rfl, e1 t⟩)
    ⟨dx, by show followPath dm.mps.path dx = _; rw [hpath.2]; rfl, d1⟩ hee B (by rw [d2, hdx]; rfl) g hg

/-! ### examples -/

/-- a map with one parameter `w`: x ↦ (w x, 1) -/
def exMap (w : ℤ) : MapObject ℤ := ⟨[[.name "w"]], [⟨[1], fun _ => w⟩], fun vs s => ⟨[2], fun idx => if idx.getD 0 0 = 0 then (vs.headD ⟨[], fun _ => 0⟩).get [0] * s else 1⟩⟩

theorem exMap_fits (w : ℤ) : MapFits 2 (.module (exMap w)) := by
  intro f hf
  simp only [MapArg.callable, Option.mem_some_iff] at hf
  subst hf
  rfl

/-- C108_history, C108_refused: module, None, then a function: the default map is in force and the function is refused. -/
example : LastAccepted 2 [.function (fun s : ℤ => ⟨[2], fun _ => s⟩), .none, .module (exMap 3)] .none ∧
    ((afterMaps ⟨exMps true, .plain none⟩ [.none, .module (exMap 3)]).register (.function fun s => ⟨[2], fun _ => s⟩)) = .error .type := by
  have hs : ModuleSeen 2 [.none, .module (exMap 3)] := ⟨exMap 3, by simp, exMap_fits 3⟩
  have hf : MapFits 2 (.function (fun s : ℤ => ⟨[2], fun _ => s⟩)) := by
    intro f hf
    simp only [MapArg.callable, Option.mem_some_iff] at hf
    subst hf
    rfl
  refine ⟨.refused _ _ _ (Or.inr ⟨⟨_, rfl⟩, hs⟩) (.taken _ _ ?_ ?_), (C108_refused ⟨exMps true, .plain none⟩ rfl _ _).2.1 hf ⟨_, rfl⟩ hs⟩
  · intro f hf; simp [MapArg.callable] at hf
  · rintro ⟨⟨f, hf⟩, -⟩; cases hf

/-- C108_saved: the parameter of the map is restored. -/
example : ∃ r, (⟨exMps true, .child (some (exMap 7))⟩ : MpsObject ℤ).loadStateDict (⟨exMps true, .child (some (exMap 3))⟩ : MpsObject ℤ).stateDict = (.ok (), r) ∧
    ∃ f, r.model.featureMap = some f ∧ (f 5).get [0] = 15 := by
  obtain ⟨r, h1, h2, -⟩ := C108_saved 2 true exParams exParams ⟨exMps true, .child (some (exMap 3))⟩ ⟨exMps true, .child (some (exMap 7))⟩ (exMps_isMps true) (exMps_isMps true)
    ⟨rfl, rfl, rfl, rfl, rfl, rfl, rfl⟩ (exMap 3) (exMap 7) rfl rfl ⟨rfl, rfl, rfl⟩ ⟨by simp [exMap], rfl⟩
  refine ⟨r, h1, _, by rw [h2]; rfl, ?_⟩
  simp [exMap]

/-- C108_register_first -/
example : ((⟨exMps true, .plain none⟩ : MpsObject ℤ).loadStateDict (⟨exMps true, .child (some (exMap 3))⟩ : MpsObject ℤ).stateDict).1 = .error .runtime :=
  (C108_register_first 2 true exParams exParams ⟨exMps true, .child (some (exMap 3))⟩ ⟨exMps true, .plain none⟩ (exMps_isMps true) (exMps_isMps true)
    ⟨rfl, rfl, rfl, rfl, rfl, rfl, rfl⟩ (exMap 3) rfl ⟨by simp [exMap], rfl⟩ (by simp [exMap]) (by simp)).1

/-- C108_trained: two steps which double the parameter. -/
example : ∃ f, (afterMapSteps (⟨exMps true, .child (some (exMap 3))⟩ : MpsObject ℤ)
    (List.replicate 2 fun _ t => ⟨t.shape, fun idx => 2 * t.get idx⟩)).model.featureMap = some f ∧ (f 5).get [0] = 60 := by
  obtain ⟨ms, h, -⟩ := (C108_trained (⟨exMps true, .child (some (exMap 3))⟩ : MpsObject ℤ) (List.replicate 2 fun _ t => ⟨t.shape, fun idx => 2 * t.get idx⟩)).1 (exMap 3) rfl
    ⟨by simp [exMap], rfl⟩
  refine ⟨_, by rw [h], ?_⟩
  simp [exMap, trainedValue, List.replicate]

/-- C108_gradient: the map x ↦ (w x, 1) with moving parameter w = t. -/
example (t₀ : ℝ) : MovingMap (fun t (s : ℝ) => (⟨[2], fun idx => if idx.getD 0 0 = 0 then t * s else 1⟩ : Tensor ℝ))
    (fun ds => ⟨[2], fun idx => if idx.getD 0 0 = 0 then (TrivSqZeroExt.inl t₀ + DualNumber.eps) * ds else 1⟩) t₀ := by
  intro s ds hs
  refine ⟨fun _ => rfl, fun idx _ => ?_⟩
  have ht : Follows (fun t : ℝ => t) (TrivSqZeroExt.inl t₀ + DualNumber.eps) t₀ := by
    refine ⟨by simp, ?_⟩
    exact HasDerivAt.congr_deriv (hasDerivAt_id' t₀) (by simp)
  by_cases h0 : idx.getD 0 0 = 0
  · simp only [h0, if_true]; exact ht.mul hs
  · simp only [h0, if_false]; exact Follows.one t₀

end TorchMPS
