import Verif.Props.Mps
/-
C56 (paths) and C57 (feature maps).
-/
namespace TorchMPS
open Spec
variable {K : Type}

theorem stackAll_ok (ts : List (Tensor K)) (pos : ℕ) (r : Tensor K) (h : stackAll ts pos = .ok r) (idx : List ℕ) (hi : idx.getD pos 0 < ts.length) :
    r.get idx = (ts[idx.getD pos 0]'hi).get (idx.take pos ++ idx.drop (pos + 1)) := by
  cases ts with
  | nil => simp [stackAll] at h
  | cons t ts =>
    simp only [stackAll] at h
    split at h
    · cases h
      simp only [Tensor.stack]
      congr 1
      rw [List.getD_eq_getElem?_getD, List.getElem?_eq_getElem hi]
      rfl
    · cases h

theorem stackAll_exists (ts : List (Tensor K)) (pos : ℕ) (sh : Shape) (hne : ts ≠ []) (h : ∀ t ∈ ts, t.shape = sh) :
    ∃ r, stackAll ts pos = .ok r ∧ r.shape = sh.take pos ++ ts.length :: sh.drop pos := by
  cases ts with
  | nil => exact absurd rfl hne
  | cons t ts =>
    refine ⟨t.stack ts pos, ?_, ?_⟩
    · simp only [stackAll]
      rw [if_pos]
      intro u hu
      rw [h u (by simp [hu]), h t (by simp)]
    · simp [Tensor.stack, h t (by simp)]

theorem mapM_ok_inv {α β : Type} (f : α → Except Err β) (l : List α) (r : List β) (h : l.mapM f = .ok r) :
    r.length = l.length ∧ ∀ i (h1 : i < l.length) (h2 : i < r.length), f l[i] = .ok r[i] := by
  induction l generalizing r with
  | nil =>
    simp only [List.mapM_nil] at h
    cases h
    simp
  | cons a l ih =>
    rw [List.mapM_cons] at h
    obtain ⟨b, hb, h⟩ := bind_ok_inv h
    obtain ⟨bs, hbs, h⟩ := bind_ok_inv h
    cases h
    obtain ⟨i1, i2⟩ := ih bs hbs
    refine ⟨by simp [i1], ?_⟩
    intro i h1 h2
    cases i with
    | zero => exact hb
    | succ i => exact i2 i (by simpa using h1) (by simpa using h2)

theorem mapM_ok_of {α β : Type} (f : α → Except Err β) (l : List α) (g : α → β) (h : ∀ a ∈ l, f a = .ok (g a)) :
    l.mapM f = .ok (l.map g) := by
  induction l with
  | nil => rfl
  | cons a l ih =>
    rw [List.mapM_cons, h a (by simp), bind_ok_except, ih (fun a ha => h a (by simp [ha])), bind_ok_except]
    rfl

theorem embedWith_get (φ : K → Tensor K) (x e : Tensor K) (h : embedWith φ x = .ok e) (b i f : ℕ) (hb : b < x.shape.getD 0 0)
    (hi : i < x.shape.getD 1 0) : e.get [b, i, f] = (φ (x.get [b, i])).get [f] := by
  unfold embedWith at h
  obtain ⟨rows, h1, h2⟩ := bind_ok_inv h
  obtain ⟨l1, l2⟩ := mapM_ok_inv _ _ _ h1
  simp only [List.length_range] at l1 l2
  have hb' : b < rows.length := by omega
  rw [stackAll_ok rows 0 e h2 [b, i, f] (by simpa using hb')]
  have h3 := l2 b hb hb'
  simp only [List.getElem_range] at h3
  have := stackAll_ok _ 0 _ h3 [i, f] (by simpa using hi)
  simpa using this

theorem embedWith_exists (φ : K → Tensor K) (x : Tensor K) (F : ℕ) (h1 : 1 ≤ x.shape.getD 0 0) (h2 : 1 ≤ x.shape.getD 1 0)
    (h : ∀ b < x.shape.getD 0 0, ∀ i < x.shape.getD 1 0, (φ (x.get [b, i])).shape = [F]) :
    ∃ e, embedWith φ x = .ok e ∧ e.shape = [x.shape.getD 0 0, x.shape.getD 1 0, F] := by
  have hrow : ∀ b ∈ List.range (x.shape.getD 0 0), ∃ r, stackAll ((List.range (x.shape.getD 1 0)).map (fun i => φ (x.get [b, i]))) 0 = .ok r ∧
      r.shape = [x.shape.getD 1 0, F] := by
    intro b hb
    obtain ⟨r, r1, r2⟩ := stackAll_exists ((List.range (x.shape.getD 1 0)).map (fun i => φ (x.get [b, i]))) 0 [F]
      (by simp only [ne_eq, List.map_eq_nil_iff, List.range_eq_nil]; omega) (by
        intro t ht
        obtain ⟨i, hi, rfl⟩ := List.mem_map.1 ht
        exact h b (List.mem_range.1 hb) i (List.mem_range.1 hi))
    exact ⟨r, r1, by simpa using r2⟩
  haveI : Nonempty (Tensor K) := ⟨x⟩
  choose! g g1 g2 using hrow
  obtain ⟨e, e1, e2⟩ := stackAll_exists ((List.range (x.shape.getD 0 0)).map g) 0 [x.shape.getD 1 0, F] (by simp only [ne_eq, List.map_eq_nil_iff, List.range_eq_nil]; omega) (by
    intro t ht
    obtain ⟨b, hb, rfl⟩ := List.mem_map.1 ht
    exact g2 b hb)
  refine ⟨e, ?_, by simpa using e2⟩
  unfold embedWith
  rw [mapM_ok_of _ _ g g1, bind_ok_except]
  exact e1

/-! ### C57 -/

/-- C57: every embeddable input is embedded into shape [batch, input_dim, feature_dim], pixel by pixel: a feature vector is used
as it is, a scalar is mapped by the map in force, by default to (x, 1 - x). -/
theorem C57_embedding [One K] [Sub K] (m : MPS K) (x : Tensor K) (h : Embeddable m x) :
    ∃ e, m.embedInput x = .ok e ∧ e.shape = [x.shape.getD 0 0, m.inputDim, m.featureDim] ∧
      ∀ b < x.shape.getD 0 0, ∀ i < m.inputDim, ∀ f < m.featureDim, e.get [b, i, f] = featureEntry m.featureMap x b i f := by
  rcases h with h | ⟨h, hm⟩
  · refine ⟨x, embed_embedded m _ x h, h, ?_⟩
    intro b _ i _ f _
    unfold featureEntry
    rw [if_pos (by rw [h]; rfl)]
  · have h0 : x.shape.length = 2 := by rw [h]; rfl
    have h1 : x.shape.getD 1 0 = m.inputDim := by rw [h]; rfl
    have hstart : m.embedInput x = (match m.featureMap with
        | some f => do
          let e ← embedWith f x
          assert (e.shape = [x.shape.getD 0 0, m.inputDim, m.featureDim])
          return e
        | none => if m.featureDim ≠ 2 then .error .runtime else .ok (embedLinear x)) := by
      unfold MPS.embedInput
      rw [assert_true _ (show x.ndim = 2 ∨ x.ndim = 3 from Or.inl h0), assert_true _ h1, bind_ok_except, bind_ok_except, if_neg (by unfold Tensor.ndim; omega)]
      cases m.featureMap <;> rfl
    rw [hstart]
    unfold featureEntry
    cases hf : m.featureMap with
    | none =>
      rw [hf] at hm
      simp only at hm
      refine ⟨embedLinear x, by simp [hm], ?_, ?_⟩
      · conv_lhs => unfold embedLinear
        simp only
        conv_lhs => rw [h]
        simp [hm]
      · intro b _ i _ f _
        rw [if_neg (by omega)]
        simp [embedLinear]
    | some φ =>
      rw [hf] at hm
      obtain ⟨m1, m2, m3⟩ := hm
      obtain ⟨e, e1, e2⟩ := embedWith_exists φ x m.featureDim m1 (by omega) (by rw [h1]; exact m3)
      rw [h1] at e2
      refine ⟨e, ?_, e2, ?_⟩
      · simp only [e1, bind_ok_except]
        rw [assert_true _ e2]
        rfl
      · intro b hb i hi f _
        rw [if_neg (by omega)]
        exact embedWith_get φ x e e1 b i f hb (by omega)

/-- C57: so evaluating the model is evaluating it on the embedded input; in particular two models differing only in their
feature maps agree on pre-embedded input. -/
theorem C57_forward [CommRing K] (m : MPS K) (hpath : m.path = none) (x e : Tensor K) (he : m.embedInput x = .ok e) (φ : Option (K → Tensor K))
    (g : Option ℕ) : m.forward x g = ({ m with featureMap := φ } : MPS K).forward e g := by
  have h1 : Embedded m x e := ⟨x, by rw [hpath]; rfl, he⟩
  have h2 : Embedded { m with featureMap := φ } e e := ⟨e, by simp only [hpath]; rfl, embed_embedded _ _ e (embed_shape m x e he)⟩
  rw [forward_of_embedded m x e h1, forward_of_embedded _ e e h2]

/-- C57: scalars without a registered map need feature_dim 2, otherwise RuntimeError. -/
theorem C57_default_needs_two [One K] [Sub K] (m : MPS K) (h : m.featureMap = none) (hF : m.featureDim ≠ 2) (x : Tensor K) (B : ℕ)
    (hx : x.shape = [B, m.inputDim]) : m.embedInput x = .error .runtime := by
  unfold MPS.embedInput
  rw [assert_true _ (by simp [Tensor.ndim, hx]), assert_true _ (by simp [hx]), bind_ok_except, bind_ok_except]
  simp [Tensor.ndim, hx, h, hF]

/-- C57: pre-embedded input of another feature dimension is a ValueError. -/
theorem C57_wrong_features [One K] [Sub K] (m : MPS K) (x : Tensor K) (B F : ℕ) (hx : x.shape = [B, m.inputDim, F]) (hF : F ≠ m.featureDim) :
    m.embedInput x = .error .value := by
  unfold MPS.embedInput
  rw [assert_true _ (by simp [Tensor.ndim, hx]), assert_true _ (by simp [hx]), bind_ok_except, bind_ok_except]
  simp [Tensor.ndim, hx, hF]

/-- C57: any other number of axes, or number of pixels, is an AssertionError. -/
theorem C57_wrong_pixels [One K] [Sub K] (m : MPS K) (x : Tensor K) (h : (x.shape.length ≠ 2 ∧ x.shape.length ≠ 3) ∨ x.shape.getD 1 0 ≠ m.inputDim) :
    m.embedInput x = .error .assertion := by
  unfold MPS.embedInput
  by_cases h1 : x.ndim = 2 ∨ x.ndim = 3
  · rw [assert_true _ h1, bind_ok_except, assert_false _ ?_]
    · rfl
    · rcases h with h | h
      · unfold Tensor.ndim at h1
        omega
      · exact h
  · rw [assert_false _ h1]
    rfl

/-- C57: with a registered map, an empty batch cannot be embedded (RuntimeError), although it can without. -/
theorem C57_empty_batch [One K] [Sub K] (m : MPS K) (φ : K → Tensor K) (h : m.featureMap = some φ) (x : Tensor K) (hx : x.shape = [0, m.inputDim]) :
    m.embedInput x = .error .runtime := by
  unfold MPS.embedInput
  rw [assert_true _ (by simp [Tensor.ndim, hx]), assert_true _ (by simp [hx]), bind_ok_except, bind_ok_except]
  simp only [Tensor.ndim, hx, h]
  have : embedWith φ x = .error .runtime := by
    unfold embedWith
    simp only [hx]
    rfl
  simp [this, bind_error_except]

/-- C57: registration. A map whose value at 0 has the wrong size is refused with ValueError; any other is accepted, as is None. -/
theorem C57_register [Zero K] (m : MPS K) (φ : K → Tensor K) :
    m.registerFeatureMap none = .ok { m with featureMap := none } ∧
    ((φ 0).shape = [m.featureDim] → m.registerFeatureMap (some φ) = .ok { m with featureMap := some φ }) ∧
    ((φ 0).shape ≠ [m.featureDim] → m.registerFeatureMap (some φ) = .error .value) := by
  refine ⟨rfl, ?_, ?_⟩
  · intro h
    simp [MPS.registerFeatureMap, h]
  · intro h
    simp [MPS.registerFeatureMap, h]

/-- C57: after every history of registrations the last accepted one is in force and nothing else has changed. -/
theorem C57_history [Zero K] (m : MPS K) (fs : List (Option (K → Tensor K))) :
    afterRegister m fs = { m with featureMap := inForce m.featureDim m.featureMap fs } := by
  induction fs generalizing m with
  | nil => rfl
  | cons f fs ih =>
    cases f with
    | none =>
      simp only [afterRegister, MPS.registerFeatureMap, inForce]
      rw [ih]
    | some φ =>
      by_cases h : (φ 0).shape = [m.featureDim]
      · simp only [afterRegister, (C57_register m φ).2.1 h, inForce, if_pos h]
        rw [ih]
      · simp only [afterRegister, (C57_register m φ).2.2 h, inForce, if_neg h]
        rw [ih]

example : ∃ e, (⟨2, 1, 1, 3, false, false, none, some (fun (v : ℤ) => ⟨[3], fun idx => v ^ idx.getD 0 0⟩), []⟩ : MPS ℤ).embedInput
    ⟨[1, 2], fun idx => if idx.getD 1 0 = 0 then 2 else 5⟩ = .ok e ∧ e.get [0, 1, 2] = 25 := by
  obtain ⟨e, e1, e2, e3⟩ := C57_embedding (⟨2, 1, 1, 3, false, false, none, some (fun (v : ℤ) => ⟨[3], fun idx => v ^ idx.getD 0 0⟩), []⟩ : MPS ℤ)
    ⟨[1, 2], fun idx => if idx.getD 1 0 = 0 then 2 else 5⟩ (by right; simp)
  refine ⟨e, e1, ?_⟩
  rw [e3 0 (by simp) 1 (by simp) 2 (by simp)]
  simp [featureEntry]

theorem embed_entry [One K] [Sub K] (m : MPS K) (x e : Tensor K) (h : m.embedInput x = .ok e) (b : ℕ) (hb : b < x.shape.getD 0 0) (i : ℕ)
    (hi : i < m.inputDim) (f : ℕ) : e.get [b, i, f] = featureEntry m.featureMap x b i f := by
  unfold MPS.embedInput at h
  obtain ⟨_, h1, h⟩ := bind_ok_inv h
  obtain ⟨_, h2, h⟩ := bind_ok_inv h
  rw [assert_ok_iff] at h1 h2
  unfold featureEntry
  by_cases h3 : x.ndim = 3
  · rw [if_pos h3] at h
    split at h
    · cases h
    · cases h
      exact (if_pos h3).symm
  · rw [if_neg h3] at h
    rw [if_neg (show ¬ x.shape.length = 3 from h3)]
    cases hf : m.featureMap with
    | none =>
      rw [hf] at h
      simp only at h
      split at h
      · cases h
      · cases h
        simp [embedLinear]
    | some φ =>
      rw [hf] at h
      simp only at h
      obtain ⟨a, h6, h⟩ := bind_ok_inv h
      obtain ⟨_, h7, h⟩ := bind_ok_inv h
      cases h
      exact embedWith_get φ x e h6 b i f hb (by omega)

/-! ### C56 -/

theorem pickPixel_ok (x : Tensor K) (B n : ℕ) (tl : Shape) (hx : x.shape = B :: n :: tl) (i : ℤ) (h : -(n : ℤ) ≤ i ∧ i < n) :
    pickPixel x i = .ok (x.select 1 (pyIndex n i)) := by
  unfold pickPixel
  rw [if_neg (by simp [Tensor.ndim, hx])]
  simp only [hx]
  exact if_pos h

theorem pickAll_ok (x : Tensor K) (B n : ℕ) (tl : Shape) (hx : x.shape = B :: n :: tl) (is : List ℤ) (h : ∀ i ∈ is, -(n : ℤ) ≤ i ∧ i < n) :
    pickAll x is = .ok (is.map (fun i => x.select 1 (pyIndex n i))) := by
  induction is with
  | nil => rfl
  | cons i is ih =>
    unfold pickAll
    rw [pickPixel_ok x B n tl hx i (h i (by simp)), bind_ok_except, ih (fun i hi => h i (by simp [hi])), bind_ok_except]
    rfl

/-- C56: the rearranged input: pixel `s` of the result is pixel `path[s]` of the input, negative numbers counting from the end. -/
theorem C56_gather [CommRing K] (m : MPS K) (is : List ℤ) (hpath : m.path = some is) (hne : is ≠ []) (x : Tensor K) (B n : ℕ) (tl : Shape)
    (hx : x.shape = B :: n :: tl) (h : ∀ i ∈ is, -(n : ℤ) ≤ i ∧ i < n) :
    ∃ x', x'.shape = B :: is.length :: tl ∧
      (∀ b s (hs : s < is.length) idx, x'.get (b :: s :: idx) = x.get (b :: pyIndex n is[s] :: idx)) ∧
      followPath m.path x = .ok x' ∧ ∀ g, m.forward x g = ({ m with path := none } : MPS K).forward x' g := by
  obtain ⟨x', x1, x2⟩ := stackAll_exists (is.map (fun i => x.select 1 (pyIndex n i))) 1 (B :: tl) (by simpa using hne) (by
    intro t ht
    obtain ⟨i, hi, rfl⟩ := List.mem_map.1 ht
    simp [Tensor.select, hx])
  have hfol : followPath m.path x = .ok x' := by
    rw [hpath]
    unfold followPath
    simp only
    rw [pickAll_ok x B n tl hx is h, bind_ok_except]
    exact x1
  refine ⟨x', by simpa using x2, ?_, hfol, ?_⟩
  · intro b s hs idx
    rw [stackAll_ok _ 1 _ x1 (b :: s :: idx) (by simpa using hs)]
    simp [Tensor.select]
  · intro g
    unfold MPS.forward
    rw [hfol, CM.bind_ok (CM.lift_apply _ _)]
    conv_rhs => rw [show followPath (none : Option (List ℤ)) x' = .ok x' from rfl, CM.bind_ok (CM.lift_apply _ _)]
    rfl

/-- C56: a pixel number outside the input is an IndexError. -/
theorem C56_out_of_range [CommRing K] (m : MPS K) (is : List ℤ) (hpath : m.path = some is) (x : Tensor K) (B n : ℕ) (tl : Shape)
    (hx : x.shape = B :: n :: tl) (h : ∃ i ∈ is, ¬ (-(n : ℤ) ≤ i ∧ i < n)) (g : Option ℕ) : m.forward x g = (.error .index, g) := by
  have hp : pickAll x is = .error .index := by
    clear hpath
    induction is with
    | nil => simp at h
    | cons i is ih =>
      unfold pickAll
      by_cases hi : -(n : ℤ) ≤ i ∧ i < n
      · rw [pickPixel_ok x B n tl hx i hi, bind_ok_except, ih ?_]
        · rfl
        · obtain ⟨j, hj, hj2⟩ := h
          rcases List.mem_cons.1 hj with rfl | hj
          · exact absurd hi hj2
          · exact ⟨j, hj, hj2⟩
      · have : pickPixel x i = .error .index := by
          unfold pickPixel
          rw [if_neg (by simp [Tensor.ndim, hx])]
          simp only [hx]
          exact if_neg hi
        rw [this]
        rfl
  unfold MPS.forward
  refine CM.bind_err ?_
  rw [CM.lift_apply, hpath]
  simp only [followPath]
  rw [hp]
  rfl

/-- C56: two samples agreeing on the pixels of the path get equal outputs, whatever their other pixels are. -/
theorem C56_agree [CommRing K] (k : ℕ) (ub : Bool) (p : Params K) (m : MPS K) (h : IsMps k ub p m)
    (hD : m.periodic = true ∨ 1 ≤ m.bondDim) (hs : NoShortRegion m.inputDim k) (is : List ℤ) (hpath : m.path = some is)
    (hlen : is.length = m.inputDim) (hne : is ≠ []) (x x' : Tensor K) (B B' n : ℕ) (tl : Shape) (hx : x.shape = B :: n :: tl) (hx' : x'.shape = B' :: n :: tl)
    (hi : ∀ i ∈ is, -(n : ℤ) ≤ i ∧ i < n) (e e' : Tensor K) (he : Embedded m x e) (he' : Embedded m x' e')
    (g g' : Option ℕ) (hg : BatchKnown k B g) (hg' : BatchKnown k B' g') (b b' : ℕ) (hb : b < B) (hb' : b' < B')
    (hagree : ∀ i ∈ is, ∀ idx, x.get (b :: pyIndex n i :: idx) = x'.get (b' :: pyIndex n i :: idx)) :
    ∃ y y' g1 g1', m.forward x g = (.ok y, g1) ∧ m.forward x' g' = (.ok y', g1') ∧ y.shape = [B, m.outputDim] ∧ y'.shape = [B', m.outputDim] ∧
      ∀ o < m.outputDim, y.get [b, o] = y'.get [b', o] := by
  obtain ⟨u, u1, u2, u3, _⟩ := C56_gather m is hpath hne x B n tl hx hi
  obtain ⟨u', w1, w2, w3, _⟩ := C56_gather m is hpath hne x' B' n tl hx' hi
  have hemb := he
  have hemb' := he'
  obtain ⟨v, v1, v2⟩ := he
  obtain ⟨v', v1', v2'⟩ := he'
  rw [u3] at v1
  rw [w3] at v1'
  cases v1
  cases v1'
  have hsh := embed_shape m u e v2
  have hsh' := embed_shape m u' e' v2'
  have hB : e.shape.getD 0 0 = B := by rw [hsh, u1]; rfl
  have hB' : e'.shape.getD 0 0 = B' := by rw [hsh', w1]; rfl
  obtain ⟨y, g1, y1, y2, y3⟩ := mps_forward k ub p m h hD hs x e hemb B hB g hg
  obtain ⟨y', g1', z1, z2, z3⟩ := mps_forward k ub p m h hD hs x' e' hemb' B' hB' g' hg'
  refine ⟨y, y', g1, g1', y1, z1, y2, z2, ?_⟩
  intro o ho
  rw [y3 b hb o ho, z3 b' hb' o ho]
  refine mpsValue_congr _ _ _ _ h.label _ _ _ _ _ _ _ _ ?_
  intro i hi f hf
  rw [embed_entry m u e v2 b (by rw [u1]; exact hb) i hi f, embed_entry m u' e' v2' b' (by rw [w1]; exact hb') i hi f]
  have hi2 : i < is.length := by omega
  have hg : ∀ idx, u.get (b :: i :: idx) = u'.get (b' :: i :: idx) := by
    intro idx
    rw [u2 b i hi2, w2 b' i hi2]
    exact hagree _ (List.getElem_mem _) idx
  unfold featureEntry
  rw [u1, w1, hg [f], hg []]
  rfl

/-- C56: a full-length identity path changes nothing. -/
theorem C56_identity [CommRing K] (k : ℕ) (ub : Bool) (p : Params K) (m : MPS K) (h : IsMps k ub p m)
    (hD : m.periodic = true ∨ 1 ≤ m.bondDim) (hs : NoShortRegion m.inputDim k)
    (hpath : m.path = some ((List.range m.inputDim).map (fun i : ℕ => (i : ℤ)))) (hn : 1 ≤ m.inputDim) (x : Tensor K) (B : ℕ) (tl : Shape)
    (hx : x.shape = B :: m.inputDim :: tl) (hemb : Embeddable m x) (g : Option ℕ) (hg : BatchKnown k B g) :
    ∃ y y' g1 g1', m.forward x g = (.ok y, g1) ∧ ({ m with path := none } : MPS K).forward x g = (.ok y', g1') ∧
      y.shape = [B, m.outputDim] ∧ y'.shape = [B, m.outputDim] ∧ ∀ b < B, ∀ o < m.outputDim, y.get [b, o] = y'.get [b, o] := by
  have hin : ∀ i ∈ (List.range m.inputDim).map (fun i : ℕ => (i : ℤ)), -(m.inputDim : ℤ) ≤ i ∧ i < m.inputDim := by
    intro i hi
    obtain ⟨j, hj, rfl⟩ := List.mem_map.1 hi
    have := List.mem_range.1 hj
    omega
  obtain ⟨u, u1, u2, u3, _⟩ := C56_gather m _ hpath (by simp only [ne_eq, List.map_eq_nil_iff, List.range_eq_nil]; omega) x B m.inputDim tl hx hin
  have hu : ∀ b, ∀ i < m.inputDim, ∀ idx, u.get (b :: i :: idx) = x.get (b :: i :: idx) := by
    intro b i hi idx
    rw [u2 b i (by simpa using hi) idx]
    simp only [List.getElem_map, List.getElem_range, pyIndex]
    rw [if_neg (by omega)]
    simp
  have hush : u.shape = x.shape := by rw [u1, hx]; simp
  have hx0 : x.shape.getD 0 0 = B := by rw [hx]; rfl
  have hembu : Embeddable m u := by
    unfold Embeddable at hemb ⊢
    rw [hush]
    rcases hemb with hemb | ⟨h1, h2⟩
    · exact Or.inl hemb
    · refine Or.inr ⟨h1, ?_⟩
      cases hf : m.featureMap with
      | none => rw [hf] at h2; exact h2
      | some φ =>
        rw [hf] at h2
        refine ⟨h2.1, h2.2.1, ?_⟩
        intro b hb i hi
        rw [hu b i hi []]
        exact h2.2.2 b hb i hi
  let m0 : MPS K := { m with path := none }
  have hm0 : IsMps k ub p m0 := ⟨h.label, h.modules, h.left, h.leftBias, h.out, h.right, h.rightBias⟩
  obtain ⟨e, e1, e2, e3⟩ := C57_embedding m u hembu
  obtain ⟨e0, f1, f2, f3⟩ := C57_embedding m0 x hemb
  rw [hush, hx0] at e2 e3
  rw [hx0] at f2 f3
  obtain ⟨y, g1, y1, y2, y3⟩ := mps_forward k ub p m h hD hs x e ⟨u, u3, e1⟩ B (by rw [e2]; rfl) g hg
  obtain ⟨y', g1', z1, z2, z3⟩ := mps_forward k ub p m0 hm0 hD hs x e0 ⟨x, rfl, f1⟩ B (by rw [f2]; rfl) g hg
  refine ⟨y, y', g1, g1', y1, z1, y2, z2, ?_⟩
  intro b hb o ho
  rw [y3 b hb o ho, z3 b hb o ho]
  refine mpsValue_congr _ _ _ _ h.label _ _ _ _ _ _ _ _ ?_
  intro i hi f hf
  rw [e3 b hb i hi f hf, f3 b hb i hi f hf]
  unfold featureEntry
  rw [hush, hu b i hi [f], hu b i hi []]

/-- C56: a non-empty list of the right length is accepted as path, of another length refused with AssertionError; a tensor of
any length but one raises RuntimeError at construction. -/
theorem C56_arguments (n : ℕ) (is : List ℤ) :
    (is ≠ [] → is.length = n → checkPath (.list is) n = .ok (some is)) ∧
    (is ≠ [] → is.length ≠ n → checkPath (.list is) n = .error .assertion) ∧
    (is.length ≠ 1 → checkPath (.tensor is) n = .error .runtime) := by
  refine ⟨?_, ?_, ?_⟩
  · intro h1 h2
    simp only [checkPath, if_neg h1]
    rw [assert_true _ h2]
    rfl
  · intro h1 h2
    simp only [checkPath, if_neg h1]
    rw [assert_false _ h2]
    rfl
  · intro h
    unfold checkPath
    obtain _ | ⟨i, _ | ⟨j, l⟩⟩ := is <;> simp at h ⊢

/-- C56: a path given as a tensor, however right, makes the constructor raise (unless it has one element). -/
theorem C56_tensor_path (d : Draws) (a : MpsArgs) (is : List ℤ) (hp : a.path = .tensor is) (hl : is.length ≠ 1) : ∃ err, MPS.init d a = .error err := by
  cases h : MPS.init d a with
  | error e => exact ⟨e, rfl⟩
  | ok m =>
    unfold MPS.init at h
    obtain ⟨_, _, h⟩ := bind_ok_inv h
    obtain ⟨_, _, h⟩ := bind_ok_inv h
    obtain ⟨_, _, h⟩ := bind_ok_inv h
    obtain ⟨path, h, _⟩ := bind_ok_inv h
    rw [hp, (C56_arguments a.inputDim is).2.2 hl] at h
    cases h

/-! ### the hypotheses of C51-C58 are met by a concrete model -/

/-- two pixels on either side of the output, bond dimension 2, three outputs, with biases -/
def exParams : Params ℤ :=
  ⟨⟨[2, 2, 2, 2], fun i => (i.getD 0 0 : ℤ) + i.getD 3 0⟩, ⟨[1, 2, 2], fun i => if i.getD 1 0 = i.getD 2 0 then 1 else 0⟩,
    ⟨[3, 2, 2], fun i => i.getD 0 0⟩, ⟨[2, 2, 2, 2], fun i => i.getD 1 0⟩, ⟨[1, 2, 2], fun _ => 2⟩⟩

/-- the model with these parameters and the reversing path -/
def exMps (periodic : Bool) : MPS ℤ :=
  ⟨4, 3, 2, 2, periodic, false, some [-1, 2, 1, 0], none,
    [.inputRegion exParams.left (some exParams.leftBias), .outputSite exParams.out, .inputRegion exParams.right (some exParams.rightBias)]⟩

theorem exMps_isMps (periodic : Bool) : IsMps 2 true exParams (exMps periodic) :=
  ⟨by cases periodic <;> decide, rfl, rfl, rfl, rfl, rfl, rfl⟩

example : NoShortRegion (exMps true).inputDim 2 ∧ BatchKnown 2 5 none ∧ Embeddable (exMps true) ⟨[5, 4], fun _ => 7⟩ ∧
    Embeddable (exMps false) ⟨[5, 4, 2], fun _ => 7⟩ :=
  ⟨⟨by decide, by decide⟩, Or.inl (by decide), Or.inr ⟨rfl, rfl⟩, Or.inl rfl⟩

example (periodic : Bool) (x : Tensor ℤ) (hx : x.shape = [5, 4]) : ∃ y, ((exMps periodic).forward x none).1 = .ok y ∧ y.shape = [5, 3] := by
  obtain ⟨x', x1, _, x3, _⟩ := C56_gather (exMps periodic) [-1, 2, 1, 0] rfl (by decide) x 5 4 [] hx (by decide)
  obtain ⟨e, e1, e2, _⟩ := C57_embedding (exMps periodic) x' (by rw [Embeddable, x1]; exact Or.inr ⟨rfl, rfl⟩)
  obtain ⟨y, y1, y2⟩ := C55_evaluates 2 true exParams (exMps periodic) (exMps_isMps periodic) (Or.inr (by cases periodic <;> decide)) (by cases periodic <;> exact ⟨by decide, by decide⟩) x e ⟨x', x3, e1⟩ none
    (Or.inl (by decide))
  refine ⟨y, y1, ?_⟩
  rw [y2, e2, x1]
  rfl

end TorchMPS
