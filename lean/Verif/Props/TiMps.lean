import Verif.Lemmas.TiInput
import Verif.Props.InitTensor
/-
C66 (the function computed by TI_MPS), C67 and C68 (padding), C69 (accepted inputs), and C53, C54 for TI_MPS.
-/
namespace TorchMPS
open Spec
variable {K : Type}

/-! ### C69 -/

/-- C69: every documented input is accepted and formatted into shape [batch, longest length, feature_dim], step by step: embedded steps as
they are, scalars through the map in force, with zeros (embedded sequences) or the scalar zero (others) beyond the end of a sequence. -/
theorem C69_accepted [CommRing K] (m : TiMps K) (B n : ℕ) (inp : TiInput K) (h : TiAccepts m B n inp) :
    ∃ x, m.formatInput inp = .ok x ∧ x.shape = [B, n, m.featureDim] ∧
      ∀ b < B, ∀ i < n, ∀ f < m.featureDim, x.get [b, i, f] = tiEntry m inp b i f := by
  cases inp with
  | other => exact absurd h id
  | batch t =>
    rw [ti_format_batch]
    rcases h with h | ⟨h, he⟩
    · refine ⟨t, ?_, h, ?_⟩
      · rw [embedIfRaw_not m t (by simp [Tensor.ndim, h]), bind_ok_except, assert_true _ (by simp [Tensor.ndim, h]), bind_ok_except,
          assert_true _ (by simp [h])]
        rfl
      · intro b _ i _ f _
        simp [tiEntry, h]
    · obtain ⟨e, e1, e2, e3⟩ := ti_embed_ok m t B n h he
      refine ⟨e, ?_, e2, ?_⟩
      · rw [embedIfRaw_raw m t (by simp [Tensor.ndim, h]), e1, bind_ok_except, assert_true _ (by simp [Tensor.ndim, e2]), bind_ok_except,
          assert_true _ (by simp [e2])]
        rfl
      · intro b hb i hi f _
        rw [e3 b hb i hi]
        simp [tiEntry, h]
  | list ts =>
    obtain ⟨h0, h1, h2, h3, h4⟩ := h
    have hmax := maxLen_eq ts n h1 h2
    obtain ⟨t₀, tl, rfl⟩ : ∃ t₀ tl, ts = t₀ :: tl := by
      obtain ⟨t, ht, _⟩ := h1
      cases ts with
      | nil => simp at ht
      | cons a l => exact ⟨a, l, rfl⟩
    rw [ti_format_list]
    have hif : ¬ (¬ (m.useBias = true ∧ m.fixedBias = true) ∧ ∃ s ∈ t₀ :: tl, s.shape.getD 0 0 ≠ maxLen (t₀ :: tl)) := by
      rintro ⟨p1, s, p2, p3⟩
      rw [hmax] at p3
      rcases h3 with h3 | h3
      · exact p1 h3
      · exact p3 (h3 s p2)
    rcases h4 with h4 | ⟨h4, he⟩
    · have hd : ∀ t ∈ t₀ :: tl, t.ndim = 2 := by
        intro t ht
        unfold Tensor.ndim
        rw [h4 t ht]
        rfl
      have hd0 : t₀.ndim = 2 := hd t₀ (by simp)
      obtain ⟨x, x1, x2, x3⟩ := collate_ok m (t₀ :: tl) 2 n [m.featureDim] (by simp) h1 h2 h3 h4
      rw [h0] at x2
      refine ⟨x, ?_, x2, ?_⟩
      · rw [hd0, assert_true _ (Or.inr rfl), bind_ok_except, assert_true _ hd, bind_ok_except, assert_true _ (Or.inr (by
          intro s hs
          rw [h4 s hs]
          rfl)), bind_ok_except, if_neg hif, x1, bind_ok_except, embedIfRaw_not m x (by simp [Tensor.ndim, x2])]
      · intro b hb i hi f _
        have hb' : b < (t₀ :: tl).length := by omega
        have hl : (t₀ :: tl)[b].shape.length = 2 := hd _ (List.getElem_mem hb')
        rw [x3 b hb' i hi [f]]
        simp only [tiEntry, List.getElem?_eq_getElem hb', itemEntry, hl]
        simp
    · have hd : ∀ t ∈ t₀ :: tl, t.ndim = 1 := by
        intro t ht
        unfold Tensor.ndim
        rw [h4 t ht]
        rfl
      have hd0 : t₀.ndim = 1 := hd t₀ (by simp)
      obtain ⟨x, x1, x2, x3⟩ := collate_ok m (t₀ :: tl) 1 n [] (by simp) h1 h2 h3 h4
      rw [h0] at x2
      have hraw : ∀ b < B, ∀ i < n, x.get [b, i] = rawValue (t₀ :: tl) b i := by
        intro b hb i hi
        have hb' : b < (t₀ :: tl).length := by omega
        rw [x3 b hb' i hi []]
        simp only [rawValue, List.getElem?_eq_getElem hb']
      obtain ⟨e, e1, e2, e3⟩ := ti_embed_ok m x B n x2 (by
        unfold TiEmbeds at he ⊢
        cases hf : m.featureMap with
        | none =>
          rw [hf] at he
          exact he
        | some φ =>
          rw [hf] at he
          refine ⟨he.1, he.2.1, ?_⟩
          intro b hb i hi
          simp only
          rw [hraw b hb i hi]
          exact he.2.2 b hb i hi)
      refine ⟨e, ?_, e2, ?_⟩
      · rw [hd0, assert_true _ (Or.inl rfl), bind_ok_except, assert_true _ hd, bind_ok_except, assert_true _ (Or.inl rfl), bind_ok_except,
          if_neg hif, x1, bind_ok_except, embedIfRaw_raw m x (by simp [Tensor.ndim, x2]), e1]
      · intro b hb i hi f _
        have hb' : b < (t₀ :: tl).length := by omega
        have hl : (t₀ :: tl)[b].shape.length = 1 := hd _ (List.getElem_mem hb')
        rw [e3 b hb i hi, hraw b hb i hi]
        simp only [tiEntry, rawValue, List.getElem?_eq_getElem hb', itemEntry, hl, if_true]
        split <;> rfl

/-- C69: and nothing else is accepted. -/
theorem C69_accepted_iff [CommRing K] (m : TiMps K) (inp : TiInput K) :
    (∃ x, m.formatInput inp = .ok x) ↔ ∃ B n, TiAccepts m B n inp := by
  constructor
  · rintro ⟨x, h⟩
    cases inp with
    | other => cases h
    | batch t =>
      rw [ti_format_batch] at h
      obtain ⟨e, h1, h⟩ := bind_ok_inv h
      obtain ⟨_, h2, h⟩ := bind_ok_inv h
      obtain ⟨_, h3, h⟩ := bind_ok_inv h
      rw [assert_ok_iff] at h2 h3
      by_cases hd : t.ndim = 2
      · rw [embedIfRaw_raw m t hd] at h1
        obtain ⟨B, n, hs, he⟩ := ti_embed_inv m t e h1
        exact ⟨B, n, Or.inr ⟨hs, he⟩⟩
      · rw [embedIfRaw_not m t hd] at h1
        cases h1
        obtain ⟨B, n, F, hs⟩ := List.length_eq_three.1 h2
        rw [hs] at h3
        refine ⟨B, n, Or.inl ?_⟩
        rw [hs]
        simp at h3
        rw [h3]
    | list ts =>
      cases ts with
      | nil => cases h
      | cons t₀ tl =>
        rw [ti_format_list] at h
        obtain ⟨_, h1, h⟩ := bind_ok_inv h
        obtain ⟨_, h2, h⟩ := bind_ok_inv h
        obtain ⟨_, h3, h⟩ := bind_ok_inv h
        rw [assert_ok_iff] at h1 h2 h3
        split at h
        · cases h
        rename_i h4
        obtain ⟨y, h5, h⟩ := bind_ok_inv h
        obtain ⟨q1, q2⟩ := maxLen_spec (t₀ :: tl) (by simp)
        have q3 : (m.useBias = true ∧ m.fixedBias = true) ∨ ∀ t ∈ t₀ :: tl, itemLen t = maxLen (t₀ :: tl) := by
          by_contra hcon
          push Not at hcon
          obtain ⟨c1, s, c2, c3⟩ := hcon
          exact h4 ⟨by rintro ⟨a, b⟩; exact c1 a b, s, c2, c3⟩
        refine ⟨(t₀ :: tl).length, maxLen (t₀ :: tl), rfl, q2, q1, q3, ?_⟩
        rcases h1 with h1 | h1
        · right
          have hsh : ∀ t ∈ t₀ :: tl, t.shape = [itemLen t] := by
            intro t ht
            have := h2 t ht
            rw [h1] at this
            obtain ⟨a, ha⟩ := List.length_eq_one_iff.1 this
            unfold itemLen
            rw [ha]
            rfl
          refine ⟨hsh, ?_⟩
          obtain ⟨x', x1, x2, x3⟩ := collate_ok m (t₀ :: tl) 1 _ [] (by simp) q2 q1 q3 hsh
          rw [h1] at h5
          rw [x1] at h5
          cases h5
          rw [embedIfRaw_raw m _ (by simp [Tensor.ndim, x2])] at h
          obtain ⟨B, n, hs, he⟩ := ti_embed_inv m _ _ h
          rw [x2] at hs
          cases hs
          unfold TiEmbeds at he ⊢
          cases hf : m.featureMap with
          | none =>
            rw [hf] at he
            exact he
          | some φ =>
            rw [hf] at he
            refine ⟨he.1, he.2.1, ?_⟩
            intro b hb i hi
            have := he.2.2 b hb i hi
            simp only at this
            rw [x3 b hb i hi []] at this
            simp only [rawValue, List.getElem?_eq_getElem hb]
            exact this
        · left
          intro t ht
          have := h2 t ht
          rw [h1] at this
          obtain ⟨a, c, ha⟩ := List.length_eq_two.1 this
          rcases h3 with h3 | h3
          · omega
          · have := h3 t ht
            unfold itemLen
            rw [ha] at this ⊢
            simp at this
            rw [this]
            rfl
  · rintro ⟨B, n, h⟩
    obtain ⟨x, hx, _⟩ := C69_accepted m B n inp h
    exact ⟨x, hx⟩

/-- C69: without a fixed bias, otherwise well-formed lists with sequences of two lengths raise ValueError. -/
theorem C69_different_lengths [CommRing K] (m : TiMps K) (hp : ¬ (m.useBias = true ∧ m.fixedBias = true)) (ts : List (Tensor K))
    (hs : (∀ t ∈ ts, t.shape = [itemLen t, m.featureDim]) ∨ ∀ t ∈ ts, t.shape = [itemLen t]) (s t : Tensor K) (h1 : s ∈ ts) (h2 : t ∈ ts)
    (h : itemLen s ≠ itemLen t) : m.formatInput (.list ts) = .error .value := by
  obtain ⟨t₀, tl, rfl⟩ : ∃ t₀ tl, ts = t₀ :: tl := by
    cases ts with
    | nil => simp at h1
    | cons a l => exact ⟨a, l, rfl⟩
  have hif : ¬ (m.useBias = true ∧ m.fixedBias = true) ∧ ∃ s ∈ t₀ :: tl, s.shape.getD 0 0 ≠ maxLen (t₀ :: tl) := by
    refine ⟨hp, ?_⟩
    by_contra hcon
    push Not at hcon
    exact h (by unfold itemLen; rw [hcon s h1, hcon t h2])
  rw [ti_format_list]
  rcases hs with hs | hs
  · have hd : ∀ t ∈ t₀ :: tl, t.ndim = 2 := by
      intro t ht
      unfold Tensor.ndim
      rw [hs t ht]
      rfl
    rw [hd t₀ (by simp), assert_true _ (Or.inr rfl), bind_ok_except, assert_true _ hd, bind_ok_except, assert_true _ (Or.inr (by
      intro s h
      rw [hs s h]
      rfl)), bind_ok_except, if_pos hif]
  · have hd : ∀ t ∈ t₀ :: tl, t.ndim = 1 := by
      intro t ht
      unfold Tensor.ndim
      rw [hs t ht]
      rfl
    rw [hd t₀ (by simp), assert_true _ (Or.inl rfl), bind_ok_except, assert_true _ hd, bind_ok_except, assert_true _ (Or.inl rfl),
      bind_ok_except, if_pos hif]

/-- C69: a list with items of two ranks, or of rank other than 1 and 2, raises AssertionError. -/
theorem C69_wrong_ranks [CommRing K] (m : TiMps K) (ts : List (Tensor K)) (s t : Tensor K) (h1 : s ∈ ts) (h2 : t ∈ ts)
    (h : s.shape.length ≠ t.shape.length ∨ (s.shape.length ≠ 1 ∧ s.shape.length ≠ 2)) : m.formatInput (.list ts) = .error .assertion := by
  obtain ⟨t₀, tl, rfl⟩ : ∃ t₀ tl, ts = t₀ :: tl := by
    cases ts with
    | nil => simp at h1
    | cons a l => exact ⟨a, l, rfl⟩
  rw [ti_format_list]
  by_cases hr : t₀.ndim = 1 ∨ t₀.ndim = 2
  · rw [assert_true _ hr, bind_ok_except, assert_false _ ?_]
    · rfl
    · intro hall
      have a := hall s h1
      have b := hall t h2
      unfold Tensor.ndim at a b hr
      omega
  · rw [assert_false _ hr]
    rfl

/-- C69: embedded sequences of a wrong feature dimension raise AssertionError, in a list or as a batch. -/
theorem C69_wrong_features [CommRing K] (m : TiMps K) :
    (∀ ts : List (Tensor K), (∀ t ∈ ts, t.shape.length = 2) → (∃ t ∈ ts, t.shape.getD 1 0 ≠ m.featureDim) →
      m.formatInput (.list ts) = .error .assertion) ∧
    ∀ t : Tensor K, t.shape.length = 3 → t.shape.getD 2 0 ≠ m.featureDim → m.formatInput (.batch t) = .error .assertion := by
  constructor
  · intro ts hs hex
    obtain ⟨s, s1, s2⟩ := hex
    obtain ⟨t₀, tl, rfl⟩ : ∃ t₀ tl, ts = t₀ :: tl := by
      cases ts with
      | nil => simp at s1
      | cons a l => exact ⟨a, l, rfl⟩
    have h0 : t₀.ndim = 2 := hs t₀ (by simp)
    rw [ti_format_list, h0, assert_true _ (Or.inr rfl), bind_ok_except, assert_true (∀ s ∈ t₀ :: tl, s.ndim = 2) hs, bind_ok_except, assert_false _ ?_]
    · rfl
    · rintro (h | h)
      · omega
      · exact s2 (h s s1)
  · intro t h3 hF
    rw [ti_format_batch, embedIfRaw_not m t (by unfold Tensor.ndim; omega), bind_ok_except, assert_true (t.ndim = 3) h3, bind_ok_except, assert_false _ hF]
    rfl

/-- C69: a batch tensor with neither 2 nor 3 axes raises AssertionError, an empty list IndexError, anything else than a tensor or a list
ValueError, and scalars without a registered map need feature_dim 2 (RuntimeError). -/
theorem C69_other_errors [CommRing K] (m : TiMps K) :
    (∀ t : Tensor K, t.shape.length ≠ 2 → t.shape.length ≠ 3 → m.formatInput (.batch t) = .error .assertion) ∧
    m.formatInput (.list []) = .error .index ∧ m.formatInput .other = .error .value ∧
    (m.featureMap = none → m.featureDim ≠ 2 → ∀ t : Tensor K, t.shape.length = 2 → m.formatInput (.batch t) = .error .runtime) := by
  refine ⟨?_, rfl, rfl, ?_⟩
  · intro t h2 h3
    rw [ti_format_batch, embedIfRaw_not m t h2, bind_ok_except, assert_false (t.ndim = 3) h3]
    rfl
  · intro h1 h2 t ht
    rw [ti_format_batch, embedIfRaw_raw m t ht]
    unfold TiMps.embedInput
    rw [assert_true (t.ndim = 2) ht, bind_ok_except, h1]
    simp only [h2, ne_eq, not_false_eq_true, if_true]
    rfl

/-! ### C66 -/

theorem tiState_congr [CommSemiring K] (m : TiMps K) (x y : ℕ → ℕ → K) (n : ℕ)
    (h : ∀ i < n, ∀ f < m.featureDim, x i f = y i f) : ∀ r, tiState m x n r = tiState m y n r := by
  induction n with
  | zero => intro r; rfl
  | succ n ih =>
    intro r
    simp only [tiState]
    refine Finset.sum_congr rfl ?_
    intro l _
    rw [ih (fun i hi => h i (by omega)) l]
    congr 2
    refine Finset.sum_congr rfl ?_
    intro f hf
    rw [h n (by omega) f (Finset.mem_range.1 hf)]

theorem tiValue_congr [CommSemiring K] (m : TiMps K) (x y : ℕ → ℕ → K) (n : ℕ)
    (h : ∀ i < n, ∀ f < m.featureDim, x i f = y i f) (o : ℕ) : tiValue m n x o = tiValue m n y o := by
  unfold tiValue
  refine Finset.sum_congr rfl ?_
  intro l _
  rw [tiState_congr m x y n h]

/-- C66: for every accepted input whose longest sequence has length n ≥ 1, and whatever happened before in the process (`g`), `forward`
returns shape [batch, output_dim], output o for sequence b being init^T (A.x_1 + bias) ... (A.x_n + bias) T. -/
theorem C66_value [CommRing K] (m : TiMps K) (h : IsTi m) (inp : TiInput K) (B n : ℕ) (hi : TiAccepts m B n inp) (hn : 1 ≤ n) (g : Option ℕ) :
    ∃ y, m.forward inp g = (.ok y, some B) ∧ y.shape = [B, m.outputDim] ∧
      ∀ b < B, ∀ o < m.outputDim, y.get [b, o] = tiValue m n (tiEntry m inp b) o := by
  obtain ⟨x, x1, x2, x3⟩ := C69_accepted m B n inp hi
  obtain ⟨y, y1, y2, y3⟩ := ti_forward m h inp x x1 B n x2 hn g
  refine ⟨y, y1, y2, ?_⟩
  intro b hb o ho
  rw [y3 b hb o ho]
  exact tiValue_congr m _ _ n (fun i hi f hf => x3 b hb i hi f hf) o

/-- C66: inputs of length 0 always raise: ValueError with parallel_eval, RuntimeError without. -/
theorem C66_empty [CommRing K] (m : TiMps K) (h : IsTi m) (inp : TiInput K) (B : ℕ) (hi : TiAccepts m B 0 inp) (g : Option ℕ) :
    (m.forward inp g).1 = .error (if m.parallel then .value else .runtime) := by
  obtain ⟨x, hf, hx, _⟩ := C69_accepted m B 0 inp hi
  obtain ⟨core, c1, c2, c3⟩ := expand_core m.bondDim m.featureDim 0 m.core h.core
  obtain ⟨bias, b1, b2, b3⟩ := ti_region m h 0 core c2
  obtain ⟨mats, m1, m2, m3⟩ := inputRegionMats_ok B 0 m.bondDim m.featureDim core x bias c2 hx b2
  set E : Contractable K := ⟨.edgeVec, ⟨[B, m.bondDim], fun idx => m.initVec.get (idx.drop 1)⟩, ['b', 'r']⟩ with hE
  set R : Contractable K := ⟨.matRegion, mats, ['b', 's', 'l', 'r']⟩ with hR
  set T : Contractable K := ⟨.outputMat, ⟨[B, m.bondDim, m.outputDim], fun idx => m.termMat.get (idx.drop 1)⟩, ['b', 'l', 'o']⟩ with hT
  have hfw : (Module.inputRegion core bias).forward x g = (.ok R, some B) := by
    simp only [Module.forward]
    rw [m1, CM.bind_ok (CM.lift_apply _ _), mkMatRegion_ok B 0 m.bondDim mats m2]
  have he : mkEdgeVec m.initVec true (some B) = (.ok E, some B) := mkEdgeVec_expand m.bondDim true m.initVec h.initVec B
  have ht : mkOutputMat m.termMat false (some B) = (.ok T, some B) := mkOutputMat_expand m.bondDim m.outputDim m.termMat h.termMat B
  obtain ⟨_, s2, s3⟩ := C47_empty B m.bondDim R E rfl m2 rfl (some B)
  have hred : reduceList [E, R, T] m.parallel (some B) = (.error (if m.parallel then .value else .runtime), some B) := by
    unfold reduceList
    cases m.parallel with
    | true =>
      unfold prepItems
      refine CM.bind_err ?_
      simp only [if_true, reduceItems]
      have hEr : reduceItem E (some B) = (.ok E, some B) := rfl
      rw [CM.bind_ok hEr]
      refine CM.bind_err ?_
      exact CM.bind_err s3
    | false =>
      have h1 : star R T (some B) = (.error .type, some B) :=
        C46_unsupported R T (by simp [hR, hT, CanMultiply]) (by simp [hR, hT]) (by simp [hR, hT]) (some B)
      unfold prepItems
      simp only [Bool.false_eq_true, if_false]
      rw [CM.bind_ok (show (pure [E, R, T] : CM _) (some B) = (.ok _, some B) from rfl)]
      refine CM.bind_err ?_
      show reduceLoop 3 [E, R, T] (some B) = _
      rw [reduceLoop, if_pos (by simp)]
      refine CM.bind_err ?_
      unfold CM.exceptType
      rw [show mulLast [E, R, T] (some B) = (.error .type, some B) from mulLast_err [E] R T (some B) (some B) .type h1]
      show mulFirst [E, R, T] (some B) = _
      simp only [mulFirst]
      rw [CM.bind_err s2]
  unfold TiMps.forward
  rw [hf, CM.bind_ok (CM.lift_apply _ _), hx]
  simp only [List.getD_cons_succ, List.getD_cons_zero]
  rw [c1, CM.bind_ok (CM.lift_apply _ _), b1, CM.bind_ok (CM.lift_apply _ _), CM.bind_ok hfw, CM.bind_ok he, CM.bind_ok ht, CM.bind_err hred]

/-- C66: rejected inputs raise in `forward` as in `format_input`. -/
theorem C66_rejected [CommRing K] (m : TiMps K) (inp : TiInput K) (e : Err) (h : m.formatInput inp = .error e) (g : Option ℕ) :
    m.forward inp g = (.error e, g) := by
  unfold TiMps.forward
  rw [h]
  exact CM.bind_err rfl

/-- C66: the constructor refuses exactly fixed ends with more outputs than bonds (ValueError); otherwise it makes a model of the form assumed
in the other theorems, with a core of scaled noise, an initial vector of ones, a (rectangular) identity terminal matrix, with noise unless
the ends are fixed, and a bias that is the identity, with noise unless it is fixed, or absent. -/
theorem C66_construction (d : TiDraws) (O D F : ℕ) (par fe : Bool) (std : ℝ) (ub fb : Bool) :
    (fe = true ∧ D < O → TiMps.init d O D F par fe std ub fb = .error .value) ∧
    (¬ (fe = true ∧ D < O) → ∃ m, TiMps.init d O D F par fe std ub fb = .ok m ∧ IsTi m ∧ m.outputDim = O ∧ m.bondDim = D ∧ m.featureDim = F ∧
      m.parallel = par ∧ m.useBias = ub ∧ m.fixedBias = fb ∧ m.featureMap = none ∧
      (∀ l r f, m.core.get [l, r, f] = std * d.core [l, r, f]) ∧ (∀ l, m.initVec.get [l] = 1) ∧
      (∀ l o, m.termMat.get [l, o] = (if l = o then 1 else 0) + if fe then 0 else d.term [l, o] / D) ∧
      ∀ l < D, ∀ r < D, tiBiasAt m l r =
        if ub then (if l = r then 1 else 0) + if fb then 0 else std * d.bias [l, r] else 0) := by
  have hcore := C42_random_zero d.core [D, D, F] ['l', 'r', 'i'] (.tuple "random_zero" (some std) none) std (Or.inl ⟨none, rfl⟩) (by simp)
    (by simp)
  unfold TiMps.init
  rw [hcore, bind_ok_except, show initialVector (K := ℝ) D none = .ok ⟨[D], fun _ => 1⟩ from rfl, bind_ok_except]
  constructor
  · intro h
    unfold terminalOutput
    rw [if_pos h]
    rfl
  · intro h
    unfold terminalOutput
    rw [if_neg h, bind_ok_except]
    cases ub with
    | false =>
      refine ⟨_, rfl, ⟨rfl, rfl, rfl, by simp, by simp⟩, rfl, rfl, rfl, rfl, rfl, rfl, rfl, fun _ _ _ => rfl, fun _ => rfl, fun _ _ => rfl, ?_⟩
      intro l _ r _
      simp [tiBiasAt]
    | true =>
      cases fb with
      | true =>
        refine ⟨⟨O, D, F, par, true, true, none, ⟨[D, D, F], fun idx => std * d.core idx⟩, ⟨[D], fun _ => 1⟩, _, some (eyeMat D)⟩, rfl, ⟨rfl, rfl, rfl, ?_, ?_⟩, rfl, rfl, rfl, rfl, rfl, rfl, rfl, fun _ _ _ => rfl, fun _ => rfl, fun _ _ => rfl, ?_⟩
        · intro _
          exact ⟨_, rfl, rfl⟩
        · intro _ _ l _ r _
          simp [tiBiasAt, eyeMat]
        · intro l _ r _
          simp [tiBiasAt, eyeMat]
      | false =>
        obtain ⟨t, t1, t2, t3⟩ := C42_random_eye d.bias (fun _ => D) ['l', 'r'] (.tuple "random_eye" (some std) none) std (Or.inl ⟨none, rfl⟩)
          (by simp) (by simp) (by simp) (Or.inr rfl)
        have hb : tiBias d D std true false = .ok (some t) := by
          unfold tiBias
          simp only [if_true, Bool.false_eq_true, if_false]
          rw [show [D, D] = ['l', 'r'].map (fun _ => D) from rfl, t1]
          rfl
        rw [hb, bind_ok_except]
        refine ⟨⟨O, D, F, par, true, false, none, ⟨[D, D, F], fun idx => std * d.core idx⟩, ⟨[D], fun _ => 1⟩, _, some t⟩, rfl, ⟨rfl, rfl, rfl, ?_, ?_⟩, rfl, rfl, rfl, rfl, rfl, rfl, rfl, fun _ _ _ => rfl, fun _ => rfl, fun _ _ => rfl, ?_⟩
        · intro _
          exact ⟨_, rfl, t2⟩
        · intro _ h
          cases h
        · intro l hl r hr
          have := t3 (fun c => if c = 'l' then l else r) (by
            intro c _
            split <;> assumption)
          simpa [tiBiasAt] using this

/-- C66: the initial vector with `fill_dim = d` is accepted exactly for 0 ≤ d ≤ bond dimension (AssertionError otherwise) and has d ones
followed by zeros; without `fill_dim` all its entries are ones. -/
theorem C66_initial_vector [Zero K] [One K] (D : ℕ) :
    (∀ d : ℤ, (d < 0 ∨ (D : ℤ) < d) → initialVector (K := K) D (some d) = .error .assertion) ∧
    (∀ d ≤ D, ∃ v, initialVector (K := K) D (some (d : ℤ)) = .ok v ∧ v.shape = [D] ∧ (∀ i < d, v.get [i] = 1) ∧
      ∀ i < D, d ≤ i → v.get [i] = 0) ∧
    ∃ v, initialVector (K := K) D none = .ok v ∧ v.shape = [D] ∧ ∀ i < D, v.get [i] = 1 := by
  refine ⟨?_, ?_, ⟨_, rfl, rfl, fun _ _ => rfl⟩⟩
  · intro d hd
    simp only [initialVector]
    rw [assert_false _ (by omega)]
    rfl
  · intro d hd
    simp only [initialVector]
    rw [assert_true _ (by omega), bind_ok_except]
    refine ⟨_, rfl, rfl, ?_, ?_⟩
    · intro i hi
      simp [hi]
    · intro i _ hi
      simp [Nat.not_lt.2 hi]

/-! ### C53, C54 for TI_MPS -/

theorem tiState_parallel [CommSemiring K] (m : TiMps K) (par : Bool) (x : ℕ → ℕ → K) (n : ℕ) :
    tiState { m with parallel := par } x n = tiState m x n := by
  induction n with
  | zero => rfl
  | succ n ih =>
    funext r
    simp only [tiState, ih]
    rfl

theorem tiValue_parallel [CommSemiring K] (m : TiMps K) (par : Bool) (x : ℕ → ℕ → K) (n o : ℕ) :
    tiValue { m with parallel := par } n x o = tiValue m n x o := by
  unfold tiValue
  rw [tiState_parallel]

theorem tiEntry_parallel [CommRing K] (m : TiMps K) (par : Bool) (inp : TiInput K) (b : ℕ) :
    tiEntry { m with parallel := par } inp b = tiEntry m inp b := by
  cases inp <;> rfl

/-- C53: two TI_MPS differing only in `parallel_eval` have the same outputs, on every input either accepts (and raise on the same ones). -/
theorem C53_ti [CommRing K] (m : TiMps K) (h : IsTi m) (par : Bool) (inp : TiInput K) (g g' : Option ℕ) :
    (∃ y y', (m.forward inp g).1 = .ok y ∧ (({ m with parallel := par } : TiMps K).forward inp g').1 = .ok y' ∧ y.Eqv y') ∨
    ∃ e e', (m.forward inp g).1 = .error e ∧ (({ m with parallel := par } : TiMps K).forward inp g').1 = .error e' := by
  have h' : IsTi { m with parallel := par } := ⟨h.core, h.initVec, h.termMat, h.bias, h.fixed⟩
  cases hf : m.formatInput inp with
  | error e =>
    right
    refine ⟨e, e, by rw [C66_rejected m inp e hf], ?_⟩
    rw [C66_rejected _ inp e (by exact hf)]
  | ok x =>
    obtain ⟨B, n, hacc⟩ := (C69_accepted_iff m inp).1 ⟨x, hf⟩
    have hacc' : TiAccepts ({ m with parallel := par } : TiMps K) B n inp := hacc
    rcases Nat.eq_zero_or_pos n with rfl | hn
    · right
      exact ⟨_, _, C66_empty m h inp B hacc g, C66_empty _ h' inp B hacc' g'⟩
    · left
      obtain ⟨y, y1, y2, y3⟩ := C66_value m h inp B n hacc hn g
      obtain ⟨y', z1, z2, z3⟩ := C66_value _ h' inp B n hacc' hn g'
      refine ⟨y, y', by rw [y1], by rw [z1], by rw [y2, z2], ?_⟩
      intro idx hidx
      rw [y2] at hidx
      obtain _ | ⟨b, _ | ⟨o, _ | ⟨_, _⟩⟩⟩ := idx <;> simp at hidx
      rw [y3 b hidx.1 o hidx.2, z3 b hidx.1 o hidx.2, tiValue_parallel m par, tiEntry_parallel m par]

/-- C54: for TI_MPS, after every history the output has shape [batch, output_dim], and the output for a sequence depends neither on the
history (`g`, `g'`) nor on the other sequences of the batch. -/
theorem C54_ti [CommRing K] (m : TiMps K) (h : IsTi m) (inp inp' : TiInput K) (B B' n : ℕ) (hn : 1 ≤ n) (hi : TiAccepts m B n inp)
    (hi' : TiAccepts m B' n inp') (g g' : Option ℕ) :
    ∃ y y', (m.forward inp g).1 = .ok y ∧ (m.forward inp' g').1 = .ok y' ∧ y.shape = [B, m.outputDim] ∧ y'.shape = [B', m.outputDim] ∧
      ∀ b < B, ∀ b' < B', (∀ i < n, ∀ f < m.featureDim, tiEntry m inp b i f = tiEntry m inp' b' i f) →
        ∀ o < m.outputDim, y.get [b, o] = y'.get [b', o] := by
  obtain ⟨y, y1, y2, y3⟩ := C66_value m h inp B n hi hn g
  obtain ⟨y', z1, z2, z3⟩ := C66_value m h inp' B' n hi' hn g'
  refine ⟨y, y', by rw [y1], by rw [z1], y2, z2, ?_⟩
  intro b hb b' hb' hs o ho
  rw [y3 b hb o ho, z3 b' hb' o ho]
  exact tiValue_congr m _ _ n hs o

/-! ### C67 -/

/-- with an identity bias, steps with zero feature vectors do not change the state -/
theorem tiState_padding [CommRing K] (m : TiMps K) (h : IsTi m) (hb : m.useBias = true ∧ m.fixedBias = true) (x : ℕ → ℕ → K) (k j : ℕ)
    (hx : ∀ i, k ≤ i → i < k + j → ∀ f < m.featureDim, x i f = 0) : ∀ r < m.bondDim, tiState m x (k + j) r = tiState m x k r := by
  induction j with
  | zero => intro r _; rfl
  | succ j ih =>
    intro r hr
    show tiState m x (k + j + 1) r = _
    simp only [tiState]
    rw [← ih (fun i h1 h2 => hx i h1 (by omega)) r hr]
    rw [Finset.sum_eq_single r]
    · rw [Finset.sum_eq_zero, h.fixed hb.1 hb.2 r hr r hr, if_pos rfl, zero_add, mul_one]
      intro f hf
      rw [hx (k + j) (by omega) (by omega) f (Finset.mem_range.1 hf), mul_zero]
    · intro l hl hlr
      rw [Finset.sum_eq_zero, h.fixed hb.1 hb.2 l (Finset.mem_range.1 hl) r hr, if_neg hlr, zero_add, mul_zero]
      intro f hf
      rw [hx (k + j) (by omega) (by omega) f (Finset.mem_range.1 hf), mul_zero]
    · intro hr'
      exact absurd (Finset.mem_range.2 hr) hr'

theorem tiValue_padding [CommRing K] (m : TiMps K) (h : IsTi m) (hb : m.useBias = true ∧ m.fixedBias = true) (x : ℕ → ℕ → K) (k n : ℕ) (hk : k ≤ n)
    (hx : ∀ i, k ≤ i → i < n → ∀ f < m.featureDim, x i f = 0) (o : ℕ) : tiValue m n x o = tiValue m k x o := by
  unfold tiValue
  refine Finset.sum_congr rfl ?_
  intro l hl
  obtain ⟨j, rfl⟩ := Nat.exists_eq_add_of_le hk
  rw [tiState_padding m h hb x k j hx l (Finset.mem_range.1 hl)]

/-- C67: with a fixed bias, the outputs for a list of embedded sequences of any lengths, not all 0, are those of the unpadded sequences. -/
theorem C67_value [CommRing K] (m : TiMps K) (h : IsTi m) (hb : m.useBias = true ∧ m.fixedBias = true) (ts : List (Tensor K))
    (hs : ∀ t ∈ ts, t.shape = [itemLen t, m.featureDim]) (hl : ∃ t ∈ ts, 1 ≤ itemLen t) (g : Option ℕ) :
    ∃ y, (m.forward (.list ts) g).1 = .ok y ∧ y.shape = [ts.length, m.outputDim] ∧
      ∀ b (hb : b < ts.length), ∀ o < m.outputDim, y.get [b, o] = tiValue m (itemLen ts[b]) (fun i f => ts[b].get [i, f]) o := by
  obtain ⟨t, ht, hl⟩ := hl
  obtain ⟨q1, q2⟩ := maxLen_spec ts (List.ne_nil_of_mem ht)
  obtain ⟨y, y1, y2, y3⟩ := C66_value m h (.list ts) ts.length (maxLen ts) ⟨rfl, q2, q1, Or.inl hb, Or.inl hs⟩ (le_trans hl (q1 t ht)) g
  refine ⟨y, by rw [y1], y2, ?_⟩
  intro b hb' o ho
  have h2 : ts[b].shape.length = 2 := by rw [hs _ (List.getElem_mem hb')]; rfl
  rw [y3 b hb' o ho, tiValue_padding m h hb _ (itemLen ts[b]) (maxLen ts) (q1 _ (List.getElem_mem hb')) ?_ o]
  · refine tiValue_congr m _ _ _ ?_ o
    intro i hi f _
    simp [tiEntry, hb', hi, itemEntry, h2]
  · intro i hi _ f _
    simp [tiEntry, hb', Nat.not_lt.2 hi, h2]

/-- C67: so each sequence of a list has the output it has alone, whatever the others are and whatever happened before. -/
theorem C67_alone [CommRing K] (m : TiMps K) (h : IsTi m) (hb : m.useBias = true ∧ m.fixedBias = true) (ts : List (Tensor K))
    (hs : ∀ t ∈ ts, t.shape = [itemLen t, m.featureDim]) (b : ℕ) (hb' : b < ts.length) (hl : 1 ≤ itemLen ts[b]) (g g' : Option ℕ) :
    ∃ y y', (m.forward (.list ts) g).1 = .ok y ∧ (m.forward (.list [ts[b]]) g').1 = .ok y' ∧ ∀ o < m.outputDim, y.get [b, o] = y'.get [0, o] := by
  obtain ⟨y, y1, y2, y3⟩ := C67_value m h hb ts hs ⟨_, List.getElem_mem hb', hl⟩ g
  obtain ⟨y', z1, z2, z3⟩ := C67_value m h hb [ts[b]] (by
    intro t ht
    rw [List.mem_singleton.1 ht]
    exact hs _ (List.getElem_mem hb')) ⟨_, List.mem_singleton.2 rfl, hl⟩ g'
  refine ⟨y, y', y1, z1, ?_⟩
  intro o ho
  rw [y3 b hb' o ho, z3 0 (by simp) o ho]
  rfl

/-! ### C68 -/

/-- C68 (see `C68_fails_otherwise` for the other maps): each sequence of a list of unembedded sequences has the output it has alone,
if the map in force sends the scalar 0 to the zero vector. -/
theorem C68_harmless [CommRing K] (m : TiMps K) (h : IsTi m) (hb : m.useBias = true ∧ m.fixedBias = true) (ts : List (Tensor K))
    (hs : ∀ t ∈ ts, t.shape = [itemLen t]) (φ : K → Tensor K) (hφ : m.featureMap = some φ) (hφs : ∀ v, (φ v).shape = [m.featureDim])
    (h0 : ∀ f < m.featureDim, (φ 0).get [f] = 0) (b : ℕ) (hb' : b < ts.length) (hl : 1 ≤ itemLen ts[b]) (g g' : Option ℕ) :
    ∃ y y', (m.forward (.list ts) g).1 = .ok y ∧ (m.forward (.list [ts[b]]) g').1 = .ok y' ∧ ∀ o < m.outputDim, y.get [b, o] = y'.get [0, o] := by
  have hemb : ∀ (B n : ℕ) (v : ℕ → ℕ → K), 1 ≤ B → 1 ≤ n → TiEmbeds m B n v := by
    intro B n v hB hn
    unfold TiEmbeds
    rw [hφ]
    exact ⟨hB, hn, fun _ _ _ _ => hφs _⟩
  obtain ⟨q1, q2⟩ := maxLen_spec ts (List.ne_nil_of_mem (List.getElem_mem hb'))
  have hle := q1 _ (List.getElem_mem hb')
  obtain ⟨y, y1, y2, y3⟩ := C66_value m h (.list ts) ts.length (maxLen ts) ⟨rfl, q2, q1, Or.inl hb, Or.inr ⟨hs, hemb _ _ _ (by omega) (by omega)⟩⟩
    (by omega) g
  obtain ⟨y', z1, z2, z3⟩ := C66_value m h (.list [ts[b]]) 1 (itemLen ts[b]) ⟨rfl, ⟨_, List.mem_singleton.2 rfl, rfl⟩, by
      intro t ht
      rw [List.mem_singleton.1 ht], Or.inl hb, Or.inr ⟨by
      intro t ht
      rw [List.mem_singleton.1 ht]
      exact hs _ (List.getElem_mem hb'), hemb _ _ _ (by omega) (by omega)⟩⟩ hl g'
  refine ⟨y, y', by rw [y1], by rw [z1], ?_⟩
  intro o ho
  have h1 : ts[b].shape.length = 1 := by rw [hs _ (List.getElem_mem hb')]; rfl
  rw [y3 b hb' o ho, z3 0 (by omega) o ho, tiValue_padding m h hb _ (itemLen ts[b]) (maxLen ts) hle ?_ o]
  · refine tiValue_congr m _ _ _ ?_ o
    intro i hi f _
    simp [tiEntry, hb', hi]
  · intro i hi _ f hf
    simp [tiEntry, hb', Nat.not_lt.2 hi, h1, tiFeature, hφ, h0 f hf]

/-- C68, how the padding does act: the output for each sequence of a padded list is that of the sequence extended by the feature vectors of the
scalar 0 to the length of the longest one. -/
theorem C68_actual_value [CommRing K] (m : TiMps K) (h : IsTi m) (hb : m.useBias = true ∧ m.fixedBias = true) (hd : m.featureMap = none)
    (hF : m.featureDim = 2) (ts : List (Tensor K)) (hs : ∀ t ∈ ts, t.shape = [itemLen t]) (n : ℕ) (hn : 1 ≤ n) (h1 : ∃ t ∈ ts, itemLen t = n)
    (h2 : ∀ t ∈ ts, itemLen t ≤ n) (g : Option ℕ) :
    ∃ y, (m.forward (.list ts) g).1 = .ok y ∧ ∀ b (hb : b < ts.length), ∀ o < m.outputDim, y.get [b, o] =
      tiValue m n (fun i f => if f = 0 then (if i < itemLen ts[b] then ts[b].get [i] else 0) else 1 - (if i < itemLen ts[b] then ts[b].get [i] else 0)) o := by
  obtain ⟨y, y1, y2, y3⟩ := C66_value m h (.list ts) ts.length n ⟨rfl, h1, h2, Or.inl hb, Or.inr ⟨hs, by unfold TiEmbeds; rw [hd]; exact hF⟩⟩ hn g
  refine ⟨y, by rw [y1], ?_⟩
  intro b hb' o ho
  rw [y3 b hb' o ho]
  refine tiValue_congr m _ _ _ ?_ o
  intro i _ f _
  have h1 : ts[b].shape.length = 1 := by rw [hs _ (List.getElem_mem hb')]; rfl
  simp only [tiEntry, List.getElem?_eq_getElem hb', itemEntry, h1, if_true, tiFeature, hd]
  split <;> rfl

/-- A model with bond dimension 1: the state is multiplied by (1 + second feature) = 2 - x at every step. -/
def exTi : TiMps ℤ :=
  ⟨1, 1, 2, false, true, true, none, ⟨[1, 1, 2], fun idx => if idx.getD 2 0 = 0 then 0 else 1⟩, ⟨[1], fun _ => 1⟩, ⟨[1, 1], fun _ => 1⟩,
    some ⟨[1, 1], fun _ => 1⟩⟩

theorem exTi_ok : IsTi exTi := by
  refine ⟨rfl, rfl, rfl, fun _ => ⟨_, rfl, rfl⟩, ?_⟩
  intro _ _ l hl r hr
  have h1 : l < 1 := hl
  have h2 : r < 1 := hr
  rw [if_pos (by omega)]
  rfl

/-- C68, the false part: with the default map, fixed bias and unembedded sequences (5) and (5, 5), the output for the first one is -6 in the
list and -3 alone. -/
theorem C68_padding_changes_outputs : IsTi exTi ∧ (exTi.useBias = true ∧ exTi.fixedBias = true) ∧ ∀ g : Option ℕ,
    (∃ y, (exTi.forward (.list [⟨[1], fun _ => 5⟩, ⟨[2], fun _ => 5⟩]) g).1 = .ok y ∧ y.get [0, 0] = -6) ∧
    ∃ y, (exTi.forward (.list [⟨[1], fun _ => 5⟩]) g).1 = .ok y ∧ y.get [0, 0] = -3 := by
  refine ⟨exTi_ok, ⟨rfl, rfl⟩, ?_⟩
  intro g
  constructor
  · obtain ⟨y, y1, y2⟩ := C68_actual_value exTi exTi_ok ⟨rfl, rfl⟩ rfl rfl [⟨[1], fun _ => 5⟩, ⟨[2], fun _ => 5⟩] (by simp [itemLen]) 2 (by omega)
      (by simp [itemLen]) (by simp [itemLen]) g
    refine ⟨y, y1, ?_⟩
    rw [y2 0 (by simp) 0 (by decide)]
    simp [tiValue, tiState, exTi, tiBiasAt, itemLen, Finset.sum_range_succ]
  · obtain ⟨y, y1, y2⟩ := C68_actual_value exTi exTi_ok ⟨rfl, rfl⟩ rfl rfl [⟨[1], fun _ => 5⟩] (by simp [itemLen]) 1 (by omega)
      (by simp [itemLen]) (by simp [itemLen]) g
    refine ⟨y, y1, ?_⟩
    rw [y2 0 (by simp) 0 (by decide)]
    simp [tiValue, tiState, exTi, tiBiasAt, itemLen, Finset.sum_range_succ]

/-- parameters under which every step with the feature vector of 0 doubles the state -/
noncomputable def doubling (m : TiMps ℝ) (f₀ : ℕ) : TiMps ℝ :=
  { m with
    core := ⟨[m.bondDim, m.bondDim, m.featureDim], fun idx => if idx = [0, 0, f₀] then 1 / tiFeature m 0 f₀ else 0⟩
    initVec := ⟨[m.bondDim], fun _ => 1⟩
    termMat := ⟨[m.bondDim, m.outputDim], fun idx => if idx = [0, 0] then 1 else 0⟩
    biasMat := some (eyeMat m.bondDim) }

theorem doubling_state (m : TiMps ℝ) (hb : m.useBias = true) (hD : 1 ≤ m.bondDim) (f₀ : ℕ) (hf : f₀ < m.featureDim) (h0 : tiFeature m 0 f₀ ≠ 0)
    (x : ℕ → ℕ → ℝ) (n : ℕ) (hx : ∀ i < n, ∀ f, x i f = tiFeature m 0 f) : tiState (doubling m f₀) x n 0 = 2 ^ n := by
  induction n with
  | zero => simp [tiState, doubling]
  | succ n ih =>
    simp only [tiState]
    rw [Finset.sum_eq_single 0]
    · rw [ih (fun i hi => hx i (by omega)), Finset.sum_eq_single f₀]
      · have : tiBiasAt (doubling m f₀) 0 0 = 1 := by simp [tiBiasAt, doubling, hb, eyeMat]
        rw [this, hx n (by omega)]
        have : (doubling m f₀).core.get [0, 0, f₀] = 1 / tiFeature m 0 f₀ := by simp [doubling]
        rw [this, one_div, inv_mul_cancel₀ h0, pow_succ]
        ring
      · intro f _ hne
        simp [doubling, hne]
      · intro hn
        exact absurd (Finset.mem_range.2 hf) hn
    · intro l _ hl
      have : tiBiasAt (doubling m f₀) l 0 = 0 := by simp [tiBiasAt, doubling, hb, eyeMat, hl]
      rw [this, Finset.sum_eq_zero, zero_add, mul_zero]
      intro f _
      simp [doubling, hl]
    · intro hn
      exact absurd (Finset.mem_range.2 hD) hn

/-- C68, exactly when the claim fails: for every model with a fixed bias, whatever its map (registered or default), that does not send the scalar
0 to the zero vector, there are parameters for which padding changes outputs: (0) has output 2 alone and 4 next to (0, 0). -/
theorem C68_fails_otherwise (m : TiMps ℝ) (hb : m.useBias = true ∧ m.fixedBias = true) (hD : 1 ≤ m.bondDim) (hO : 1 ≤ m.outputDim)
    (hm : ∀ B n v, 1 ≤ B → 1 ≤ n → TiEmbeds m B n v) (f₀ : ℕ) (hf : f₀ < m.featureDim) (h0 : tiFeature m 0 f₀ ≠ 0) :
    ∃ m', IsTi m' ∧ m'.outputDim = m.outputDim ∧ m'.bondDim = m.bondDim ∧ m'.featureDim = m.featureDim ∧ m'.parallel = m.parallel ∧
      m'.useBias = m.useBias ∧ m'.fixedBias = m.fixedBias ∧ m'.featureMap = m.featureMap ∧ ∀ g,
      (∃ y, (m'.forward (.list [⟨[1], fun _ => 0⟩, ⟨[2], fun _ => 0⟩]) g).1 = .ok y ∧ y.get [0, 0] = 4) ∧
      ∃ y, (m'.forward (.list [⟨[1], fun _ => 0⟩]) g).1 = .ok y ∧ y.get [0, 0] = 2 := by
  have hti : IsTi (doubling m f₀) := by
    refine ⟨rfl, rfl, rfl, fun _ => ⟨_, rfl, rfl⟩, ?_⟩
    intro _ _ l _ r _
    simp [tiBiasAt, doubling, hb.1, eyeMat]
  have hval : ∀ n x, (∀ i < n, ∀ f, x i f = tiFeature m 0 f) → tiValue (doubling m f₀) n x 0 = 2 ^ n := by
    intro n x hx
    unfold tiValue
    rw [Finset.sum_eq_single 0]
    · rw [doubling_state m hb.1 hD f₀ hf h0 x n hx]
      simp [doubling]
    · intro l _ hl
      simp [doubling, hl]
    · intro hn
      exact absurd (Finset.mem_range.2 hD) hn
  refine ⟨doubling m f₀, hti, rfl, rfl, rfl, rfl, rfl, rfl, rfl, ?_⟩
  intro g
  constructor
  · obtain ⟨y, y1, _, y3⟩ := C66_value (doubling m f₀) hti (.list [⟨[1], fun _ => 0⟩, ⟨[2], fun _ => 0⟩]) 2 2
      ⟨rfl, by simp [itemLen], by simp [itemLen], Or.inl hb, Or.inr ⟨by simp [itemLen], hm 2 2 _ (by omega) (by omega)⟩⟩ (by omega) g
    refine ⟨y, by rw [y1], ?_⟩
    rw [y3 0 (by omega) 0 hO, hval 2]
    · norm_num
    · intro i hi f
      have : tiFeature (doubling m f₀) 0 f = tiFeature m 0 f := rfl
      simp only [tiEntry, List.length_cons, List.length_nil, List.getElem?_cons_zero, itemEntry, if_true]
      split <;> exact this
  · obtain ⟨y, y1, _, y3⟩ := C66_value (doubling m f₀) hti (.list [⟨[1], fun _ => 0⟩]) 1 1
      ⟨rfl, by simp [itemLen], by simp [itemLen], Or.inl hb, Or.inr ⟨by simp [itemLen], hm 1 1 _ (by omega) (by omega)⟩⟩ (by omega) g
    refine ⟨y, by rw [y1], ?_⟩
    rw [y3 0 (by omega) 0 hO, hval 1]
    · norm_num
    · intro i hi f
      have : tiFeature (doubling m f₀) 0 f = tiFeature m 0 f := rfl
      simp only [tiEntry, List.length_cons, List.length_nil, List.getElem?_cons_zero, itemEntry, if_true]
      split <;> exact this

/-! ### concrete cases -/

/-- a registered map sending 0 to the zero vector: (v, v^2) -/
example : ∃ y y', (({ exTi with featureMap := some (fun v => ⟨[2], fun idx => v ^ (idx.getD 0 0 + 1)⟩) } : TiMps ℤ).forward
    (.list [⟨[1], fun _ => 5⟩, ⟨[2], fun _ => 5⟩]) none).1 = .ok y ∧
    (({ exTi with featureMap := some (fun v => ⟨[2], fun idx => v ^ (idx.getD 0 0 + 1)⟩) } : TiMps ℤ).forward (.list [⟨[1], fun _ => 5⟩]) none).1 = .ok y' ∧
    ∀ o < 1, y.get [0, o] = y'.get [0, o] :=
  C68_harmless { exTi with featureMap := some (fun v => ⟨[2], fun idx => v ^ (idx.getD 0 0 + 1)⟩) }
    ⟨exTi_ok.core, exTi_ok.initVec, exTi_ok.termMat, exTi_ok.bias, exTi_ok.fixed⟩ ⟨rfl, rfl⟩ [⟨[1], fun _ => 5⟩, ⟨[2], fun _ => 5⟩] (by simp [itemLen])
    _ rfl (fun _ => rfl) (by simp) 0 (by simp) (by simp [itemLen]) none none

/-- two embedded sequences of lengths 1 and 3 -/
example : ∃ y y', (exTi.forward (.list [⟨[1, 2], fun _ => 4⟩, ⟨[3, 2], fun _ => 2⟩]) none).1 = .ok y ∧
    (exTi.forward (.list [⟨[1, 2], fun _ => 4⟩]) (some 7)).1 = .ok y' ∧ ∀ o < 1, y.get [0, o] = y'.get [0, o] :=
  C67_alone exTi exTi_ok ⟨rfl, rfl⟩ [⟨[1, 2], fun _ => 4⟩, ⟨[3, 2], fun _ => 2⟩] (by simp [itemLen, exTi]) 0 (by simp) (by simp [itemLen]) none (some 7)

example : ∃ y, (exTi.forward (.list [⟨[1, 2], fun _ => 4⟩, ⟨[3, 2], fun _ => 2⟩]) none).1 = .ok y ∧ y.get [0, 0] = 5 ∧ y.get [1, 0] = 27 := by
  obtain ⟨y, y1, _, y3⟩ := C67_value exTi exTi_ok ⟨rfl, rfl⟩ [⟨[1, 2], fun _ => 4⟩, ⟨[3, 2], fun _ => 2⟩] (by simp [itemLen, exTi])
    (by simp [itemLen]) none
  refine ⟨y, y1, ?_, ?_⟩
  · rw [y3 0 (by simp) 0 (by decide)]
    simp [tiValue, tiState, exTi, tiBiasAt, itemLen, Finset.sum_range_succ]
  · rw [y3 1 (by simp) 0 (by decide)]
    simp [tiValue, tiState, exTi, tiBiasAt, itemLen, Finset.sum_range_succ]

/-- a raw batch of two sequences of length 2 -/
example : ∃ y, exTi.forward (.batch ⟨[2, 2], fun idx => if idx = [1, 1] then 3 else 0⟩) none = (.ok y, some 2) ∧ y.get [0, 0] = 4 ∧ y.get [1, 0] = -2 := by
  obtain ⟨y, y1, _, y3⟩ := C66_value exTi exTi_ok (.batch ⟨[2, 2], fun idx => if idx = [1, 1] then 3 else 0⟩) 2 2 (Or.inr ⟨rfl, rfl⟩) (by omega) none
  refine ⟨y, y1, ?_, ?_⟩
  · rw [y3 0 (by simp) 0 (by decide)]
    simp [tiValue, tiState, exTi, tiBiasAt, tiEntry, tiFeature, Finset.sum_range_succ]
  · rw [y3 1 (by simp) 0 (by decide)]
    simp [tiValue, tiState, exTi, tiBiasAt, tiEntry, tiFeature, Finset.sum_range_succ]

example : ({ exTi with fixedBias := false } : TiMps ℤ).formatInput (.list [⟨[1, 2], fun _ => 4⟩, ⟨[3, 2], fun _ => 2⟩]) = .error .value :=
  C69_different_lengths _ (by simp) _ (by simp [itemLen, exTi]) ⟨[1, 2], fun _ => 4⟩ ⟨[3, 2], fun _ => 2⟩ (by simp) (by simp) (by simp [itemLen])

example : (exTi.forward (.batch ⟨[3, 0, 2], fun _ => 0⟩) none).1 = .error .runtime := C66_empty exTi exTi_ok (.batch _) 3 (Or.inl rfl) none

/-- C57 for TI_MPS: registration. None restores the default; a map whose value at 0 has the wrong size is refused with ValueError; any
other is stored, and changes nothing else of the model. -/
theorem C57_ti_register [Zero K] (m : TiMps K) (φ : K → Tensor K) :
    m.registerFeatureMap none = .ok { m with featureMap := none } ∧
    ((φ 0).shape = [m.featureDim] → m.registerFeatureMap (some φ) = .ok { m with featureMap := some φ }) ∧
    ((φ 0).shape ≠ [m.featureDim] → m.registerFeatureMap (some φ) = .error .value) := by
  refine ⟨rfl, ?_, ?_⟩ <;> intro h <;> simp [TiMps.registerFeatureMap, h]

/-- C57 for TI_MPS: once a map is registered, step `i` of an unembedded sequence is replaced by the value of the map at its scalar,
provided all those values have the right size; sequences are padded by the value of the map at 0. -/
theorem C57_ti_embedding [CommRing K] (m m' : TiMps K) (φ : K → Tensor K) (h : m.registerFeatureMap (some φ) = .ok m')
    (hφ : ∀ v, (φ v).shape = [m.featureDim]) :
    (∀ (B n : ℕ) (t : Tensor K), 1 ≤ B → 1 ≤ n → t.shape = [B, n] → ∃ x, m'.formatInput (.batch t) = .ok x ∧
      x.shape = [B, n, m.featureDim] ∧ ∀ b < B, ∀ i < n, ∀ f < m.featureDim, x.get [b, i, f] = (φ (t.get [b, i])).get [f]) ∧
    (∀ (n : ℕ) (ts : List (Tensor K)), 1 ≤ n → (∃ t ∈ ts, itemLen t = n) → (∀ t ∈ ts, itemLen t ≤ n) →
      ((m.useBias = true ∧ m.fixedBias = true) ∨ ∀ t ∈ ts, itemLen t = n) → (∀ t ∈ ts, t.shape = [itemLen t]) →
      ∃ x, m'.formatInput (.list ts) = .ok x ∧ x.shape = [ts.length, n, m.featureDim] ∧
        ∀ (b : ℕ) (hb : b < ts.length), ∀ i < n, ∀ f < m.featureDim,
          x.get [b, i, f] = (φ (if i < itemLen ts[b] then ts[b].get [i] else 0)).get [f]) := by
  have hm' : m' = { m with featureMap := some φ } := by
    rw [(C57_ti_register m φ).2.1 (hφ 0)] at h
    cases h; rfl
  subst hm'
  constructor
  · intro B n t hB hn ht
    obtain ⟨x, x1, x2, x3⟩ := C69_accepted { m with featureMap := some φ } B n (.batch t) (Or.inr ⟨ht, hB, hn, fun _ _ _ _ => hφ _⟩)
    refine ⟨x, x1, x2, fun b hb i hi f hf => ?_⟩
    rw [x3 b hb i hi f hf]
    simp [tiEntry, ht, tiFeature]
  · intro n ts hn h1 h2 h3 h4
    have hB : 1 ≤ ts.length := by
      obtain ⟨t, ht, _⟩ := h1
      exact List.length_pos_of_mem ht
    obtain ⟨x, x1, x2, x3⟩ := C69_accepted { m with featureMap := some φ } ts.length n (.list ts)
      ⟨rfl, h1, h2, h3, Or.inr ⟨h4, hB, hn, fun _ _ _ _ => hφ _⟩⟩
    refine ⟨x, x1, x2, fun b hb i hi f hf => ?_⟩
    rw [x3 b hb i hi f hf]
    have hs : (ts[b]).shape.length = 1 := by rw [h4 _ (List.getElem_mem hb)]; rfl
    simp only [tiEntry, List.getElem?_eq_getElem hb, hs, if_true, itemEntry, tiFeature]
    split <;> rfl

example : ∃ m', exTi.registerFeatureMap (some fun v => ⟨[2], fun idx => v ^ idx.getD 0 0⟩) = .ok m' ∧
    ∃ x, m'.formatInput (.list [⟨[1], fun _ => 7⟩, ⟨[3], fun _ => 5⟩]) = .ok x ∧ x.get [0, 0, 1] = 7 ∧ x.get [0, 2, 1] = 0 := by
  obtain ⟨x, x1, _, x3⟩ := (C57_ti_embedding exTi _ (fun v => ⟨[2], fun idx => v ^ idx.getD 0 0⟩)
    ((C57_ti_register exTi _).2.1 rfl) (fun _ => rfl)).2 3 [⟨[1], fun _ => 7⟩, ⟨[3], fun _ => 5⟩] (by omega) (by simp [itemLen])
    (by simp [itemLen]) (Or.inl ⟨rfl, rfl⟩) (by simp [itemLen])
  refine ⟨_, (C57_ti_register exTi _).2.1 rfl, x, x1, ?_, ?_⟩
  · rw [x3 0 (by simp) 0 (by omega) 1 (by decide)]
    simp [itemLen]
  · rw [x3 0 (by simp) 2 (by omega) 1 (by decide)]
    simp [itemLen]

end TorchMPS
