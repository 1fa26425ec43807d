import Verif.Lemmas.InitTensor
/-
C42: `init_tensor`. A tensor with index letters `str` is read at the values `env` of its letters; `sz` are
the sizes of the letters.
-/
namespace TorchMPS

theorem initTensor_eye (noise : List ℕ → ℝ) (shape : Shape) (str : List Char) (m : InitMethod) (method : String)
    (std : ℝ) (dim : Option ℕ) (hm : unpackInit m = .ok (method, std, dim)) (hlen : shape.length = str.length)
    (hnd : str.Nodup) (hmeth : method = "random_eye" ∨ method = "min_random_eye") (t : Tensor ℝ)
    (ht : initEye shape str (method = "min_random_eye") dim = .ok t) :
    initTensor noise shape str m = .ok ⟨shape, fun idx => t.get idx + std * noise idx⟩ := by
  unfold initTensor
  rw [hm]
  simp only [bind, Except.bind]
  rw [assert_true _ hlen]
  simp only
  rw [assert_true _ (by rw [hnd.dedup])]
  simp only
  rw [if_pos hmeth, ht]
  rfl

/-- C42: `random_zero` (as a tuple with `std`, or as a bare string with `std = 1e-9`) returns `std` times the
random draw. -/
theorem C42_random_zero (noise : List ℕ → ℝ) (shape : Shape) (str : List Char) (m : InitMethod) (std : ℝ)
    (hm : (∃ d, m = .tuple "random_zero" (some std) d) ∨ (m = .name "random_zero" ∧ std = 1e-9))
    (hlen : shape.length = str.length) (hnd : str.Nodup) :
    initTensor noise shape str m = .ok ⟨shape, fun idx => std * noise idx⟩ := by
  have h : unpackInit m = .ok ("random_zero", std, none) := by
    rcases hm with ⟨d, rfl⟩ | ⟨rfl, rfl⟩
    · simp [unpackInit]
    · rfl
  unfold initTensor
  rw [h]
  simp only [bind, Except.bind]
  rw [assert_true _ hlen]
  simp only
  rw [assert_true _ (by rw [hnd.dedup])]
  simp only
  rw [if_neg (by decide), if_pos trivial]

/-- C42: `random_eye` returns the (rectangular) identity in the bond axes for every value of the other
axes, plus `std` times the draw, whenever `l` comes before `r` in the index string or the two bonds have equal size. -/
theorem C42_random_eye (noise : List ℕ → ℝ) (sz : Char → ℕ) (str : List Char) (m : InitMethod) (std : ℝ)
    (hm : (∃ d, m = .tuple "random_eye" (some std) d) ∨ (m = .name "random_eye" ∧ std = 1e-9))
    (hnd : str.Nodup) (hl : 'l' ∈ str) (hr : 'r' ∈ str)
    (hord : str.idxOf 'l' < str.idxOf 'r' ∨ sz 'l' = sz 'r') :
    ∃ t, initTensor noise (str.map sz) str m = .ok t ∧ t.shape = str.map sz ∧
      ∀ env : Char → ℕ, (∀ c ∈ str, env c < sz c) →
        t.get (str.map env) = (if env 'l' = env 'r' then 1 else 0) + std * noise (str.map env) := by
  have h : unpackInit m = .ok ("random_eye", std, none) := by
    rcases hm with ⟨d, rfl⟩ | ⟨rfl, rfl⟩
    · simp [unpackInit]
    · rfl
  obtain ⟨t, h1, h2, h3⟩ := eyeBlock_spec sz sz str hnd hl hr (sz 'l') (sz 'r') (le_refl _) (le_refl _)
    (fun _ _ _ => rfl) ⟨rfl, rfl⟩ hord
  refine ⟨_, initTensor_eye noise _ str m "random_eye" std none h (by simp) hnd (Or.inl rfl) t ?_, rfl, ?_⟩
  · unfold initEye
    rw [assert_true _ ⟨hl, hr⟩]
    simp only [bind, Except.bind]
    rw [if_neg (by decide), bondShape_map, axisSize_map _ _ _ hl, axisSize_map _ _ _ hr, ← h1]
    rfl
  · intro env henv
    simp only
    rw [h3 env henv]
    simp [henv 'l' hl, henv 'r' hr]

/-- C42: `min_random_eye` with `init_dim` not larger than the bond dimensions returns the identity
truncated to `init_dim` unit entries, plus noise, for either order of the bond letters. -/
theorem C42_min_random_eye (noise : List ℕ → ℝ) (sz : Char → ℕ) (str : List Char) (std : ℝ) (d : ℕ)
    (hnd : str.Nodup) (hl : 'l' ∈ str) (hr : 'r' ∈ str) (hdl : d ≤ sz 'l') (hdr : d ≤ sz 'r') :
    ∃ t, initTensor noise (str.map sz) str (.tuple "min_random_eye" (some std) (some d)) = .ok t ∧
      t.shape = str.map sz ∧
      ∀ env : Char → ℕ, (∀ c ∈ str, env c < sz c) →
        t.get (str.map env) = (if env 'l' = env 'r' ∧ env 'l' < d then 1 else 0) + std * noise (str.map env) := by
  set e : Char → ℕ := fun c => if c = 'l' ∨ c = 'r' then d else sz c with he
  have el : e 'l' = d := by simp [he]
  have er : e 'r' = d := by simp [he]
  obtain ⟨t, h1, h2, h3⟩ := eyeBlock_spec sz e str hnd hl hr d d (by rw [el]; exact hdl) (by rw [er]; exact hdr)
    (fun c h1 h2 => by simp [he, h1, h2]) ⟨el.symm, er.symm⟩ (Or.inr (by rw [el, er]))
  refine ⟨_, initTensor_eye noise _ str _ "min_random_eye" std (some d) (by simp [unpackInit]) (by simp) hnd
    (Or.inr rfl) t ?_, rfl, ?_⟩
  · unfold initEye
    rw [assert_true _ ⟨hl, hr⟩]
    simp only [bind, Except.bind]
    rw [if_pos (by decide), axisSize_map _ _ _ hl, axisSize_map _ _ _ hr, if_pos ⟨hdl, hdr⟩, bondShape_map,
      bondShape_map, ← h1]
    congr 1
    refine List.map_congr_left (fun c _ => ?_)
    simp only [he, Option.getD_some, if_true]
    split <;> rfl
  · intro env henv
    simp only
    rw [h3 env henv, el, er]
    congr 1
    refine if_congr ?_ rfl rfl
    constructor
    · rintro ⟨a, b, c⟩; exact ⟨c, a⟩
    · rintro ⟨a, b⟩; exact ⟨b, a ▸ b, a⟩

/-- C42: with a larger `init_dim`, the documented cap at the smaller bond dimension works for square
slices, ... -/
theorem C42_min_random_eye_capped (noise : List ℕ → ℝ) (sz : Char → ℕ) (str : List Char) (std : ℝ) (d : ℕ)
    (hnd : str.Nodup) (hl : 'l' ∈ str) (hr : 'r' ∈ str) (hsq : sz 'l' = sz 'r') (hd : sz 'l' < d) :
    ∃ t, initTensor noise (str.map sz) str (.tuple "min_random_eye" (some std) (some d)) = .ok t ∧
      t.shape = str.map sz ∧
      ∀ env : Char → ℕ, (∀ c ∈ str, env c < sz c) →
        t.get (str.map env) = (if env 'l' = env 'r' then 1 else 0) + std * noise (str.map env) := by
  obtain ⟨t, h1, h2, h3⟩ := eyeBlock_spec sz sz str hnd hl hr (sz 'l') (sz 'r') (le_refl _) (le_refl _)
    (fun _ _ _ => rfl) ⟨rfl, rfl⟩ (Or.inr hsq)
  refine ⟨_, initTensor_eye noise _ str _ "min_random_eye" std (some d) (by simp [unpackInit]) (by simp) hnd
    (Or.inr rfl) t ?_, rfl, ?_⟩
  · unfold initEye
    rw [assert_true _ ⟨hl, hr⟩]
    simp only [bind, Except.bind]
    rw [if_pos (by decide), axisSize_map _ _ _ hl, axisSize_map _ _ _ hr, if_neg (by omega), bondShape_map,
      bondShape_map, ← h1]
    have hmin : min (sz 'l') (sz 'r') = sz 'l' := by omega
    congr 1
    · refine List.map_congr_left (fun c _ => ?_)
      simp only [Option.getD_some, if_true, hmin]
      by_cases c1 : c = 'l'
      · simp [c1]
      · by_cases c2 : c = 'r'
        · simp [c2, hsq]
        · simp [c1, c2]
    · refine List.map_congr_left (fun c _ => ?_)
      simp only [Option.getD_some, hmin]
      by_cases c1 : c = 'l'
      · simp [c1]
      · by_cases c2 : c = 'r'
        · simp [c2, hsq]
        · simp [c1, c2]
  · intro env henv
    simp only
    rw [h3 env henv]
    simp [henv 'l' hl, henv 'r' hr]

theorem prod_two (f : Char → ℕ) (str : List Char) (hnd : str.Nodup) (hl : 'l' ∈ str) (hr : 'r' ∈ str)
    (h1 : ∀ c, c ≠ 'l' → c ≠ 'r' → f c = 1) : (str.map f).prod = f 'l' * f 'r' := by
  rcases split_two hnd hl hr with ⟨a, b, d, hs, _⟩ | ⟨a, b, d, hs, _⟩
  all_goals
    rw [hs] at hnd ⊢
    have hone : ∀ c ∈ a ++ b ++ d, f c = 1 ∧ (fun _ => 0 : Env) c = 0 := by
      intro c hc
      refine ⟨h1 c ?_ ?_, rfl⟩
      all_goals
        rintro rfl
        simp [List.nodup_append, List.nodup_cons] at hnd hc
        grind
  · rw [(ravel_two f (fun _ => 0) a b d 'l' 'r' hone).2]
  · rw [(ravel_two f (fun _ => 0) a b d 'r' 'l' hone).2, mul_comm]

/-- C42: ... but raises RuntimeError for non-square slices, contrary to the documentation. -/
theorem C42_cap_fails_for_nonsquare (noise : List ℕ → ℝ) (sz : Char → ℕ) (str : List Char) (std : ℝ) (d : ℕ)
    (hnd : str.Nodup) (hl : 'l' ∈ str) (hr : 'r' ∈ str) (hne : sz 'l' ≠ sz 'r') (hpl : 0 < sz 'l')
    (hpr : 0 < sz 'r') (hd : min (sz 'l') (sz 'r') < d) :
    initTensor noise (str.map sz) str (.tuple "min_random_eye" (some std) (some d)) = .error .runtime := by
  have hview : initEye (str.map sz) str true (some d) = .error .runtime := by
    unfold initEye
    rw [assert_true _ ⟨hl, hr⟩]
    simp only [bind, Except.bind]
    rw [if_pos trivial, axisSize_map _ _ _ hl, axisSize_map _ _ _ hr, if_neg (by omega), bondShape_map]
    unfold eyeBlock Tensor.view
    rw [if_neg]
    · rfl
    · rw [prod_two _ str hnd hl hr (by intro c h1 h2; simp [h1, h2])]
      simp only [eyeTensor, Option.getD_some, List.prod_cons, List.prod_nil, mul_one]
      simp only [true_or, or_true, if_true]
      intro h
      rcases Nat.lt_or_gt_of_ne hne with h' | h'
      · rw [min_eq_left (by omega)] at h
        have := Nat.eq_of_mul_eq_mul_left hpl h
        omega
      · rw [min_eq_right (by omega)] at h
        have := Nat.eq_of_mul_eq_mul_right hpr h
        omega
  unfold initTensor
  simp only [unpackInit, if_true, bind, Except.bind]
  rw [assert_true _ (by simp)]
  simp only
  rw [assert_true _ (by rw [hnd.dedup])]
  simp only
  rw [if_pos (Or.inr trivial)]
  have : (decide ("min_random_eye" = "min_random_eye")) = true := by decide
  simp only [decide_true]
  rw [hview]

/-- C42: for non-square slices with `r` before `l`, `random_eye` does not give identity slices: with shape
`[3, 2]` and index string `"rl"` (no noise), the entry at r = 1, l = 1 is 0. -/
theorem C42_random_eye_scrambled : ∃ t, initTensor (fun _ => 0) [3, 2] ['r', 'l'] (.name "random_eye") = .ok t ∧
    t.get [1, 1] = 0 := by
  refine ⟨_, initTensor_eye (fun _ => 0) [3, 2] ['r', 'l'] (.name "random_eye") "random_eye" 1e-9 none rfl rfl (by decide)
    (Or.inl rfl) ⟨[3, 2], fun idx => if InRange idx [3, 2] then (eyeTensor 2 3).get (unravel [2, 3]
      (ravel [3, 2] (Tensor.clampIdx [3, 2] (Tensor.clampIdx [3, 2] idx)))) else 0⟩ ?_, ?_⟩
  · rfl
  · have : InRange [1, 1] [3, 2] := by decide
    simp only [if_pos this]
    simp [eyeTensor, unravel, ravel, Tensor.clampIdx]

/-- C42: unknown methods raise ValueError. -/
theorem C42_unknown_method (noise : List ℕ → ℝ) (shape : Shape) (str : List Char) (s : String) (std : ℝ)
    (d : Option ℕ) (m : InitMethod) (hm : m = .name s ∨ m = .tuple s (some std) d)
    (hs : s ∉ ["random_eye", "min_random_eye", "random_zero"]) (hlen : shape.length = str.length)
    (hnd : str.Nodup) : initTensor noise shape str m = .error .value := by
  simp only [List.mem_cons, List.not_mem_nil, or_false, not_or] at hs
  have h : ∃ x, unpackInit m = .ok (s, x, none) := by
    rcases hm with rfl | rfl
    · exact ⟨_, rfl⟩
    · exact ⟨std, by simp [unpackInit, hs.2.1]⟩
  obtain ⟨x, h⟩ := h
  unfold initTensor
  rw [h]
  simp only [bind, Except.bind]
  rw [assert_true _ hlen]
  simp only
  rw [assert_true _ (by rw [hnd.dedup])]
  simp only
  rw [if_neg (by rintro (h | h); exacts [hs.1 h, hs.2.1 h]), if_neg hs.2.2]

/-- C42: an index string with a repeated letter, or of the wrong length, is rejected. -/
theorem C42_bad_index_string (noise : List ℕ → ℝ) (shape : Shape) (str : List Char) (m : InitMethod)
    (hm : ∃ q, unpackInit m = .ok q) (h : shape.length ≠ str.length ∨ ¬ str.Nodup) :
    initTensor noise shape str m = .error .assertion := by
  obtain ⟨⟨a, b, c⟩, hm⟩ := hm
  unfold initTensor
  rw [hm]
  simp only [bind, Except.bind]
  by_cases hl : shape.length = str.length
  · rw [assert_true _ hl]
    simp only
    rw [assert_false]
    intro hd
    apply h.resolve_left (by simpa using hl)
    rw [← (List.dedup_sublist str).eq_of_length hd]
    exact List.nodup_dedup str
  · rw [assert_false _ hl]

/-- C42: `min_random_eye` given as a bare string (the form documented for the other methods) always
fails: `init_dim` is never set. -/
theorem C42_bare_min_random_eye_fails (noise : List ℕ → ℝ) (shape : Shape) (str : List Char)
    (hlen : shape.length = str.length) (hnd : str.Nodup) (hl : 'l' ∈ str) (hr : 'r' ∈ str) :
    initTensor noise shape str (.name "min_random_eye") = .error .unboundLocal := by
  unfold initTensor
  simp only [unpackInit, bind, Except.bind]
  rw [assert_true _ hlen]
  simp only
  rw [assert_true _ (by rw [hnd.dedup])]
  simp only
  rw [if_pos (Or.inr trivial)]
  unfold initEye
  rw [assert_true _ ⟨hl, hr⟩]
  simp [bind, Except.bind]

/-- a core of an MPS: index string "slri" with sizes 3, 4, 4, 2 -/
example : ∃ t, initTensor (fun _ => 1) [3, 4, 4, 2] "slri".toList (.tuple "random_eye" (some 2) none) = .ok t ∧
    t.get [2, 1, 1, 0] = 3 ∧ t.get [2, 1, 3, 0] = 2 := by
  obtain ⟨t, h1, h2, h3⟩ := C42_random_eye (fun _ => 1)
    (fun c => if c = 's' then 3 else if c = 'i' then 2 else 4) "slri".toList _ 2 (Or.inl ⟨none, rfl⟩) (by decide)
    (by decide) (by decide) (Or.inr rfl)
  refine ⟨t, h1, ?_, ?_⟩
  · have := h3 (fun c => if c = 's' then 2 else if c = 'i' then 0 else 1) (by decide)
    refine Eq.trans ?_ (this.trans ?_)
    · rfl
    · simp; norm_num
  · have := h3 (fun c => if c = 's' then 2 else if c = 'i' then 0 else if c = 'l' then 1 else 3) (by decide)
    refine Eq.trans ?_ (this.trans ?_)
    · rfl
    · simp

end TorchMPS
