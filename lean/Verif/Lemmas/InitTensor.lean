import Verif.Model.InitData
/-
Lemmas about `init_tensor`.
-/
namespace TorchMPS

theorem ravel_ones (f : Char → ℕ) (env : Env) (b : List Char) (h : ∀ c ∈ b, f c = 1 ∧ env c = 0) :
    ravel (b.map f) (b.map env) = 0 ∧ (b.map f).prod = 1 := by
  induction b with
  | nil => exact ⟨rfl, rfl⟩
  | cons c b ih =>
    obtain ⟨h1, h2⟩ := ih (fun d hd => h d (by simp [hd]))
    obtain ⟨h3, h4⟩ := h c (by simp)
    constructor
    · simp only [List.map_cons, ravel, h4, h1]; ring
    · simp only [List.map_cons, List.prod_cons, h3, h2]

theorem ravel_two (f : Char → ℕ) (env : Env) (a b d : List Char) (x y : Char)
    (h : ∀ c ∈ a ++ b ++ d, f c = 1 ∧ env c = 0) :
    ravel ((a ++ x :: (b ++ y :: d)).map f) ((a ++ x :: (b ++ y :: d)).map env) = env x * f y + env y ∧
    ((a ++ x :: (b ++ y :: d)).map f).prod = f x * f y := by
  obtain ⟨a1, a2⟩ := ravel_ones f env a (fun c hc => h c (by simp [hc]))
  obtain ⟨b1, b2⟩ := ravel_ones f env b (fun c hc => h c (by simp [hc]))
  obtain ⟨d1, d2⟩ := ravel_ones f env d (fun c hc => h c (by simp [hc]))
  constructor
  · rw [List.map_append, List.map_append, ravel_append (by simp), a1]
    simp only [List.map_cons, List.map_append, ravel]
    rw [ravel_append (by simp), b1]
    simp only [ravel, d1, d2, b2, List.prod_append, List.prod_cons]
    ring
  · simp [a2, b2, d2]

theorem clampIdx_map (f : Char → ℕ) (env : Env) (str : List Char) :
    Tensor.clampIdx (str.map f) (str.map env) = str.map (fun c => if f c = 1 then 0 else env c) := by
  unfold Tensor.clampIdx
  rw [List.zipWith_map, List.zipWith_self]

theorem bondShape_map (sz : Char → ℕ) (str : List Char) (d : Option ℕ) (one : Bool) :
    bondShape (str.map sz) str d one =
      str.map (fun c => if c = 'l' ∨ c = 'r' then d.getD (sz c) else if one then 1 else sz c) := by
  unfold bondShape
  rw [List.zipWith_map_left, List.zipWith_self]

theorem axisSize_map (sz : Char → ℕ) (str : List Char) (c : Char) (hc : c ∈ str) :
    axisSize (str.map sz) str c = sz c := by
  unfold axisSize
  have h := List.idxOf_lt_length_of_mem hc
  rw [List.getD_eq_getElem?_getD, List.getElem?_map, List.getElem?_eq_getElem h]
  simp

/-- either order of the two bond letters -/
theorem split_two {str : List Char} (hnd : str.Nodup) (hl : 'l' ∈ str) (hr : 'r' ∈ str) :
    (∃ a b d, str = a ++ 'l' :: (b ++ 'r' :: d) ∧ str.idxOf 'l' < str.idxOf 'r') ∨
    (∃ a b d, str = a ++ 'r' :: (b ++ 'l' :: d) ∧ str.idxOf 'r' < str.idxOf 'l') := by
  have key : ∀ x y : Char, x ≠ y → ∀ s t : List Char, y ∈ t → x ∉ s → y ∉ s →
      ∃ a b d, s ++ x :: t = a ++ x :: (b ++ y :: d) ∧ (s ++ x :: t).idxOf x < (s ++ x :: t).idxOf y := by
    intro x y hxy s t hy hx hys
    obtain ⟨b, d, rfl⟩ := List.append_of_mem hy
    refine ⟨s, b, d, rfl, ?_⟩
    rw [List.idxOf_append_of_notMem hx, List.idxOf_append_of_notMem hys]
    simp [List.idxOf_cons, hxy]
  obtain ⟨s, t, rfl⟩ := List.append_of_mem hl
  have hnd' := List.nodup_append.1 hnd
  have hls : 'l' ∉ s := fun h => hnd'.2.2 'l' h 'l' (by simp) rfl
  rcases List.mem_append.1 hr with h | h
  · right
    obtain ⟨s', t', rfl⟩ := List.append_of_mem h
    have : s' ++ 'r' :: t' ++ 'l' :: t = s' ++ 'r' :: (t' ++ 'l' :: t) := by simp
    rw [this]
    refine key 'r' 'l' (by decide) s' _ (by simp) ?_ ?_
    · have := List.nodup_append.1 hnd'.1
      exact fun h => this.2.2 'r' h 'r' (by simp) rfl
    · intro h; exact hls (by simp [h])
  · left
    have hrt : 'r' ∈ t := by simpa using h
    refine key 'l' 'r' (by decide) s t hrt hls ?_
    intro h
    exact hnd'.2.2 'r' h 'r' (by simp [hrt]) rfl

/-- The identity block: `e` are the sizes of the block. -/
theorem eyeBlock_spec (sz e : Char → ℕ) (str : List Char) (hnd : str.Nodup) (hl : 'l' ∈ str) (hr : 'r' ∈ str)
    (dl dr : ℕ) (hel : e 'l' ≤ sz 'l') (her : e 'r' ≤ sz 'r') (heo : ∀ c, c ≠ 'l' → c ≠ 'r' → e c = sz c)
    (hdim : dl = e 'l' ∧ dr = e 'r') (hord : str.idxOf 'l' < str.idxOf 'r' ∨ e 'l' = e 'r') :
    ∃ t, eyeBlock (str.map sz) (str.map (fun c => if c = 'l' ∨ c = 'r' then e c else 1)) (str.map e) dl dr = .ok t ∧
      t.shape = str.map sz ∧ ∀ env : Env, (∀ c ∈ str, env c < sz c) →
        t.get (str.map env) = if env 'l' < e 'l' ∧ env 'r' < e 'r' ∧ env 'l' = env 'r' then 1 else 0 := by
  obtain ⟨rfl, rfl⟩ := hdim
  set f : Char → ℕ := fun c => if c = 'l' ∨ c = 'r' then e c else 1 with hf
  have hprod : (str.map f).prod = e 'l' * e 'r' := by
    rcases split_two hnd hl hr with ⟨a, b, d, hs, _⟩ | ⟨a, b, d, hs, _⟩
    · have hnd2 := hnd
      rw [hs] at hnd2 ⊢
      have : ∀ c ∈ a ++ b ++ d, f c = 1 ∧ (fun _ => 0 : Env) c = 0 := by
        intro c hc
        refine ⟨?_, rfl⟩
        simp only [hf]
        rw [if_neg]
        rintro (rfl | rfl)
        all_goals
          simp [List.nodup_append, List.nodup_cons] at hnd2 hc
          grind
      rw [(ravel_two f (fun _ => 0) a b d 'l' 'r' this).2]
      simp [hf]
    · have hnd2 := hnd
      rw [hs] at hnd2 ⊢
      have : ∀ c ∈ a ++ b ++ d, f c = 1 ∧ (fun _ => 0 : Env) c = 0 := by
        intro c hc
        refine ⟨?_, rfl⟩
        simp only [hf]
        rw [if_neg]
        rintro (rfl | rfl)
        all_goals
          simp [List.nodup_append, List.nodup_cons] at hnd2 hc
          grind
      rw [(ravel_two f (fun _ => 0) a b d 'r' 'l' this).2]
      simp [hf, mul_comm]
  have hexp : List.Forall₂ (fun n m => n = m ∨ n = 1) (str.map f) (str.map e) := by
    rw [List.forall₂_map_left_iff, List.forall₂_map_right_iff, List.forall₂_same]
    intro c _
    simp only [hf]
    split <;> simp
  have hblk : List.zipWith min (str.map e) (str.map sz) = str.map e := by
    rw [List.zipWith_map, List.zipWith_self]
    refine List.map_congr_left (fun c _ => ?_)
    by_cases h1 : c = 'l'
    · subst h1; omega
    · by_cases h2 : c = 'r'
      · subst h2; omega
      · rw [heo c h1 h2]; simp
  have hexp2 : List.Forall₂ (fun n m => n = m ∨ n = 1) (str.map e) (str.map e) := by
    rw [List.forall₂_map_left_iff, List.forall₂_map_right_iff, List.forall₂_same]
    intro c _; exact Or.inl rfl
  unfold eyeBlock Tensor.view Tensor.expand assignBlock
  rw [if_pos (by rw [hprod]; simp [eyeTensor])]
  simp only [bind, Except.bind]
  rw [if_pos hexp]
  simp only [Tensor.expand, hblk]
  rw [if_pos hexp2]
  refine ⟨_, rfl, rfl, ?_⟩
  intro env henv
  simp only
  by_cases hin : InRange (str.map env) (str.map e)
  · rw [if_pos hin, Tensor.clampIdx_of_inRange hin, clampIdx_map]
    rw [inRange_map] at hin
    have il := hin 'l' hl
    have ir := hin 'r' hr
    set env' : Env := fun c => if f c = 1 then 0 else env c with henv'
    have fl : f 'l' = e 'l' := by simp [hf]
    have e'l : env' 'l' = env 'l' := by
      simp only [henv', fl]; split <;> omega
    have fr : f 'r' = e 'r' := by simp [hf]
    have e'r : env' 'r' = env 'r' := by
      simp only [henv', fr]; split <;> omega
    have hget : ∀ k m, k < e 'l' → m < e 'r' →
        (eyeTensor (e 'l') (e 'r')).get (unravel (eyeTensor (e 'l') (e 'r')).shape (k * e 'r' + m)) =
          if k = m then 1 else 0 := by
      intro k m hk hm
      have : k * e 'r' + m = ravel [e 'l', e 'r'] [k, m] := by simp [ravel]
      rw [this]
      have h2 : InRange [k, m] [e 'l', e 'r'] := by simp [hk, hm]
      simp only [eyeTensor]
      rw [unravel_ravel h2]
      simp
    rcases split_two hnd hl hr with ⟨a, b, d, hs, _⟩ | ⟨a, b, d, hs, ho⟩
    · have hnd2 := hnd
      rw [hs] at hnd2
      have : ∀ c ∈ a ++ b ++ d, f c = 1 ∧ env' c = 0 := by
        intro c hc
        have : f c = 1 := by
          simp only [hf]
          rw [if_neg]
          rintro (rfl | rfl)
          all_goals
            simp [List.nodup_append, List.nodup_cons] at hnd2 hc
            grind
        exact ⟨this, by simp [henv', this]⟩
      have hrav := (ravel_two f env' a b d 'l' 'r' this).1
      rw [← hs] at hrav
      rw [hrav, e'l, e'r]
      have : f 'r' = e 'r' := by simp [hf]
      rw [this, hget _ _ il ir]
      simp [il, ir]
    · have hsq : e 'l' = e 'r' := by
        rcases hord with h | h
        · omega
        · exact h
      have hnd2 := hnd
      rw [hs] at hnd2
      have : ∀ c ∈ a ++ b ++ d, f c = 1 ∧ env' c = 0 := by
        intro c hc
        have : f c = 1 := by
          simp only [hf]
          rw [if_neg]
          rintro (rfl | rfl)
          all_goals
            simp [List.nodup_append, List.nodup_cons] at hnd2 hc
            grind
        exact ⟨this, by simp [henv', this]⟩
      have hrav := (ravel_two f env' a b d 'r' 'l' this).1
      rw [← hs] at hrav
      rw [hrav, e'l, e'r]
      have : f 'l' = e 'r' := by simp [hf, hsq]
      rw [this, hget _ _ (by omega) (by omega)]
      simp only [il, ir, true_and]
      congr 1
      exact propext eq_comm
  · rw [if_neg hin, if_neg]
    rintro ⟨h1, h2, _⟩
    apply hin
    rw [inRange_map]
    intro c hc
    by_cases h3 : c = 'l'
    · rw [h3]; exact h1
    · by_cases h4 : c = 'r'
      · rw [h4]; exact h2
      · rw [heo c h3 h4]; exact henv c hc

end TorchMPS
