import Verif.Model.InitData
import Mathlib.Data.Nat.Digits.Lemmas
import Mathlib.Data.List.Perm.Basic
import Mathlib.Tactic.Linarith
/-
C43, C44, C45: `joint_shuffle`, `load_HV_data`, `onehot`.
-/
namespace TorchMPS

/-! ### Shuffling -/

theorem swapAt_perm {α : Type} (xs : List α) (i j : ℕ) : (swapAt xs i j).Perm xs := by
  unfold swapAt
  by_cases hi : i < xs.length
  · by_cases hj : j < xs.length
    · rw [List.getElem?_eq_getElem hi, List.getElem?_eq_getElem hj]
      exact List.set_set_perm hi hj
    · rw [List.getElem?_eq_none (by omega : xs.length ≤ j)]
      split <;> simp_all
  · rw [List.getElem?_eq_none (by omega : xs.length ≤ i)]

theorem swapAt_length {α : Type} (xs : List α) (i j : ℕ) : (swapAt xs i j).length = xs.length :=
  (swapAt_perm xs i j).length_eq

theorem swapAt_map {α β : Type} (f : α → β) (xs : List α) (i j : ℕ) :
    swapAt (xs.map f) i j = (swapAt xs i j).map f := by
  unfold swapAt
  rw [List.getElem?_map, List.getElem?_map]
  cases xs[i]? with
  | none => rfl
  | some a =>
    cases xs[j]? with
    | none => rfl
    | some b => simp [List.map_set]

theorem shuffleLoop_perm {α : Type} (draw : ℕ → ℕ) (n : ℕ) (xs : List α) : (shuffleLoop draw n xs).Perm xs := by
  induction n generalizing xs with
  | zero => exact List.Perm.refl _
  | succ n ih =>
    simp only [shuffleLoop]
    exact (ih _).trans (swapAt_perm _ _ _)

theorem shuffleLoop_map {α β : Type} (f : α → β) (draw : ℕ → ℕ) (n : ℕ) (xs : List α) :
    shuffleLoop draw n (xs.map f) = (shuffleLoop draw n xs).map f := by
  induction n generalizing xs with
  | zero => rfl
  | succ n ih =>
    simp only [shuffleLoop]
    rw [swapAt_map, ih]

theorem npShuffle_perm {α : Type} (rng : ℕ → ℕ → ℕ) (xs : List α) : (npShuffle rng xs).Perm xs :=
  shuffleLoop_perm _ _ _

theorem npShuffle_map {α β : Type} (f : α → β) (rng : ℕ → ℕ → ℕ) (xs : List α) :
    npShuffle rng (xs.map f) = (npShuffle rng xs).map f := by
  unfold npShuffle
  rw [List.length_map, shuffleLoop_map]

/-- two lists of equal length shuffled from the same seed stay aligned -/
theorem npShuffle_zip {α β : Type} (rng : ℕ → ℕ → ℕ) (xs : List α) (ys : List β) (h : xs.length = ys.length) :
    (npShuffle rng xs).zip (npShuffle rng ys) = npShuffle rng (xs.zip ys) := by
  have h1 : xs = (xs.zip ys).map Prod.fst := by rw [List.map_fst_zip (by omega)]
  have h2 : ys = (xs.zip ys).map Prod.snd := by rw [List.map_snd_zip (by omega)]
  have h3 := npShuffle_map Prod.fst rng (xs.zip ys)
  have h4 := npShuffle_map Prod.snd rng (xs.zip ys)
  rw [← h1] at h3
  rw [← h2] at h4
  rw [h3, h4, List.zip_map']
  simp

/-- C43: with as many labels as data, the (datum, label) pairs of the result are a permutation of the given
pairs, so every label still points to its datum, whatever the random generator draws. -/
theorem C43_joint_shuffle_keeps_pairs {α β : Type} (rng : ℕ → ℕ → ℕ) (data : DeviceList α) (labels : DeviceList β)
    (hdev : data.cuda = labels.cuda) (hlen : data.rows.length = labels.rows.length) :
    ∃ d l, jointShuffle rng data labels = .ok (d, l) ∧ d.cuda = data.cuda ∧ l.cuda = data.cuda ∧
      d.rows.length = data.rows.length ∧ l.rows.length = labels.rows.length ∧
      (d.rows.zip l.rows).Perm (data.rows.zip labels.rows) := by
  refine ⟨⟨data.cuda, npShuffle rng data.rows⟩, ⟨data.cuda, npShuffle rng labels.rows⟩, ?_, rfl, rfl, ?_, ?_, ?_⟩
  · unfold jointShuffle
    rw [assert_true _ hdev]
    rfl
  · exact (npShuffle_perm _ _).length_eq
  · exact (npShuffle_perm _ _).length_eq
  · simp only
    rw [npShuffle_zip _ _ _ hlen]
    exact npShuffle_perm _ _

/-- C43: data and labels on different devices are rejected. -/
theorem C43_device_mismatch {α β : Type} (rng : ℕ → ℕ → ℕ) (data : DeviceList α) (labels : DeviceList β)
    (hdev : data.cuda ≠ labels.cuda) : jointShuffle rng data labels = .error .assertion := by
  unfold jointShuffle
  rw [assert_false _ hdev]
  rfl

/-- C43: on the CPU the arguments themselves are changed: after the call they hold the shuffled rows that
were returned. CUDA arguments are left alone. -/
theorem C43_arguments_shuffled_in_place {α β : Type} (rng : ℕ → ℕ → ℕ) (data : DeviceList α) (labels : DeviceList β)
    (d : DeviceList α) (l : DeviceList β) (h : jointShuffle rng data labels = .ok (d, l)) :
    jointShuffleArgs rng data labels = if data.cuda then (data, labels) else (d, l) := by
  unfold jointShuffle at h
  by_cases hdev : data.cuda = labels.cuda
  · rw [assert_true _ hdev] at h
    simp only [bind, Except.bind, pure, Except.pure, Except.ok.injEq, Prod.mk.injEq] at h
    obtain ⟨rfl, rfl⟩ := h
    unfold jointShuffleArgs
    cases hc : data.cuda
    · rw [hc] at hdev
      simp [← hdev]
    · simp
  · rw [assert_false _ hdev] at h
    simp [bind, Except.bind] at h

/-- C43: the lengths are not compared: with fewer labels than data the pairing is lost (three data, two labels,
and a generator whose draws are always 0). -/
theorem C43_lengths_not_checked : ¬ ∀ (rng : ℕ → ℕ → ℕ) (data labels : DeviceList ℕ),
    data.cuda = labels.cuda → ∃ d l, jointShuffle rng data labels = .ok (d, l) ∧
      ∀ p ∈ d.rows.zip l.rows, p ∈ data.rows.zip labels.rows := by
  intro h
  obtain ⟨d, l, h1, h2⟩ := h (fun _ _ => 0) ⟨false, [10, 20, 30]⟩ ⟨false, [1, 2]⟩ rfl
  have h3 : jointShuffle (fun _ _ => 0) (⟨false, [10, 20, 30]⟩ : DeviceList ℕ) (⟨false, [1, 2]⟩ : DeviceList ℕ) =
      .ok (⟨false, [20, 30, 10]⟩, ⟨false, [2, 1]⟩) := by
    rfl
  rw [h3] at h1
  injection h1 with h1
  injection h1 with ha hb
  subst ha; subst hb
  have := h2 (30, 1) (by decide)
  revert this; decide

example : jointShuffle (fun _ i => i - 1) (⟨false, [10, 20, 30]⟩ : DeviceList ℕ) (⟨false, [1, 2, 3]⟩ : DeviceList ℕ) =
    .ok (⟨false, [30, 10, 20]⟩, ⟨false, [3, 1, 2]⟩) := by rfl

/-! ### onehot -/

theorem onehotLoop_spec (m : ℕ) (labels : List ℤ) (i : ℕ) (v : ℕ → ℕ → ℝ) :
    (∀ x ∈ labels, -(m : ℤ) ≤ x ∧ x < m) → ∃ w, onehotLoop m i labels v = .ok w ∧
      ∀ a b, w a b = if i ≤ a ∧ a < i + labels.length then
        (if ((if labels.getD (a - i) 0 < 0 then labels.getD (a - i) 0 + m else labels.getD (a - i) 0)).toNat = b
          then 1 else v a b) else v a b := by
  induction labels generalizing i v with
  | nil =>
    intro _
    refine ⟨v, rfl, ?_⟩
    intro a b
    rw [if_neg (by simp)]
  | cons x xs ih =>
    intro h
    simp only [onehotLoop, setOne]
    rw [if_pos (h x (by simp))]
    simp only [bind, Except.bind]
    obtain ⟨w, h1, h2⟩ := ih (i + 1) _ (fun y hy => h y (by simp [hy]))
    refine ⟨w, h1, ?_⟩
    intro a b
    rw [h2]
    by_cases ha : a = i
    · subst ha
      have c1 : ¬ (a + 1 ≤ a ∧ a < a + 1 + xs.length) := by omega
      have c2 : a ≤ a ∧ a < a + (x :: xs).length := by simp
      simp only [if_neg c1, if_pos c2]
      simp only [Nat.sub_self, List.getD_cons_zero, true_and]
      by_cases hb : b = ((if x < 0 then x + m else x)).toNat
      · rw [if_pos hb, if_pos hb.symm]
      · rw [if_neg hb, if_neg (Ne.symm hb)]
    · simp only [List.length_cons]
      by_cases hr : i + 1 ≤ a ∧ a < i + 1 + xs.length
      · have c2 : i ≤ a ∧ a < i + (xs.length + 1) := by omega
        simp only [if_pos hr, if_pos c2]
        have : a - i = (a - (i + 1)) + 1 := by omega
        rw [this, List.getD_cons_succ]
        simp [ha]
      · have c2 : ¬ (i ≤ a ∧ a < i + (xs.length + 1)) := by omega
        simp only [if_neg hr, if_neg c2]
        simp [ha]

theorem onehotLoop_err (m : ℕ) (labels : List ℤ) (i : ℕ) (v : ℕ → ℕ → ℝ)
    (h : ∃ x ∈ labels, ¬ (-(m : ℤ) ≤ x ∧ x < m)) : onehotLoop m i labels v = .error .index := by
  induction labels generalizing i v with
  | nil => simp at h
  | cons x xs ih =>
    simp only [onehotLoop, setOne]
    by_cases hx : -(m : ℤ) ≤ x ∧ x < m
    · rw [if_pos hx]
      simp only [bind, Except.bind]
      apply ih
      obtain ⟨y, hy, hy2⟩ := h
      rcases List.mem_cons.1 hy with rfl | hy
      · exact absurd hx hy2
      · exact ⟨y, hy, hy2⟩
    · rw [if_neg hx]; rfl

/-- C45: for labels in `0 .. m-1` the result has one row per label, with 1 at the label and 0 elsewhere. -/
theorem C45_onehot (labels : List ℤ) (m : ℕ) (h : ∀ x ∈ labels, 0 ≤ x ∧ x < m) :
    ∃ t, onehot labels m = .ok t ∧ t.shape = [labels.length, m] ∧
      ∀ i < labels.length, ∀ j < m, t.get [i, j] = if labels.getD i 0 = j then 1 else 0 := by
  obtain ⟨w, h1, h2⟩ := onehotLoop_spec m labels 0 (fun _ _ => 0) (fun x hx => by have := h x hx; omega)
  refine ⟨⟨[labels.length, m], fun idx => w (idx.getD 0 0) (idx.getD 1 0)⟩, ?_, rfl, ?_⟩
  · unfold onehot
    rw [h1]
    rfl
  · intro i hi j hj
    show w i j = _
    rw [h2, if_pos (by omega)]
    simp only [Nat.sub_zero]
    have hm : labels.getD i 0 ∈ labels := by
      rw [List.getD_eq_getElem?_getD, List.getElem?_eq_getElem hi]; simp
    have := h _ hm
    have c1 : ¬ labels.getD i 0 < 0 := by omega
    simp only [if_neg c1]
    refine if_congr ?_ rfl rfl
    omega

/-- C45: a label `≥ m` or `< -m` raises IndexError. -/
theorem C45_out_of_range (labels : List ℤ) (m : ℕ) (h : ∃ x ∈ labels, x < -(m : ℤ) ∨ (m : ℤ) ≤ x) :
    onehot labels m = .error .index := by
  unfold onehot
  rw [onehotLoop_err m labels 0 _ (by
    obtain ⟨x, hx, hx2⟩ := h
    exact ⟨x, hx, by omega⟩)]
  rfl

/-- C45: negative labels down to `-m` are not rejected but count from the end. -/
theorem C45_negative_labels_wrap (labels : List ℤ) (m : ℕ) (h : ∀ x ∈ labels, -(m : ℤ) ≤ x ∧ x < m) :
    onehot labels m = onehot (labels.map (fun x => if x < 0 then x + m else x)) m := by
  unfold onehot
  suffices H : ∀ i v, onehotLoop m i labels v =
      onehotLoop m i (labels.map (fun x => if x < 0 then x + m else x)) v by
    rw [H, List.length_map]
  induction labels with
  | nil => intro i v; rfl
  | cons x xs ih =>
    intro i v
    have hx := h x (by simp)
    have ih := ih (fun y hy => h y (by simp [hy]))
    simp only [List.map_cons, onehotLoop]
    have : setOne m v i x = setOne m v i (if x < 0 then x + m else x) := by
      unfold setOne
      by_cases hx0 : x < 0
      · have c1 : -(m : ℤ) ≤ x + m ∧ x + m < m := by omega
        have c2 : ¬ (x + m < 0) := by omega
        simp only [if_pos hx0, if_pos hx, if_pos c1, if_neg c2]
      · simp only [if_neg hx0]
    rw [this]
    cases setOne m v i (if x < 0 then x + m else x) with
    | error e => rfl
    | ok w => exact ih _ _

example : ∃ t, onehot [2, 0] 3 = .ok t ∧ t.get [0, 2] = 1 ∧ t.get [0, 1] = 0 ∧ t.get [1, 0] = 1 := by
  obtain ⟨t, h1, _, h3⟩ := C45_onehot [2, 0] 3 (by simp)
  refine ⟨t, h1, ?_, ?_, ?_⟩
  · rw [h3 0 (by simp) 2 (by omega)]; simp
  · rw [h3 0 (by simp) 1 (by omega)]; simp
  · rw [h3 1 (by simp) 0 (by omega)]; simp

end TorchMPS
