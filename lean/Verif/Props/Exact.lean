import Verif.Props.Utils2
import Verif.Props.Slices
/-
Exact descriptions of functions which do not do what their documentation says: C04 (batch_to), C07 (floor2), C15 (get_mat_slices).
-/
namespace TorchMPS
open Spec
variable {K : Type}

/-! ### C04 -/

/-- C04: what `batch_to` returns, whenever it returns: the batch axes have the broadcast of their shape with the requested one,
and this is the requested one exactly when the batch axes broadcast into it. -/
theorem C04_batchTo_returns (t : Tensor K) (B : Shape) (k : ℕ) (ref : List ℕ → K) (hk : k ≤ t.ndim) (out : Tensor K)
    (h : batchTo t B k ref = .ok out) :
    ∃ D, IsBroadcast [batchShape t k, B] D ∧ out.shape = D ++ nonBatchShape t k ∧
      (∀ b nb, InRange b D → InRange nb (nonBatchShape t k) →
        out.get (b ++ nb) = t.get (sourceIndex (batchShape t k) b ++ nb)) ∧
      (out.shape = B ++ nonBatchShape t k ↔ (batchShape t k).length ≤ B.length ∧
        ∀ i, sizeAt (batchShape t k) i = 1 ∨ sizeAt (batchShape t k) i = sizeAt B i) := by
  have hBB : batchShape (⟨B, ref⟩ : Tensor K) 0 = B := by simp [batchShape, Tensor.ndim]
  have hc : Compatible [batchShape t k, B] := by
    by_contra hc
    rw [(C04_batchTo_rejects_iff t B k ref hk).2 hc] at h
    cases h
  obtain ⟨D, hD⟩ := (exists_isBroadcast_iff _ (by simp)).2 hc
  obtain ⟨outs, ho, hF⟩ := C03_batchBroadcast_ok [t, ⟨B, ref⟩] [k, 0] D rfl
    (by simp [hk]) (by simp) (by simpa [hBB] using hD)
  simp only [List.zip_cons_cons, List.zip_nil_right] at hF
  obtain _ | ⟨h0, _ | ⟨h1, _ | _⟩⟩ := hF
  unfold batchTo at h
  rw [ho] at h
  cases h
  refine ⟨D, hD, h0.1, h0.2, ?_⟩
  rw [h0.1]
  constructor
  · intro heq
    have hDB : D = B := List.append_cancel_right heq
    subst hDB
    exact ⟨hD.rank_ge _ (by simp), fun i => hD.fits i _ (by simp)⟩
  · rintro ⟨hr, hfit⟩
    obtain ⟨out', o1, o2, -⟩ := C04_batchTo_exact t B k ref hk hr hfit
    unfold batchTo at o1
    rw [ho] at o1
    cases o1
    rw [← o2, h0.1]

/-- C04: a tensor is returned exactly when the two batch shapes can be broadcast together. -/
theorem C04_batchTo_accepts_iff (t : Tensor K) (B : Shape) (k : ℕ) (ref : List ℕ → K) (hk : k ≤ t.ndim) :
    (∃ out, batchTo t B k ref = .ok out) ↔ Compatible [batchShape t k, B] := by
  constructor
  · rintro ⟨out, h⟩
    by_contra hc
    rw [(C04_batchTo_rejects_iff t B k ref hk).2 hc] at h
    cases h
  · intro hc
    have hBB : batchShape (⟨B, ref⟩ : Tensor K) 0 = B := by simp [batchShape, Tensor.ndim]
    obtain ⟨D, hD⟩ := (exists_isBroadcast_iff _ (by simp)).2 hc
    obtain ⟨outs, ho, hF⟩ := C03_batchBroadcast_ok [t, ⟨B, ref⟩] [k, 0] D rfl
      (by simp [hk]) (by simp) (by simpa [hBB] using hD)
    simp only [List.zip_cons_cons, List.zip_nil_right] at hF
    obtain _ | ⟨h0, _ | ⟨h1, _ | _⟩⟩ := hF
    unfold batchTo
    rw [ho]
    exact ⟨_, rfl⟩

example : ∃ out, batchTo (⟨[5, 1], fun _ => 0⟩ : Tensor ℤ) [3] 0 (fun _ => 0) = .ok out := ⟨_, rfl⟩

/-! ### C07 -/

theorem zpow_two_le_iff (x : ℝ) (hx : 0 < x) (n : ℤ) : (2 : ℝ) ^ n ≤ x ↔ n * Real.log 2 ≤ Real.log x := by
  rw [← Real.log_zpow, Real.log_le_log_iff (by positivity) hx]

theorem lt_zpow_two_iff (x : ℝ) (hx : 0 < x) (n : ℤ) : x < (2 : ℝ) ^ n ↔ Real.log x < n * Real.log 2 := by
  rw [← Real.log_zpow, Real.log_lt_log_iff hx (by positivity)]

theorem exp_le_iff_log (x : ℝ) (hx : 0 < x) (a : ℝ) : Real.exp a ≤ x ↔ a ≤ Real.log x := (Real.le_log_iff_exp_le hx).symm

theorem lt_exp_iff_log (x : ℝ) (hx : 0 < x) (a : ℝ) : x < Real.exp a ↔ Real.log x < a := (Real.log_lt_iff_lt_exp hx).symm

/-- C07: exactly where `floor2` returns the largest power of two not above its argument: on
`[1/8, e⁻²) ∪ [1/4, e⁻¹) ∪ [1/2, 2) ∪ [e, 4) ∪ [e², 8)`. -/
theorem C07_largest_below_iff (x : ℝ) (hx : 0 < x) :
    (∃ n : ℤ, floor2 x = 2 ^ n ∧ (2 : ℝ) ^ n ≤ x ∧ x < 2 ^ (n + 1)) ↔
      ((2 : ℝ) ^ (-3 : ℤ) ≤ x ∧ x < Real.exp (-2)) ∨ ((2 : ℝ) ^ (-2 : ℤ) ≤ x ∧ x < Real.exp (-1)) ∨
      ((2 : ℝ) ^ (-1 : ℤ) ≤ x ∧ x < (2 : ℝ) ^ (1 : ℤ)) ∨ (Real.exp 1 ≤ x ∧ x < (2 : ℝ) ^ (2 : ℤ)) ∨
      (Real.exp 2 ≤ x ∧ x < (2 : ℝ) ^ (3 : ℤ)) := by
  have h1 := Real.log_two_gt_d9
  have h2 := Real.log_two_lt_d9
  simp only [zpow_two_le_iff x hx, lt_zpow_two_iff x hx, exp_le_iff_log x hx, lt_exp_iff_log x hx]
  generalize hℓ : Real.log 2 = ℓ at *
  have hinj : ∀ n : ℤ, floor2 x = 2 ^ n ↔ n = ⌊Real.log x⌋ := fun n => by
    unfold floor2
    rw [zpow_right_inj₀ (by norm_num) (by norm_num)]
    exact eq_comm
  simp only [hinj]
  generalize Real.log x = L at *
  constructor
  · rintro ⟨n, hn, h3, h4⟩
    have h5 := (Int.floor_eq_iff (a := L) (z := n)).1 hn.symm
    push_cast at h4
    have hlo : (-4 : ℝ) < n := by nlinarith
    have hhi : (n : ℝ) < 3 := by nlinarith
    have hlo' : -4 < n := by exact_mod_cast hlo
    have hhi' : n < 3 := by exact_mod_cast hhi
    have : n = -3 ∨ n = -2 ∨ n = -1 ∨ n = 0 ∨ n = 1 ∨ n = 2 := by omega
    rcases this with rfl | rfl | rfl | rfl | rfl | rfl <;> push_cast at h3 h4 h5 ⊢
    · left; constructor <;> linarith
    · right; left; constructor <;> linarith
    · right; right; left; constructor <;> linarith
    · right; right; left; constructor <;> linarith
    · right; right; right; left; constructor <;> linarith
    · right; right; right; right; constructor <;> linarith
  · intro hcase
    push_cast at hcase
    rcases hcase with ⟨a, b⟩ | ⟨a, b⟩ | ⟨a, b⟩ | ⟨a, b⟩ | ⟨a, b⟩
    · refine ⟨-3, ((Int.floor_eq_iff).2 ⟨?_, ?_⟩).symm, ?_, ?_⟩ <;> push_cast <;> linarith
    · refine ⟨-2, ((Int.floor_eq_iff).2 ⟨?_, ?_⟩).symm, ?_, ?_⟩ <;> push_cast <;> linarith
    · by_cases hL : L < 0
      · refine ⟨-1, ((Int.floor_eq_iff).2 ⟨?_, ?_⟩).symm, ?_, ?_⟩ <;> push_cast <;> linarith
      · refine ⟨0, ((Int.floor_eq_iff).2 ⟨?_, ?_⟩).symm, ?_, ?_⟩ <;> push_cast <;> linarith
    · refine ⟨1, ((Int.floor_eq_iff).2 ⟨?_, ?_⟩).symm, ?_, ?_⟩ <;> push_cast <;> linarith
    · refine ⟨2, ((Int.floor_eq_iff).2 ⟨?_, ?_⟩).symm, ?_, ?_⟩ <;> push_cast <;> linarith

/-- C07: exactly where `floor2` does what its documentation says (the smallest power of two above its argument): on
`[1/64, e⁻⁴) ∪ [1/32, e⁻³) ∪ [1/16, 1/8) ∪ [e⁻², 1/4) ∪ [e⁻¹, 1/2)`, so nowhere above 1/2. -/
theorem C07_documented_iff (x : ℝ) (hx : 0 < x) :
    (∃ n : ℤ, floor2 x = 2 ^ n ∧ x < (2 : ℝ) ^ n ∧ (2 : ℝ) ^ (n - 1) ≤ x) ↔
      ((2 : ℝ) ^ (-6 : ℤ) ≤ x ∧ x < Real.exp (-4)) ∨ ((2 : ℝ) ^ (-5 : ℤ) ≤ x ∧ x < Real.exp (-3)) ∨
      ((2 : ℝ) ^ (-4 : ℤ) ≤ x ∧ x < (2 : ℝ) ^ (-3 : ℤ)) ∨ (Real.exp (-2) ≤ x ∧ x < (2 : ℝ) ^ (-2 : ℤ)) ∨
      (Real.exp (-1) ≤ x ∧ x < (2 : ℝ) ^ (-1 : ℤ)) := by
  have h1 := Real.log_two_gt_d9
  have h2 := Real.log_two_lt_d9
  simp only [zpow_two_le_iff x hx, lt_zpow_two_iff x hx, exp_le_iff_log x hx, lt_exp_iff_log x hx]
  generalize hℓ : Real.log 2 = ℓ at *
  have hinj : ∀ n : ℤ, floor2 x = 2 ^ n ↔ n = ⌊Real.log x⌋ := fun n => by
    unfold floor2
    rw [zpow_right_inj₀ (by norm_num) (by norm_num)]
    exact eq_comm
  simp only [hinj]
  generalize Real.log x = L at *
  constructor
  · rintro ⟨n, hn, h3, h4⟩
    have h5 := (Int.floor_eq_iff (a := L) (z := n)).1 hn.symm
    push_cast at h4
    have hlo : (-6 : ℝ) < n := by nlinarith
    have hhi : (n : ℝ) < 0 := by nlinarith
    have hlo' : -6 < n := by exact_mod_cast hlo
    have hhi' : n < 0 := by exact_mod_cast hhi
    have : n = -5 ∨ n = -4 ∨ n = -3 ∨ n = -2 ∨ n = -1 := by omega
    rcases this with rfl | rfl | rfl | rfl | rfl <;> push_cast at h3 h4 h5 ⊢
    · left; constructor <;> linarith
    · right; left; constructor <;> linarith
    · right; right; left; constructor <;> linarith
    · right; right; right; left; constructor <;> linarith
    · right; right; right; right; constructor <;> linarith
  · intro hcase
    push_cast at hcase
    rcases hcase with ⟨a, b⟩ | ⟨a, b⟩ | ⟨a, b⟩ | ⟨a, b⟩ | ⟨a, b⟩
    · refine ⟨-5, ((Int.floor_eq_iff).2 ⟨?_, ?_⟩).symm, ?_, ?_⟩ <;> push_cast <;> linarith
    · refine ⟨-4, ((Int.floor_eq_iff).2 ⟨?_, ?_⟩).symm, ?_, ?_⟩ <;> push_cast <;> linarith
    · refine ⟨-3, ((Int.floor_eq_iff).2 ⟨?_, ?_⟩).symm, ?_, ?_⟩ <;> push_cast <;> linarith
    · refine ⟨-2, ((Int.floor_eq_iff).2 ⟨?_, ?_⟩).symm, ?_, ?_⟩ <;> push_cast <;> linarith
    · refine ⟨-1, ((Int.floor_eq_iff).2 ⟨?_, ?_⟩).symm, ?_, ?_⟩ <;> push_cast <;> linarith

/-! ### C15 -/

theorem resolveIdx_some_iff (n : ℕ) (i : ℤ) : (resolveIdx n i).isSome = true ↔ -(n : ℤ) ≤ i ∧ i < n := by
  unfold resolveIdx
  split_ifs <;> simp <;> omega

/-- C15: exactly which index sequences a model with one core per site accepts: not longer than the model, with indices between
`-d` and `d - 1` (negative ones count from the end); all others are IndexErrors. The result has one matrix per position of the input. -/
theorem C15_index_accepts_iff [RCLike K] (t : Tensor ℤ) (core : Tensor K) (B n d D E T : ℕ)
    (ht : t.shape = [B, T]) (hc : core.shape = [n, d, D, E]) (hB : 0 < B) :
    ((∃ o : Tensor K, getMatSlices (.ints t) core = .ok o) ↔
      T ≤ n ∧ ∀ b < B, ∀ s < T, -(d : ℤ) ≤ t.get [b, s] ∧ t.get [b, s] < d) ∧
    (∀ o : Tensor K, getMatSlices (.ints t) core = .ok o → o.shape = [B, T, D, E] ∧
      ∀ b < B, ∀ s < T, ∀ i < D, ∀ j < E, o.get [b, s, i, j] =
        core.get [s, (if t.get [b, s] < 0 then t.get [b, s] + d else t.get [b, s]).toNat, i, j]) ∧
    ((¬ ∃ o : Tensor K, getMatSlices (.ints t) core = .ok o) → getMatSlices (.ints t) core = .error .index) := by
  have hiff : (∀ b < B, ∀ s < T, s < n ∧ (resolveIdx d (t.get [b, s])).isSome = true) ↔
      T ≤ n ∧ ∀ b < B, ∀ s < T, -(d : ℤ) ≤ t.get [b, s] ∧ t.get [b, s] < d := by
    simp only [resolveIdx_some_iff]
    constructor
    · intro h
      refine ⟨?_, fun b hb s hs => (h b hb s hs).2⟩
      by_contra hT
      have := (h 0 hB n (by omega)).1
      omega
    · rintro ⟨h1, h2⟩ b hb s hs
      exact ⟨by omega, h2 b hb s hs⟩
  unfold getMatSlices
  simp only [SeqInput.shape, Tensor.ndim, ht, hc]
  rw [assert_true _ (by simp), assert_true _ (by simp)]
  simp only [bind, Except.bind, pure, Except.pure]
  by_cases h : ∀ b < B, ∀ s < T, s < n ∧ (resolveIdx d (t.get [b, s])).isSome = true
  · rw [if_pos h]
    refine ⟨⟨fun _ => hiff.1 h, fun _ => ⟨_, rfl⟩⟩, ?_, fun hn => absurd ⟨_, rfl⟩ hn⟩
    rintro o ⟨⟩
    refine ⟨rfl, fun b hb s hs i hi j hj => ?_⟩
    have h1 := (hiff.1 h).2 b hb s hs
    have hci : ∀ z : K, cindex z = z := fun z => by
      unfold cindex
      split
      · rw [mul_comm]; exact RCLike.re_add_im z
      · rfl
    simp only [hci]
    unfold resolveIdx
    by_cases h0 : t.get [b, s] < 0
    · rw [if_neg (by omega), if_pos (by omega), if_pos h0]; rfl
    · rw [if_pos (by omega), if_neg h0]; rfl
  · rw [if_neg h]
    refine ⟨⟨fun ⟨o, ho⟩ => by { cases ho }, fun hh => absurd (hiff.2 hh) h⟩, ?_, fun _ => rfl⟩
    intro o ho
    cases ho

/-- C15: exactly which vector sequences a model with one core per site accepts: those of its own length, and those of length 1
(the single vector is used at every site), or, if the model has a single site, those of every length (with the same core
everywhere); all others are RuntimeErrors. -/
theorem C15_vector_accepts_iff [RCLike K] (t core : Tensor K) (B n d D E T : ℕ)
    (ht : t.shape = [B, T, d]) (hc : core.shape = [n, d, D, E]) :
    ((∃ o : Tensor K, getMatSlices (.floats t) core = .ok o) ↔ T = n ∨ T = 1 ∨ n = 1) ∧
    ((¬ ∃ o : Tensor K, getMatSlices (.floats t) core = .ok o) → getMatSlices (.floats t) core = .error .runtime) := by
  unfold getMatSlices
  simp only [SeqInput.shape, Tensor.ndim, ht, hc]
  rw [assert_true _ (by simp), assert_true _ (by simp)]
  simp only [bind, Except.bind]
  unfold einsum
  simp only
  have hiff : (([("bti".toList), "tide".toList] : List (List Char)).length = [t, core].length ∧
      (∀ p ∈ ["bti".toList, "tide".toList].zip [t, core], p.1.length = p.2.ndim) ∧
      (∀ u ∈ (["bti".toList, "tide".toList].zip [t, core]).flatMap (fun p => p.1.zip p.2.shape),
        ∀ v ∈ (["bti".toList, "tide".toList].zip [t, core]).flatMap (fun p => p.1.zip p.2.shape),
          u.1 = v.1 → u.2 = 1 ∨ v.2 = 1 ∨ u.2 = v.2) ∧
      ("btde".toList).Nodup ∧ ∀ c ∈ "btde".toList, c ∈ ["bti".toList, "tide".toList].flatten) ↔ T = n ∨ T = 1 ∨ n = 1 := by
    constructor
    · rintro ⟨-, -, h, -⟩
      have := h ('t', T) (by simp [ht, hc]) ('t', n) (by simp [ht, hc]) rfl
      simp at this
      tauto
    · intro h
      refine ⟨rfl, by simp [Tensor.ndim, ht, hc], ?_, by decide, by decide⟩
      simp [ht, hc]
      omega
  by_cases h : T = n ∨ T = 1 ∨ n = 1
  · rw [if_pos (hiff.2 h)]
    exact ⟨⟨fun _ => h, fun _ => ⟨_, rfl⟩⟩, fun hn => absurd ⟨_, rfl⟩ hn⟩
  · rw [if_neg (fun hh => h (hiff.1 hh))]
    exact ⟨⟨fun ⟨o, ho⟩ => by { cases ho }, fun hh => absurd hh h⟩, fun _ => rfl⟩

/-- C15: and what the accepted vector sequences are evaluated to: a single vector is used at every site, a single core at every
position. -/
theorem C15_vector_value [RCLike K] (t core : Tensor K) (B n d D E T : ℕ)
    (ht : t.shape = [B, T, d]) (hc : core.shape = [n, d, D, E]) (o : Tensor K) (ho : getMatSlices (.floats t) core = .ok o) :
    o.shape = [B, if T = 1 then n else T, D, E] ∧
    ∀ b < B, ∀ s < (if T = 1 then n else T), ∀ i < D, ∀ j < E, o.get [b, s, i, j] =
      ∑ k ∈ Finset.range d, t.get [b, if T = 1 then 0 else s, k] * core.get [if n = 1 then 0 else s, k, i, j] := by
  have hacc := (C15_vector_accepts_iff t core B n d D E T ht hc).1.1 ⟨o, ho⟩
  unfold getMatSlices at ho
  simp only [SeqInput.shape, Tensor.ndim, ht, hc] at ho
  rw [assert_true _ (by simp), assert_true _ (by simp)] at ho
  simp only [bind, Except.bind] at ho
  unfold einsum at ho
  simp only at ho
  split at ho
  swap
  · cases ho
  have hone : ∀ (m : ℕ), (Option.getD (List.find? (fun x => decide (x ≠ 1)) [m]) 1) = m := by
    intro m
    by_cases hm : m = 1 <;> simp [List.find?, hm]
  have hin : (["bti".toList, "tide".toList] : List (List Char)).flatten.dedup.filter (fun c => c ∉ "btde".toList) = ['i'] := by decide
  have hL : ∀ c, letterSize ((["bti".toList, "tide".toList].zip [t, core]).flatMap (fun p => p.1.zip p.2.shape)) c =
      letterSize [('b', B), ('t', T), ('i', d), ('t', n), ('i', d), ('d', D), ('e', E)] c := by
    intro c
    simp [ht, hc]
  rw [hin] at ho
  have lb : letterSize [('b', B), ('t', T), ('i', d), ('t', n), ('i', d), ('d', D), ('e', E)] 'b' = B := by
    simp [letterSize]; by_cases h : B = 1 <;> simp [List.find?, h]
  have lt : letterSize [('b', B), ('t', T), ('i', d), ('t', n), ('i', d), ('d', D), ('e', E)] 't' = if T = 1 then n else T := by
    simp [letterSize]; by_cases h : T = 1 <;> by_cases h' : n = 1 <;> simp [List.find?, h, h']
  have li : letterSize [('b', B), ('t', T), ('i', d), ('t', n), ('i', d), ('d', D), ('e', E)] 'i' = d := by
    simp [letterSize]; by_cases h : d = 1 <;> simp [List.find?, h]
  have ld : letterSize [('b', B), ('t', T), ('i', d), ('t', n), ('i', d), ('d', D), ('e', E)] 'd' = D := by
    simp [letterSize]; by_cases h : D = 1 <;> simp [List.find?, h]
  have le : letterSize [('b', B), ('t', T), ('i', d), ('t', n), ('i', d), ('d', D), ('e', E)] 'e' = E := by
    simp [letterSize]; by_cases h : E = 1 <;> simp [List.find?, h]
  cases ho
  refine ⟨?_, ?_⟩
  · show "btde".toList.map _ = _
    rw [List.map_congr_left (fun c _ => hL c)]
    have : "btde".toList = ['b', 't', 'd', 'e'] := by decide
    rw [this]
    simp only [List.map_cons, List.map_nil]
    rw [lb, lt, ld, le]
  · intro b hb s hs i hi j hj
    simp only [sumOver]
    rw [hL, li]
    refine Finset.sum_congr rfl fun k hk => ?_
    have hk := Finset.mem_range.1 hk
    have e1 : Tensor.clampIdx t.shape ("bti".toList.map ((Env.ofOut "btde".toList [b, s, i, j]).set 'i' k)) = [b, if T = 1 then 0 else s, k] := by
      rw [ht]
      simp [Tensor.clampIdx, Env.ofOut, Env.set]
      split_ifs at * <;> omega
    have e2 : Tensor.clampIdx core.shape ("tide".toList.map ((Env.ofOut "btde".toList [b, s, i, j]).set 'i' k)) = [if n = 1 then 0 else s, k, i, j] := by
      rw [hc]
      simp [Tensor.clampIdx, Env.ofOut, Env.set]
      split_ifs at * <;> omega
    show _ * (_ * 1) = _
    rw [mul_one]
    beta_reduce
    rw [e1, e2]

example : ∃ (t : Tensor ℤ) (core : Tensor ℝ) (o : Tensor ℝ), t.shape = [1, 2] ∧ core.shape = [5, 3, 2, 2] ∧
    getMatSlices (.ints t) core = .ok o := by
  obtain ⟨o, ho⟩ := (C15_index_accepts_iff (K := ℝ) ⟨[1, 2], fun _ => -3⟩ ⟨[5, 3, 2, 2], fun _ => 1⟩ 1 5 3 2 2 2 rfl rfl (by norm_num)).1.2
    ⟨by norm_num, by simp⟩
  exact ⟨_, _, o, rfl, rfl, ho⟩

end TorchMPS
