import Verif.Lemmas.EinsumUses
import Verif.Model.MpsBase
import Verif.Spec.Amplitude
import Mathlib.Analysis.Complex.ExponentialBounds
import Mathlib.Tactic.IntervalCases
/-
Properties of `get_mat_slices` (torchmps/mps_base.py): C14, C15 (default evaluation), and of the complex helpers
of torchmps/utils2.py: C06, C07.
-/
namespace TorchMPS
open Spec
variable {K : Type}

/-! ### C06 -/

/-- C06. `CIndex` indexing is direct indexing. -/
theorem C06_cindex [RCLike K] (x : K) : cindex x = x := by
  unfold cindex
  split
  · rw [mul_comm]; exact RCLike.re_add_im x
  · rfl

/-- C06. `phaseify` keeps shape and absolute values, for every outcome of the random generator. -/
theorem C06_phaseify (t : Tensor ℝ) (u : List ℕ → ℝ) :
    (phaseify t u).shape = t.shape ∧ ∀ idx, ‖(phaseify t u).get idx‖ = |t.get idx| := by
  refine ⟨rfl, fun idx => ?_⟩
  simp only [phaseify, norm_mul, Complex.norm_real, Real.norm_eq_abs]
  have : (2 * Complex.I * Real.pi * (u idx : ℂ)) = ((2 * Real.pi * u idx : ℝ) : ℂ) * Complex.I := by
    push_cast; ring
  rw [this, Complex.norm_exp_ofReal_mul_I, mul_one]

/-- the matrix tensor is Hermitian -/
def Hermitian [RCLike K] (t : Tensor K) (n : ℕ) : Prop :=
  t.shape = [n, n] ∧ ∀ i < n, ∀ j < n, t.get [i, j] = star (t.get [j, i])

theorem realify_of_im_zero [RCLike K] (x : K) (h : RCLike.im x = 0) : realify (some x) = .ok (some (RCLike.re x)) := by
  simp only [realify, h, abs_zero]
  split
  · rw [if_pos (by norm_num)]
  · rfl

theorem traceT_hermitian [RCLike K] (t : Tensor K) (n : ℕ) (h : Hermitian t n) :
    RCLike.im (traceT t) = 0 ∧ traceT t = ∑ i ∈ Finset.range n, t.get [i, i] := by
  have e : traceT t = ∑ i ∈ Finset.range n, t.get [i, i] := by
    simp [traceT, h.1]
  refine ⟨?_, e⟩
  rw [e, map_sum]
  refine Finset.sum_eq_zero fun i hi => ?_
  have := h.2 i (Finset.mem_range.1 hi) i (Finset.mem_range.1 hi)
  exact RCLike.conj_eq_iff_im.1 this.symm

/-- C06. `hermitian_trace` of a Hermitian matrix never raises and returns its trace. -/
theorem C06_hermitianTrace [RCLike K] (t : Tensor K) (n : ℕ) (h : Hermitian t n) :
    ∃ x : ℝ, hermitianTrace (some t) = .ok (some x) ∧
      (x : K) = ∑ i ∈ Finset.range n, t.get [i, i] := by
  obtain ⟨h1, h2⟩ := traceT_hermitian t n h
  refine ⟨RCLike.re (traceT t), realify_of_im_zero _ h1, ?_⟩
  rw [← h2]
  exact RCLike.conj_eq_iff_re.1 (RCLike.conj_eq_iff_im.2 h1)

/-- C06. `realify` of a tensor with real entries never raises and returns the same entries. -/
theorem C06_realify [RCLike K] (t : Tensor K)
    (h : ∀ idx, InRange idx t.shape → RCLike.im (t.get idx) = 0) :
    ∃ r, realifyTensor t = .ok r ∧ r.shape = t.shape ∧
      ∀ idx, InRange idx t.shape → ((r.get idx : ℝ) : K) = t.get idx := by
  refine ⟨⟨t.shape, fun idx => RCLike.re (t.get idx)⟩, ?_, rfl, ?_⟩
  · unfold realifyTensor
    rw [if_neg]
    rintro ⟨-, hn⟩
    apply hn
    intro idx hidx
    rw [h idx hidx]; norm_num
  · intro idx hidx
    exact RCLike.conj_eq_iff_re.1 (RCLike.conj_eq_iff_im.2 (h idx hidx))

/-- C06. A complex tensor with an imaginary part beyond the tolerance is rejected. -/
theorem C06_realify_rejects (t : Tensor ℂ) (idx : List ℕ) (hi : InRange idx t.shape)
    (h : 1e-4 < |(t.get idx).im|) : realifyTensor t = .error .assertion := by
  unfold realifyTensor
  rw [if_pos]
  refine ⟨?_, fun hn => absurd (hn idx hi) (not_le.2 h)⟩
  simp [isComplex]

example : Hermitian (⟨[2, 2], fun idx => if idx = [0, 1] then Complex.I else if idx = [1, 0] then -Complex.I
    else 1⟩ : Tensor ℂ) 2 := by
  refine ⟨rfl, ?_⟩
  intro i hi j hj
  interval_cases i <;> interval_cases j <;> simp

/-! ### C07 -/

/-- C07. What `floor2` returns: the power of two `2^n` for the `n` with `e^n ≤ x < e^(n+1)` (instead of `2^n ≤ x < 2^(n+1)`). -/
theorem C07_floor2_value (x : ℝ) (hx : 0 < x) (n : ℤ) : floor2 x = 2 ^ n ↔ Real.exp n ≤ x ∧ x < Real.exp (n + 1) := by
  unfold floor2
  rw [zpow_right_inj₀ (by norm_num) (by norm_num), Int.floor_eq_iff, Real.le_log_iff_exp_le hx, Real.log_lt_iff_lt_exp hx]

/-- C07. `floor2` is monotone. -/
theorem C07_floor2_mono (x y : ℝ) (hx : 0 < x) (h : x ≤ y) : floor2 x ≤ floor2 y := by
  unfold floor2
  exact zpow_le_zpow_right₀ (by norm_num) (Int.floor_le_floor (Real.log_le_log hx h))

/-- C07. The documented bracketing is false, in both readings: at `x = 64` the result is 16, which is
neither the smallest power of two above `x` nor the largest power of two below it. -/
theorem C07_floor2_wrong : floor2 64 = 16 ∧ ¬ (64 < floor2 64) ∧ ¬ (64 < 2 * floor2 64) := by
  have h : floor2 64 = 16 := by
    have h4 : ⌊Real.log 64⌋ = 4 := by
      rw [Int.floor_eq_iff]
      have : (64 : ℝ) = 2 ^ (6 : ℕ) := by norm_num
      rw [this, Real.log_pow]
      have h1 := Real.log_two_gt_d9
      have h2 := Real.log_two_lt_d9
      constructor
      · push_cast; linarith
      · push_cast; linarith
    unfold floor2
    rw [h4]; norm_num
  rw [h]; norm_num

/-! ### C14 -/

theorem resolveIdx_nat (n : ℕ) (i : ℤ) (h0 : 0 ≤ i) (h1 : i < n) : resolveIdx n i = some i.toNat := by
  simp [resolveIdx, h0, h1]

/-- C14, index inputs, uniform core. -/
theorem C14_index_uniform [RCLike K] (t : Tensor ℤ) (core : Tensor K) (B T d D E : ℕ) (ht : t.shape = [B, T])
    (hc : core.shape = [d, D, E]) (hv : ∀ b < B, ∀ s < T, 0 ≤ t.get [b, s] ∧ t.get [b, s] < d) :
    ∃ o, getMatSlices (.ints t) core = .ok o ∧ o.shape = [B, T, D, E] ∧
      ∀ b < B, ∀ s < T, ∀ i < D, ∀ j < E,
        o.get [b, s, i, j] = core.get [(t.get [b, s]).toNat, i, j] := by
  unfold getMatSlices
  simp only [SeqInput.shape, Tensor.ndim, ht, hc]
  rw [assert_true _ (by simp), assert_true _ (by simp)]
  simp only [bind, Except.bind, pure, Except.pure]
  rw [if_pos (by
    intro b hb s hs
    rw [resolveIdx_nat _ _ (hv b hb s hs).1 (hv b hb s hs).2]; rfl)]
  refine ⟨_, rfl, rfl, ?_⟩
  intro b hb s hs i hi j hj
  simp only
  rw [resolveIdx_nat _ _ (hv b hb s hs).1 (hv b hb s hs).2]; rfl

/-- C14, index inputs, one core per site. -/
theorem C14_index_sites [RCLike K] (t : Tensor ℤ) (core : Tensor K) (B T d D E : ℕ) (ht : t.shape = [B, T])
    (hc : core.shape = [T, d, D, E]) (hv : ∀ b < B, ∀ s < T, 0 ≤ t.get [b, s] ∧ t.get [b, s] < d) :
    ∃ o, getMatSlices (.ints t) core = .ok o ∧ o.shape = [B, T, D, E] ∧
      ∀ b < B, ∀ s < T, ∀ i < D, ∀ j < E,
        o.get [b, s, i, j] = core.get [s, (t.get [b, s]).toNat, i, j] := by
  unfold getMatSlices
  simp only [SeqInput.shape, Tensor.ndim, ht, hc]
  rw [assert_true _ (by simp), assert_true _ (by simp)]
  simp only [bind, Except.bind, pure, Except.pure]
  rw [if_pos (by
    intro b hb s hs
    rw [resolveIdx_nat _ _ (hv b hb s hs).1 (hv b hb s hs).2]; exact ⟨hs, rfl⟩)]
  refine ⟨_, rfl, rfl, ?_⟩
  intro b hb s hs i hi j hj
  simp only
  rw [resolveIdx_nat _ _ (hv b hb s hs).1 (hv b hb s hs).2, C06_cindex]; rfl

/-- C14, vector inputs, uniform core. -/
theorem C14_vector_uniform [RCLike K] (t core : Tensor K) (B T d D E : ℕ) (ht : t.shape = [B, T, d])
    (hc : core.shape = [d, D, E]) :
    ∃ o, getMatSlices (.floats t) core = .ok o ∧ o.shape = [B, T, D, E] ∧
      ∀ b < B, ∀ s < T, ∀ i < D, ∀ j < E, o.get [b, s, i, j] =
        ∑ k ∈ Finset.range d, t.get [b, s, k] * core.get [k, i, j] := by
  unfold getMatSlices
  simp only [SeqInput.shape, Tensor.ndim, ht, hc]
  rw [assert_true _ (by simp), assert_true _ (by simp)]
  exact einsum_bti_ide t core B T d D E ht hc

/-- C14, vector inputs, one core per site. -/
theorem C14_vector_sites [RCLike K] (t core : Tensor K) (B T d D E : ℕ) (ht : t.shape = [B, T, d])
    (hc : core.shape = [T, d, D, E]) :
    ∃ o, getMatSlices (.floats t) core = .ok o ∧ o.shape = [B, T, D, E] ∧
      ∀ b < B, ∀ s < T, ∀ i < D, ∀ j < E, o.get [b, s, i, j] =
        ∑ k ∈ Finset.range d, t.get [b, s, k] * core.get [s, k, i, j] := by
  unfold getMatSlices
  simp only [SeqInput.shape, Tensor.ndim, ht, hc]
  rw [assert_true _ (by simp), assert_true _ (by simp)]
  exact einsum_bti_tide t core B T d D E ht hc

/-- C14. One-hot vectors give the same matrices as the corresponding indices (both kinds of core). -/
theorem C14_onehot [RCLike K] (t : Tensor ℤ) (v core : Tensor K) (B T d D E : ℕ) (ht : t.shape = [B, T])
    (hvs : v.shape = [B, T, d]) (hc : core.shape = [d, D, E] ∨ core.shape = [T, d, D, E])
    (hv : ∀ b < B, ∀ s < T, 0 ≤ t.get [b, s] ∧ t.get [b, s] < d)
    (hone : ∀ b < B, ∀ s < T, ∀ k < d, v.get [b, s, k] = if (k : ℤ) = t.get [b, s] then 1 else 0) :
    ∃ o o', getMatSlices (.ints t) core = .ok o ∧ getMatSlices (.floats v) core = .ok o' ∧ o.Eqv o' := by
  have aux : ∀ b < B, ∀ s < T, ∀ f : ℕ → K,
      ∑ k ∈ Finset.range d, v.get [b, s, k] * f k = f (t.get [b, s]).toNat := by
    intro b hb s hs f
    obtain ⟨h0, h1⟩ := hv b hb s hs
    rw [Finset.sum_eq_single (t.get [b, s]).toNat]
    · rw [hone b hb s hs _ (by omega), if_pos (by omega), one_mul]
    · intro k hk hne
      rw [hone b hb s hs k (Finset.mem_range.1 hk), if_neg (by omega), zero_mul]
    · intro h; exact absurd (Finset.mem_range.2 (by omega)) h
  have fin : ∀ o o' : Tensor K, o.shape = [B, T, D, E] → o'.shape = [B, T, D, E] →
      (∀ b < B, ∀ s < T, ∀ i < D, ∀ j < E, o.get [b, s, i, j] = o'.get [b, s, i, j]) → o.Eqv o' := by
    intro o o' h1 h2 h3
    refine ⟨by rw [h1, h2], ?_⟩
    intro idx hidx
    rw [h1] at hidx
    obtain _ | ⟨b, _ | ⟨s, _ | ⟨i, _ | ⟨j, _ | ⟨_, _⟩⟩⟩⟩⟩ := idx <;> simp at hidx
    exact h3 b hidx.1 s hidx.2.1 i hidx.2.2.1 j hidx.2.2.2
  rcases hc with hc | hc
  · obtain ⟨o, a1, a2, a3⟩ := C14_index_uniform t core B T d D E ht hc hv
    obtain ⟨o', b1, b2, b3⟩ := C14_vector_uniform v core B T d D E hvs hc
    refine ⟨o, o', a1, b1, fin o o' a2 b2 ?_⟩
    intro b hb s hs i hi j hj
    rw [a3 b hb s hs i hi j hj, b3 b hb s hs i hi j hj, aux b hb s hs]
  · obtain ⟨o, a1, a2, a3⟩ := C14_index_sites t core B T d D E ht hc hv
    obtain ⟨o', b1, b2, b3⟩ := C14_vector_sites v core B T d D E hvs hc
    refine ⟨o, o', a1, b1, fin o o' a2 b2 ?_⟩
    intro b hb s hs i hi j hj
    rw [a3 b hb s hs i hi j hj, b3 b hb s hs i hi j hj, aux b hb s hs (fun k => core.get [s, k, i, j])]

/-- C14. A uniform core behaves as the per-site core which repeats it. -/
theorem C14_uniform_repeat [RCLike K] (x : SeqInput K) (core core4 : Tensor K) (B T d D E : ℕ)
    (hx : (∃ t, x = .ints t ∧ t.shape = [B, T] ∧ ∀ b < B, ∀ s < T, 0 ≤ t.get [b, s] ∧ t.get [b, s] < d) ∨
      (∃ t, x = .floats t ∧ t.shape = [B, T, d]))
    (hc : core.shape = [d, D, E]) (hc4 : core4.shape = [T, d, D, E])
    (hrep : ∀ s < T, ∀ k < d, ∀ i < D, ∀ j < E, core4.get [s, k, i, j] = core.get [k, i, j]) :
    ∃ o o', getMatSlices x core = .ok o ∧ getMatSlices x core4 = .ok o' ∧ o.Eqv o' := by
  have fin : ∀ o o' : Tensor K, o.shape = [B, T, D, E] → o'.shape = [B, T, D, E] →
      (∀ b < B, ∀ s < T, ∀ i < D, ∀ j < E, o.get [b, s, i, j] = o'.get [b, s, i, j]) → o.Eqv o' := by
    intro o o' h1 h2 h3
    refine ⟨by rw [h1, h2], ?_⟩
    intro idx hidx
    rw [h1] at hidx
    obtain _ | ⟨b, _ | ⟨s, _ | ⟨i, _ | ⟨j, _ | ⟨_, _⟩⟩⟩⟩⟩ := idx <;> simp at hidx
    exact h3 b hidx.1 s hidx.2.1 i hidx.2.2.1 j hidx.2.2.2
  rcases hx with ⟨t, rfl, ht, hv⟩ | ⟨t, rfl, ht⟩
  · obtain ⟨o, a1, a2, a3⟩ := C14_index_uniform t core B T d D E ht hc hv
    obtain ⟨o', b1, b2, b3⟩ := C14_index_sites t core4 B T d D E ht hc4 hv
    refine ⟨o, o', a1, b1, fin o o' a2 b2 ?_⟩
    intro b hb s hs i hi j hj
    have := hv b hb s hs
    rw [a3 b hb s hs i hi j hj, b3 b hb s hs i hi j hj, hrep s hs _ (by omega) i hi j hj]
  · obtain ⟨o, a1, a2, a3⟩ := C14_vector_uniform t core B T d D E ht hc
    obtain ⟨o', b1, b2, b3⟩ := C14_vector_sites t core4 B T d D E ht hc4
    refine ⟨o, o', a1, b1, fin o o' a2 b2 ?_⟩
    intro b hb s hs i hi j hj
    rw [a3 b hb s hs i hi j hj, b3 b hb s hs i hi j hj]
    refine Finset.sum_congr rfl fun k hk => ?_
    rw [hrep s hs k (Finset.mem_range.1 hk) i hi j hj]

/-- C14. A token outside the input dimension is rejected with IndexError (negative tokens wrap around, like every
torch index, so only `< -d` is rejected below). -/
theorem C14_index_out_of_range [RCLike K] (t : Tensor ℤ) (core : Tensor K) (B T d D E : ℕ)
    (ht : t.shape = [B, T]) (hc : core.shape = [d, D, E] ∨ core.shape = [T, d, D, E])
    (b s : ℕ) (hb : b < B) (hs : s < T) (h : (d : ℤ) ≤ t.get [b, s] ∨ t.get [b, s] < -(d : ℤ)) :
    getMatSlices (.ints t) core = .error .index := by
  have hn : resolveIdx d (t.get [b, s]) = none := by
    unfold resolveIdx
    rw [if_neg (by omega), if_neg (by omega)]
  unfold getMatSlices
  rcases hc with hc | hc <;> simp only [SeqInput.shape, Tensor.ndim, ht, hc] <;>
    rw [assert_true _ (by simp), assert_true _ (by simp)] <;>
    simp only [bind, Except.bind, pure, Except.pure] <;> rw [if_neg]
  · intro hh; have := hh b hb s hs; rw [hn] at this; simp at this
  · intro hh; have := (hh b hb s hs).2; rw [hn] at this; simp at this

/-! ### C15 (default evaluation) -/

/-- C15 is false of the default evaluation: a fixed-length model with `n` sites silently accepts every batch of
valid index sequences of any length `T < n`. -/
theorem C15_short_accepted [RCLike K] (t : Tensor ℤ) (core : Tensor K) (B n d D E T : ℕ)
    (ht : t.shape = [B, T]) (hc : core.shape = [n, d, D, E]) (hT : T < n)
    (hv : ∀ b < B, ∀ s < T, 0 ≤ t.get [b, s] ∧ t.get [b, s] < d) :
    ∃ o : Tensor K, getMatSlices (.ints t) core = .ok o ∧ o.shape = [B, T, D, E] := by
  unfold getMatSlices
  simp only [SeqInput.shape, Tensor.ndim, ht, hc]
  rw [assert_true _ (by simp), assert_true _ (by simp)]
  simp only [bind, Except.bind, pure, Except.pure]
  rw [if_pos (by
    intro b hb s hs
    refine ⟨by omega, ?_⟩
    rw [resolveIdx_nat _ _ (hv b hb s hs).1 (hv b hb s hs).2]; rfl)]
  exact ⟨_, rfl, rfl⟩

/-- C15. Longer index sequences are rejected with IndexError (for a non-empty batch). -/
theorem C15_long_rejected [RCLike K] (t : Tensor ℤ) (core : Tensor K) (B n d D E T : ℕ)
    (ht : t.shape = [B, T]) (hc : core.shape = [n, d, D, E]) (hB : 0 < B) (hT : n < T) :
    getMatSlices (.ints t) core = .error .index := by
  unfold getMatSlices
  simp only [SeqInput.shape, Tensor.ndim, ht, hc]
  rw [assert_true _ (by simp), assert_true _ (by simp)]
  simp only [bind, Except.bind, pure, Except.pure]
  rw [if_neg]
  intro h
  have := (h 0 hB n hT).1
  omega

theorem einsum_size_error [CommSemiring K] (ins : List (List Char)) (out : List Char) (ops : List (Tensor K))
    (c : Char) (a b : ℕ) (ha : (c, a) ∈ (ins.zip ops).flatMap (fun p => p.1.zip p.2.shape))
    (hb : (c, b) ∈ (ins.zip ops).flatMap (fun p => p.1.zip p.2.shape))
    (h1 : a ≠ 1) (h2 : b ≠ 1) (h3 : a ≠ b) : einsum ins out ops = .error .runtime := by
  unfold einsum
  simp only
  rw [if_neg]
  rintro ⟨-, -, h, -⟩
  have := h _ ha _ hb rfl
  simp at this
  omega

/-- C15. Vector sequences of a wrong length are rejected, unless the length (or the number of sites) is 1. -/
theorem C15_vector_rejected [RCLike K] (t core : Tensor K) (B n d D E T : ℕ)
    (ht : t.shape = [B, T, d]) (hc : core.shape = [n, d, D, E]) (hT : T ≠ n) (h1 : T ≠ 1) (hn : n ≠ 1) :
    getMatSlices (.floats t) core = .error .runtime := by
  unfold getMatSlices
  simp only [SeqInput.shape, Tensor.ndim, ht, hc]
  rw [assert_true _ (by simp), assert_true _ (by simp)]
  exact einsum_size_error _ _ _ 't' T n (by simp [ht, hc]) (by simp [ht, hc]) h1 hn hT

/-- C15 is false for vector sequences of length 1: they are accepted by a model with 3 sites. -/
theorem C15_vector_length_one_accepted :
    ∃ (core t : Tensor ℝ) (o : Tensor ℝ), core.shape = [3, 2, 2, 2] ∧ t.shape = [1, 1, 2] ∧
      getMatSlices (.floats t) core = .ok o ∧ o.shape = [1, 3, 2, 2] := by
  obtain ⟨core, hc⟩ : ∃ core : Tensor ℝ, core.shape = [3, 2, 2, 2] := ⟨⟨[3, 2, 2, 2], fun _ => 1⟩, rfl⟩
  obtain ⟨t, ht⟩ : ∃ t : Tensor ℝ, t.shape = [1, 1, 2] := ⟨⟨[1, 1, 2], fun _ => 1⟩, rfl⟩
  refine ⟨core, t, ?_⟩
  unfold getMatSlices
  simp only [SeqInput.shape, Tensor.ndim, ht, hc]
  rw [assert_true _ (by simp), assert_true _ (by simp)]
  simp only [bind, Except.bind]
  unfold einsum
  simp only
  rw [if_pos (by simp [Tensor.ndim, ht, hc])]
  exact ⟨_, trivial, trivial, rfl, by simp [letterSize, ht, hc]⟩

end TorchMPS
