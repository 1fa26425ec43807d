import Verif.Props.Rounded
/-
Rounding after every elementary operation: C83.
-/
namespace TorchMPS
open Spec

theorem isRounding_zero {rnd : ℝ → ℝ} {u : ℝ} (h : IsRounding rnd u) : rnd 0 = 0 := by
  have := h 0
  rw [abs_zero, mul_zero, sub_zero] at this
  exact abs_eq_zero.1 (le_antisymm this (abs_nonneg _))

theorem isRounding_pos {rnd : ℝ → ℝ} {u : ℝ} (h : IsRounding rnd u) (hu : u < 1) {x : ℝ} (hx : 0 < x) : 0 < rnd x := by
  have := h x
  rw [abs_of_pos hx, abs_le] at this
  nlinarith [this.1]

theorem isRounding_nonneg {rnd : ℝ → ℝ} {u : ℝ} (h : IsRounding rnd u) (hu : u < 1) {x : ℝ} (hx : 0 ≤ x) : 0 ≤ rnd x := by
  rcases hx.lt_or_eq with hx | rfl
  · exact (isRounding_pos h hu hx).le
  · rw [isRounding_zero h]

/-- one more rounding -/
theorem rnd_err {rnd : ℝ → ℝ} {u : ℝ} (h : IsRounding rnd u) (hu : 0 ≤ u) {s S T ε : ℝ} (he : |s - S| ≤ (ε - 1) * T) (hS : |S| ≤ T) :
    |rnd s - S| ≤ (ε * (1 + u) - 1) * T := by
  have h1 := h s
  have h2 : |s| ≤ |s - S| + |S| := by
    have := abs_add_le (s - S) S
    rwa [sub_add_cancel] at this
  have h3 : |rnd s - S| ≤ |rnd s - s| + |s - S| := by
    have := abs_add_le (rnd s - s) (s - S)
    rwa [sub_add_sub_cancel] at this
  have h4 : u * |s| ≤ u * ((ε - 1) * T + T) := mul_le_mul_of_nonneg_left (by linarith) hu
  nlinarith

theorem flSum_append (rnd : ℝ → ℝ) (xs : List ℝ) (x : ℝ) : flSum rnd (xs ++ [x]) = rnd (flSum rnd xs + x) := by
  simp [flSum, List.foldl_append]

theorem abs_list_sum_le (xs : List ℝ) : |xs.sum| ≤ (xs.map abs).sum := by
  induction xs with
  | nil => simp
  | cons x xs ih =>
    simp only [List.sum_cons, List.map_cons]
    exact (abs_add_le _ _).trans (add_le_add (le_refl _) ih)

/-- The error of a sum of rounded terms. -/
theorem flSum_err {rnd : ℝ → ℝ} {u : ℝ} (h : IsRounding rnd u) (hu : 0 ≤ u) (xs : List ℝ) :
    |flSum rnd (xs.map rnd) - xs.sum| ≤ ((1 + u) ^ (xs.length + 1) - 1) * (xs.map abs).sum := by
  induction xs using List.reverseRecOn with
  | nil => simp [flSum]
  | append_singleton xs x ih =>
    rw [List.map_append, List.map_singleton, flSum_append, List.sum_append, List.sum_singleton, List.map_append, List.sum_append, List.map_singleton,
      List.sum_singleton, List.length_append, List.length_singleton, pow_succ]
    have hT : 0 ≤ (xs.map abs).sum := (abs_nonneg _).trans (abs_list_sum_le xs)
    refine rnd_err h hu ?_ ((abs_add_le _ _).trans (add_le_add (abs_list_sum_le xs) (le_refl _)))
    have hx := h x
    have e : flSum rnd (xs.map rnd) + rnd x - (xs.sum + x) = (flSum rnd (xs.map rnd) - xs.sum) + (rnd x - x) := by ring
    rw [e]
    refine (abs_add_le _ _).trans ?_
    have hpow : 1 + u ≤ (1 + u) ^ (xs.length + 1) := le_self_pow₀ (by linarith) (by omega)
    have := mul_le_mul_of_nonneg_right (show u ≤ (1 + u) ^ (xs.length + 1) - 1 by linarith) (abs_nonneg x)
    rw [mul_add]
    linarith

theorem flSum_nonneg {rnd : ℝ → ℝ} {u : ℝ} (h : IsRounding rnd u) (hu : u < 1) (xs : List ℝ) (hx : ∀ x ∈ xs, 0 ≤ x) :
    0 ≤ flSum rnd xs ∧ (flSum rnd xs = 0 ↔ ∀ x ∈ xs, x = 0) := by
  induction xs using List.reverseRecOn with
  | nil => simp [flSum]
  | append_singleton xs x ih =>
    obtain ⟨i1, i2⟩ := ih (fun y hy => hx y (by simp [hy]))
    have hx0 := hx x (by simp)
    rw [flSum_append]
    refine ⟨isRounding_nonneg h hu (add_nonneg i1 hx0), ?_, ?_⟩
    · intro h0
      have : flSum rnd xs + x = 0 := by
        by_contra hne
        have := isRounding_pos h hu (lt_of_le_of_ne (add_nonneg i1 hx0) (Ne.symm hne))
        linarith
      have hx' : x = 0 := by linarith
      have hs' : flSum rnd xs = 0 := by linarith
      intro y hy
      rcases List.mem_append.1 hy with hy | hy
      · exact i2.1 hs' y hy
      · rw [List.mem_singleton.1 hy, hx']
    · intro hall
      rw [i2.2 (fun y hy => hall y (by simp [hy])), hall x (by simp), add_zero, isRounding_zero h]

theorem sum_map_range (n : ℕ) (f : ℕ → ℝ) : ((List.range n).map f).sum = ∑ k ∈ Finset.range n, f k := by
  induction n with
  | zero => simp
  | succ n ih => rw [List.range_succ, List.map_append, List.sum_append, ih, Finset.sum_range_succ]; simp

/-- C83. Arithmetic that rounds after every multiplication, addition, division and logarithm, with relative error at most `u < 1`, is accurate: for matrix
products with inner dimension up to `D` with `γ = (1 + u)^(D + 1) - 1`, and for sums of up to `N` logarithms with `μ = (1 + u)^(N + 2) - 1`. -/
theorem C83_rounding (rnd : ℝ → ℝ) (u S : ℝ) (h : IsRounding rnd u) (hu : 0 ≤ u) (hu1 : u < 1) (hS : 0 ≤ S) (D N : ℕ) :
    Accurate (rndOps rnd S) D N ((1 + u) ^ (D + 1) - 1) u ((1 + u) ^ (N + 2) - 1) ∧ ScalesBounded (rndOps rnd S) S := by
  have hpow : ∀ q q' : ℕ, q ≤ q' → (1 + u) ^ q ≤ (1 + u) ^ q' := fun q q' hq => pow_le_pow_right₀ (by linarith) hq
  have hone : ∀ q : ℕ, (1 : ℝ) ≤ (1 + u) ^ q := fun q => one_le_pow₀ (by linarith)
  have hscale : ∀ t A, 0 < t → (rndOps rnd S).scale t A = 0 ∧ IsZero A ∨ 0 < (rndOps rnd S).scale t A ∧ ¬ IsZero A ∧
      Real.exp (-S) ≤ (rndOps rnd S).scale t A ∧ (rndOps rnd S).scale t A ≤ Real.exp S := by
    intro t A ht
    have hin : ∀ i, 0 ≤ flSum rnd ((List.range A.c).map (fun j => |A.e i j|)) ∧ (flSum rnd ((List.range A.c).map (fun j => |A.e i j|)) = 0 ↔ ∀ j < A.c, A.e i j = 0) := by
      intro i
      have := flSum_nonneg h hu1 ((List.range A.c).map (fun j => |A.e i j|)) (by
        intro x hx
        obtain ⟨j, _, rfl⟩ := List.mem_map.1 hx
        exact abs_nonneg _)
      refine ⟨this.1, this.2.trans ?_⟩
      simp
    have hout := flSum_nonneg h hu1 ((List.range A.r).map (fun i => flSum rnd ((List.range A.c).map (fun j => |A.e i j|)))) (by
      intro x hx
      obtain ⟨i, _, rfl⟩ := List.mem_map.1 hx
      exact (hin i).1)
    set T := flSum rnd ((List.range A.r).map (fun i => flSum rnd ((List.range A.c).map (fun j => |A.e i j|)))) with hT
    have hz : T = 0 ↔ IsZero A := by
      rw [hout.2]
      simp only [List.mem_map, List.mem_range, forall_exists_index, and_imp, forall_apply_eq_imp_iff₂]
      unfold IsZero
      exact forall_congr' fun i => forall_congr' fun hi => (hin i).2
    have hdef : (rndOps rnd S).scale t A = if rnd (T / t) = 0 then 0 else max (Real.exp (-S)) (min (Real.exp S) (rnd (T / t))) := rfl
    rw [hdef]
    by_cases h0 : T = 0
    · left
      rw [h0, zero_div, isRounding_zero h, if_pos rfl]
      exact ⟨rfl, hz.1 h0⟩
    · right
      have hp : 0 < rnd (T / t) := isRounding_pos h hu1 (div_pos (lt_of_le_of_ne hout.1 (Ne.symm h0)) ht)
      rw [if_neg hp.ne']
      refine ⟨lt_of_lt_of_le (Real.exp_pos _) (le_max_left _ _), fun hc => h0 (hz.2 hc), le_max_left _ _, max_le ?_ (min_le_left _ _)⟩
      exact Real.exp_le_exp.2 (by linarith)
  refine ⟨?_, hS, ?_⟩
  · refine ⟨by linarith [hone (D + 1)], hu, by linarith [hone (N + 2)], fun A B => ⟨rfl, rfl⟩, ?_, ?_, fun _ => Iff.rfl, ?_, fun A s => ⟨rfl, rfl⟩, ?_, ?_⟩
    · intro A B hc hD i _ j _
      have key := flSum_err h hu ((List.range A.c).map (fun k => A.e i k * B.e k j))
      rw [List.map_map, List.map_map, sum_map_range, sum_map_range, List.length_map, List.length_range] at key
      have e1 : ∑ k ∈ Finset.range A.c, (abs ∘ fun k => A.e i k * B.e k j) k = ∑ k ∈ Finset.range A.c, ‖A.e i k‖ * ‖B.e k j‖ :=
        Finset.sum_congr rfl (fun k _ => by simp [abs_mul])
      rw [e1] at key
      refine key.trans (mul_le_mul_of_nonneg_right ?_ (Finset.sum_nonneg (fun k _ => by positivity)))
      linarith [hpow (A.c + 1) (D + 1) (by omega)]
    · intro t A ht
      rcases hscale t A ht with h1 | h1
      · exact h1.1.ge
      · exact h1.1.le
    · intro t A ht
      rcases hscale t A ht with h1 | h1
      · exact ⟨fun _ => h1.2, fun _ => h1.1⟩
      · exact ⟨fun h2 => absurd h2 h1.1.ne', fun h2 => absurd h2 h1.2.1⟩
    · intro A s _ i _ j _
      exact h (A.e i j / s)
    · intro s rs _ hN
      have key := flSum_err h hu (rs.map Real.log)
      rw [List.map_map, List.map_map, List.length_map] at key
      have e1 : rs.map (abs ∘ Real.log) = rs.map (fun r => |Real.log r|) := rfl
      have e2 : rs.map (rnd ∘ Real.log) = rs.map (fun r => rnd (Real.log r)) := rfl
      rw [e1, e2] at key
      have hB := sum_abs_nonneg rs
      have hN' : (1 + u) ^ (rs.length + 1) ≤ (1 + u) ^ (N + 1) := hpow _ _ (by omega)
      have key2 : |s + flSum rnd (rs.map (fun r => rnd (Real.log r))) - (s + (rs.map Real.log).sum)| ≤
          ((1 + u) ^ (N + 1) - 1) * (|s| + (rs.map (fun r => |Real.log r|)).sum) := by
        rw [add_sub_add_left_eq_sub]
        refine key.trans ((mul_le_mul_of_nonneg_right (by linarith) hB).trans (mul_le_mul_of_nonneg_left (by linarith [abs_nonneg s]) (by linarith [hone (N + 1)])))
      have := rnd_err h hu key2 ((abs_add_le _ _).trans (add_le_add (le_refl _) (abs_sum_log_le rs)))
      rw [← pow_succ] at this
      exact this
  · intro t A ht hpos
    rcases hscale t A ht with h1 | h1
    · exact absurd h1.1 hpos.ne'
    · obtain ⟨h2, -, h3, h4⟩ := h1
      rw [abs_le]
      refine ⟨?_, ?_⟩
      · have := Real.log_le_log (Real.exp_pos _) h3
        rwa [Real.log_exp] at this
      · have := Real.log_le_log h2 h4
        rwa [Real.log_exp] at this

/-- Truncation to `p` bits is a rounding with relative error `2^-p`. -/
theorem truncBits_isRounding (p : ℕ) : IsRounding (truncBits p) ((2 : ℝ)⁻¹ ^ p) := by
  intro x
  by_cases hx : x = 0
  · subst hx
    simp [truncBits]
  have hpos : 0 < |x| := abs_pos.2 hx
  have h1 : (2 : ℝ) ^ Int.log 2 |x| ≤ |x| := by
    have := Int.zpow_log_le_self (b := 2) (by norm_num) hpos
    exact_mod_cast this
  unfold truncBits
  set q := (2 : ℝ) ^ (Int.log 2 |x| - p) with hq
  have hq0 : 0 < q := by positivity
  have hq1 : q = (2 : ℝ) ^ Int.log 2 |x| * (2 : ℝ)⁻¹ ^ p := by
    rw [hq, zpow_sub₀ (by norm_num), zpow_natCast, inv_pow, div_eq_mul_inv]
  have e1 := Int.floor_le (x / q)
  have e2 := Int.lt_floor_add_one (x / q)
  have e3 : (⌊x / q⌋ : ℝ) * q ≤ x := by
    have := mul_le_mul_of_nonneg_right e1 hq0.le
    rwa [div_mul_cancel₀ _ hq0.ne'] at this
  have e4 : x ≤ ((⌊x / q⌋ : ℝ) + 1) * q := by
    have := mul_le_mul_of_nonneg_right e2.le hq0.le
    rwa [div_mul_cancel₀ _ hq0.ne'] at this
  have e5 : q ≤ (2 : ℝ)⁻¹ ^ p * |x| := by
    rw [hq1, mul_comm]
    exact mul_le_mul_of_nonneg_left h1 (by positivity)
  rw [abs_le]
  constructor <;> nlinarith

/-- C83 applies: arithmetic with 23 bits after the leading one and saturation at `e^±88`, for chains of up to ten matrices of size up to four. -/
example : ∃ γ u μ, u = (2 : ℝ)⁻¹ ^ 23 ∧ Accurate (rndOps (truncBits 23) 88) 4 10 γ u μ ∧ ScalesBounded (rndOps (truncBits 23) 88) 88 :=
  ⟨_, _, _, rfl, C83_rounding (truncBits 23) _ 88 (truncBits_isRounding 23) (by positivity) (by
    rw [inv_pow]
    exact inv_lt_one_of_one_lt₀ (by norm_num)) (by norm_num) 4 10⟩

theorem agree_matProd (ms : List (Mat ℝ)) : ∀ X Y : Mat ℝ, Y.r = X.r → Y.c = X.c → (∀ i < X.r, ∀ j < X.c, Y.e i j = X.e i j) → ChainOK (X :: ms) →
    (∀ m ∈ ms, ∀ i < m.r, ∀ j < m.c, 0 ≤ m.e i j) →
    ∀ i < (matProd X ms).r, ∀ j < (matProd X ms).c, (matProd Y (ms.map absMat)).e i j = (matProd X ms).e i j := by
  induction ms with
  | nil => intro X Y _ _ h _ _; exact h
  | cons m ms ih =>
    intro X Y h1 h2 h3 hc h0
    rw [List.map_cons, matProd_cons, matProd_cons]
    refine ih (X.mul m) (Y.mul (absMat m)) h1 rfl ?_ (chainOK_mul hc) (fun x hx => h0 x (List.mem_cons_of_mem _ hx))
    intro i hi j hj
    simp only [Mat.mul_r, Mat.mul_c] at hi hj
    simp only [Mat.mul, h2]
    refine Finset.sum_congr rfl (fun k hk => ?_)
    have hk := Finset.mem_range.1 hk
    rw [h3 i hi k hk]
    have : (absMat m).e k j = m.e k j := abs_of_nonneg (h0 m (by simp) k (by rw [← hc.1]; exact hk) j hj)
    rw [this]

/-- C83. For matrices without negative entries there is no cancellation: the relative error of every entry of the sequential product is at most `ε`, and NaN
arises only (if `ε < 1`) when the product is zero. -/
theorem C83_relative {ops : FlOps ℝ} {D N : ℕ} {γ u μ S : ℝ} (ac : Accurate ops D N γ u μ) (hS : ScalesBounded ops S) (hN : 1 ≤ N) (m : Mat ℝ) (ms : List (Mat ℝ))
    (hc : ChainOK (m :: ms)) (hs : SizesUpTo D (m :: ms)) (h0 : ∀ x ∈ m :: ms, ∀ i < x.r, ∀ j < x.c, 0 ≤ x.e i j) :
    (∀ P s, ops.reduceSeq m ms = some (P, s) → ∀ i < (matProd m ms).r, ∀ j < (matProd m ms).c,
      |Real.exp s * P.e i j - (matProd m ms).e i j| ≤ roundErr γ u μ S ms.length ms.length ms.length ms.length * (matProd m ms).e i j) ∧
    (ops.reduceSeq m ms = none → roundErr γ u μ S ms.length ms.length ms.length ms.length < 1 → IsZero (matProd m ms)) := by
  have key := C83_seq ac hS hN m ms hc hs
  have hY : ∀ i < (matProd m ms).r, ∀ j < (matProd m ms).c, (absProd m ms).e i j = (matProd m ms).e i j := by
    refine agree_matProd ms m (absMat m) rfl rfl ?_ hc (fun x hx => h0 x (List.mem_cons_of_mem _ hx))
    intro i hi j hj
    exact abs_of_nonneg (h0 m (by simp) i hi j hj)
  refine ⟨?_, ?_⟩
  · intro P s hP i hi j hj
    rw [hP] at key
    have := key.2.2 i hi j hj
    rw [hY i hi j hj] at this
    exact this
  · intro hn hlt i hi j hj
    rw [hn] at key
    have := key i hi j hj
    rw [hY i hi j hj, Real.norm_eq_abs] at this
    by_contra hne
    have hpos := abs_pos.2 hne
    have hle := mul_le_mul_of_nonneg_left (le_abs_self ((matProd m ms).e i j)) (show 0 ≤ roundErr γ u μ S ms.length ms.length ms.length ms.length by
      by_contra hneg
      have h1 : 0 ≤ (matProd m ms).e i j := by
        rw [← hY i hi j hj]
        have := (norm_nonneg _).trans (((absMat_dom m).matProd ms hc).bound i hi j hj)
        rwa [one_mul] at this
      have h2 : roundErr γ u μ S ms.length ms.length ms.length ms.length * (matProd m ms).e i j ≤ 0 := mul_nonpos_of_nonpos_of_nonneg (by linarith) h1
      linarith)
    nlinarith

/-- The hypotheses of C83 are met by three 2 x 2 matrices with a row and a column vector, contracted in either way in arithmetic with 23 bits. -/
example (par : Bool) : ∃ γ μ out, ((rndOps (truncBits 23) 88).contractMatseq (.seq [⟨[2, 2], fun _ => 1⟩, ⟨[2, 2], fun i => i.length⟩, ⟨[2, 2], fun _ => 3⟩])
      (some ⟨[2], fun _ => 1⟩) (some ⟨[2], fun _ => 1⟩) par = .ok out) ∧ out.product.shape = [] ∧
    Accurate (rndOps (truncBits 23) 88) 2 5 γ ((2 : ℝ)⁻¹ ^ 23) μ := by
  have ac := C83_rounding (truncBits 23) _ 88 (truncBits_isRounding 23) (by positivity) (by
    rw [inv_pow]
    exact inv_lt_one_of_one_lt₀ (by norm_num)) (by norm_num) 2 5
  have hch : chainAt (K := ℝ) (.seq [⟨[2, 2], fun _ => 1⟩, ⟨[2, 2], fun i => i.length⟩, ⟨[2, 2], fun _ => 3⟩]) (some ⟨[2], fun _ => 1⟩) (some ⟨[2], fun _ => 1⟩) [] =
      [(Mat.of 1 2 (fun _ _ => 1) : Mat ℝ), Mat.of 2 2 (fun _ _ => 1), Mat.of 2 2 (fun i j => ([i, j].length : ℕ)), Mat.of 2 2 (fun _ _ => 3), Mat.of 2 1 (fun _ _ => 1)] := rfl
  have hbs : batchShapes (.seq [(⟨[2, 2], fun _ => 1⟩ : Tensor ℝ), ⟨[2, 2], fun i => i.length⟩, ⟨[2, 2], fun _ => 3⟩]) (some ⟨[2], fun _ => 1⟩) (some ⟨[2], fun _ => 1⟩) =
      [[], [], [], [], []] := rfl
  obtain ⟨out, h1, h2, -⟩ := C83_contract ac.1 ac.2 (.seq [⟨[2, 2], fun _ => 1⟩, ⟨[2, 2], fun i => i.length⟩, ⟨[2, 2], fun _ => 3⟩])
    (some ⟨[2], fun _ => 1⟩) (some ⟨[2], fun _ => 1⟩) par [] (by simp [WellRanked, Tensor.ndim]) (by
      rw [hbs]
      refine ⟨?_, ?_, ?_, ?_⟩ <;> simp) _ _ hch ⟨rfl, rfl, rfl, rfl, trivial⟩ (by simp [matsAt])
    (by
      intro x hx
      simp only [List.mem_cons, List.not_mem_nil, or_false] at hx
      rcases hx with rfl | rfl | rfl | rfl | rfl <;> simp [Mat.of]) (by simp)
  exact ⟨_, _, out, h1, by rw [h2]; simp, ac.1⟩

end TorchMPS
