import Verif.Spec.RoundedProb
import Verif.Lemmas.Rounded
import Verif.Lemmas.ProbMps
/-
Rounding errors of the norm of a probabilistic MPS.
-/
namespace TorchMPS
open Spec

/-- slice `i` of a core -/
def slice3 (ct : Tensor ℝ) (D i : ℕ) : Matrix (Fin D) (Fin D) ℝ := Matrix.of fun l r => ct.get [i, l, r]

/-- sums of `F` over all products of the row vector `v` with slices of the cores -/
noncomputable def massL (d D : ℕ) : List (Tensor ℝ) → (Fin D → ℝ) → ((Fin D → ℝ) → ℝ) → ℝ
  | [], v, F => F v
  | ct :: cts, v, F => ∑ i ∈ Finset.range d, massL d D cts (Matrix.vecMul v (slice3 ct D i)) F

theorem massL_append (d D : ℕ) (cts : List (Tensor ℝ)) (ct : Tensor ℝ) (v : Fin D → ℝ) (F : (Fin D → ℝ) → ℝ) :
    massL d D (cts ++ [ct]) v F = massL d D cts v (fun w => ∑ i ∈ Finset.range d, F (Matrix.vecMul w (slice3 ct D i))) := by
  induction cts generalizing v with
  | nil => rfl
  | cons c cts ih => simp only [List.cons_append, massL, ih]

theorem massL_sum (d D : ℕ) (cts : List (Tensor ℝ)) (v : Fin D → ℝ) {α : Type} (s : Finset α) (F : α → (Fin D → ℝ) → ℝ) :
    massL d D cts v (fun w => ∑ a ∈ s, F a w) = ∑ a ∈ s, massL d D cts v (F a) := by
  induction cts generalizing v with
  | nil => rfl
  | cons c cts ih =>
    simp only [massL, ih]
    rw [Finset.sum_comm]

theorem massL_mul (d D : ℕ) (cts : List (Tensor ℝ)) (v : Fin D → ℝ) (c : ℝ) (F : (Fin D → ℝ) → ℝ) :
    massL d D cts v (fun w => c * F w) = c * massL d D cts v F := by
  induction cts generalizing v with
  | nil => rfl
  | cons ct cts ih => simp only [massL, ih, Finset.mul_sum]

theorem massL_range (d D n : ℕ) (f : ℕ → Tensor ℝ) (v : Fin D → ℝ) (F : (Fin D → ℝ) → ℝ) :
    massL d D ((List.range n).map f) v F =
      ∑ x : Fin n → Fin d, F (Matrix.vecMul v (List.ofFn fun s : Fin n => slice3 (f s) D (x s)).prod) := by
  induction n generalizing F with
  | zero => simp [massL]
  | succ n ih =>
    rw [List.range_succ, List.map_append, List.map_singleton, massL_append, ih]
    have hs := (Fin.snocEquiv fun _ : Fin (n + 1) => Fin d).sum_comp
      (fun x => F (Matrix.vecMul v (List.ofFn fun s : Fin (n + 1) => slice3 (f s) D (x s)).prod))
    rw [← hs, Fintype.sum_prod_type_right]
    refine Finset.sum_congr rfl fun x _ => ?_
    rw [← Fin.sum_univ_eq_sum_range (fun i => F (Matrix.vecMul (Matrix.vecMul v (List.ofFn fun s : Fin n => slice3 (f s) D (x s)).prod) (slice3 (f n) D i))) d]
    refine Finset.sum_congr rfl fun i _ => ?_
    rw [List.ofFn_succ', List.concat_eq_append, List.prod_append, List.prod_singleton, Matrix.vecMul_vecMul]
    simp [Fin.snocEquiv]

/-- the exact transfer operator -/
noncomputable def tf (d D : ℕ) (X : Mat ℝ) (ct : Tensor ℝ) : Mat ℝ := ⟨D, D, fun r q =>
  ∑ i ∈ Finset.range d, ∑ l ∈ Finset.range D, ∑ p ∈ Finset.range D, ct.get [i, l, r] * X.e l p * ct.get [i, p, q]⟩

/-- the exact density matrix at the start -/
def dm0 (D : ℕ) (v : ℕ → ℝ) : Mat ℝ := ⟨D, D, fun l p => v l * v p⟩

theorem tf_fold (d D : ℕ) (v : ℕ → ℝ) (cts : List (Tensor ℝ)) : ∀ r q : Fin D,
    (cts.foldl (tf d D) (dm0 D v)).e r q = massL d D cts (fun i : Fin D => v i) (fun w => w r * w q) := by
  induction cts using List.reverseRecOn with
  | nil => intro r q; rfl
  | append_singleton cts ct ih =>
    intro r q
    rw [List.foldl_append, massL_append, massL_sum]
    simp only [List.foldl_cons, List.foldl_nil, tf]
    refine Finset.sum_congr rfl fun i _ => ?_
    rw [← Fin.sum_univ_eq_sum_range (fun l => ∑ p ∈ Finset.range D, ct.get [i, l, ↑r] * (List.foldl (tf d D) (dm0 D v) cts).e l p * ct.get [i, p, ↑q]) D]
    have : ∀ w : Fin D → ℝ, Matrix.vecMul w (slice3 ct D i) r * Matrix.vecMul w (slice3 ct D i) q =
        ∑ l : Fin D, ∑ p : Fin D, (ct.get [i, l, r] * ct.get [i, p, q]) * (w l * w p) := by
      intro w
      simp only [Matrix.vecMul, dotProduct, slice3, Matrix.of_apply]
      rw [Finset.sum_mul_sum]
      refine Finset.sum_congr rfl fun l _ => Finset.sum_congr rfl fun p _ => by ring
    simp only [this, massL_sum, massL_mul]
    refine Finset.sum_congr rfl fun l _ => ?_
    rw [← Fin.sum_univ_eq_sum_range (fun p => ct.get [i, ↑l, ↑r] * (List.foldl (tf d D) (dm0 D v) cts).e l p * ct.get [i, p, ↑q]) D]
    refine Finset.sum_congr rfl fun p _ => ?_
    rw [ih l p]
    ring

theorem tf_fold_size (d D : ℕ) (X : Mat ℝ) (hr : X.r = D) (hc : X.c = D) (cts : List (Tensor ℝ)) : (cts.foldl (tf d D) X).r = D ∧ (cts.foldl (tf d D) X).c = D := by
  induction cts using List.reverseRecOn with
  | nil => exact ⟨hr, hc⟩
  | append_singleton cts ct ih => rw [List.foldl_append]; exact ⟨rfl, rfl⟩

/-- the exact trace -/
noncomputable def trM (D : ℕ) (X : Mat ℝ) : ℝ := ∑ i ∈ Finset.range D, X.e i i
/-- the exact quadratic form -/
noncomputable def qf (D : ℕ) (w : ℕ → ℝ) (X : Mat ℝ) : ℝ := ∑ r ∈ Finset.range D, ∑ q ∈ Finset.range D, w r * X.e r q * w q

theorem trM_fold (d D : ℕ) (v : ℕ → ℝ) (cts : List (Tensor ℝ)) :
    trM D (cts.foldl (tf d D) (dm0 D v)) = massL d D cts (fun i : Fin D => v i) (fun w => ∑ j, w j ^ 2) := by
  rw [trM, ← Fin.sum_univ_eq_sum_range (fun i => (cts.foldl (tf d D) (dm0 D v)).e i i) D, massL_sum]
  refine Finset.sum_congr rfl fun j _ => ?_
  rw [tf_fold]
  simp only [sq]

theorem qf_fold (d D : ℕ) (v w : ℕ → ℝ) (cts : List (Tensor ℝ)) :
    qf D w (cts.foldl (tf d D) (dm0 D v)) = massL d D cts (fun i : Fin D => v i) (fun u => dotProduct u (fun j : Fin D => w j) ^ 2) := by
  have : ∀ u : Fin D → ℝ, dotProduct u (fun j : Fin D => w j) ^ 2 = ∑ r : Fin D, ∑ q : Fin D, (w r * w q) * (u r * u q) := by
    intro u
    rw [sq, dotProduct, Finset.sum_mul_sum]
    refine Finset.sum_congr rfl fun l _ => Finset.sum_congr rfl fun p _ => by ring
  simp only [this, massL_sum, massL_mul]
  rw [qf, ← Fin.sum_univ_eq_sum_range (fun r => ∑ q ∈ Finset.range D, w r * (cts.foldl (tf d D) (dm0 D v)).e r q * w q) D]
  refine Finset.sum_congr rfl fun r _ => ?_
  rw [← Fin.sum_univ_eq_sum_range (fun q => w r * (cts.foldl (tf d D) (dm0 D v)).e r q * w q) D]
  refine Finset.sum_congr rfl fun q _ => ?_
  rw [tf_fold]
  ring

/-! ### one step -/

/-- a rounded linear form -/
theorem lin_near {α : Type} (s : Finset α) (c a x y : α → ℝ) (g σ τ t : ℝ) (hg : 1 ≤ g) (hτ : 0 ≤ τ) (hσ : 0 < σ) (hy : ∀ k ∈ s, |x k| ≤ y k)
    (hn : ∀ k ∈ s, |σ * a k - x k| ≤ (g - 1) * y k) (ht : |t - ∑ k ∈ s, c k * a k| ≤ τ * ∑ k ∈ s, |c k * a k|) :
    |σ * t - ∑ k ∈ s, c k * x k| ≤ (g * (1 + τ) - 1) * ∑ k ∈ s, |c k| * y k := by
  have e : σ * t - ∑ k ∈ s, c k * x k = σ * (t - ∑ k ∈ s, c k * a k) + ∑ k ∈ s, c k * (σ * a k - x k) := by
    have : ∑ k ∈ s, c k * (σ * a k - x k) = σ * ∑ k ∈ s, c k * a k - ∑ k ∈ s, c k * x k := by
      rw [Finset.mul_sum, ← Finset.sum_sub_distrib]
      exact Finset.sum_congr rfl fun k _ => by ring
    rw [this]
    ring
  rw [e]
  refine (abs_add_le _ _).trans ?_
  have h1 : |σ * (t - ∑ k ∈ s, c k * a k)| ≤ τ * (g * ∑ k ∈ s, |c k| * y k) := by
    rw [abs_mul, abs_of_pos hσ]
    calc σ * |t - ∑ k ∈ s, c k * a k| ≤ σ * (τ * ∑ k ∈ s, |c k * a k|) := mul_le_mul_of_nonneg_left ht hσ.le
      _ = τ * ∑ k ∈ s, |c k| * |σ * a k| := by
        rw [mul_left_comm, Finset.mul_sum]
        congr 1
        exact Finset.sum_congr rfl fun k _ => by rw [abs_mul, abs_mul, abs_of_pos hσ]; ring
      _ ≤ τ * ∑ k ∈ s, |c k| * (g * y k) := by
        refine mul_le_mul_of_nonneg_left (Finset.sum_le_sum fun k hk => mul_le_mul_of_nonneg_left ?_ (abs_nonneg _)) hτ
        have h2 : |σ * a k| ≤ |σ * a k - x k| + |x k| := by
          have := abs_add_le (σ * a k - x k) (x k)
          rwa [sub_add_cancel] at this
        linarith [hn k hk, hy k hk]
      _ = τ * (g * ∑ k ∈ s, |c k| * y k) := by
        congr 1
        rw [Finset.mul_sum]
        exact Finset.sum_congr rfl fun k _ => by ring
  have h2 : |∑ k ∈ s, c k * (σ * a k - x k)| ≤ (g - 1) * ∑ k ∈ s, |c k| * y k := by
    refine (Finset.abs_sum_le_sum_abs _ _).trans ?_
    rw [Finset.mul_sum]
    refine Finset.sum_le_sum fun k hk => ?_
    rw [abs_mul]
    calc |c k| * |σ * a k - x k| ≤ |c k| * ((g - 1) * y k) := mul_le_mul_of_nonneg_left (hn k hk) (abs_nonneg _)
      _ = (g - 1) * (|c k| * y k) := by ring
  calc _ ≤ τ * (g * ∑ k ∈ s, |c k| * y k) + (g - 1) * ∑ k ∈ s, |c k| * y k := add_le_add h1 h2
    _ = _ := by ring

variable {a : ProbArith} {d D N : ℕ} {γ u μ τ ν S : ℝ}

theorem near_real {g σ : ℝ} {A X Y : Mat ℝ} (h : Near g σ A X Y) (i j : ℕ) (hi : i < X.r) (hj : j < X.c) : |σ * A.e i j - X.e i j| ≤ (g - 1) * Y.e i j := by
  simpa using h.near i hi j hj

theorem near_transfer (ac : AccurateProb a d D N γ u μ τ ν S) {g σ : ℝ} {A X Y : Mat ℝ} (h : Near g σ A X Y) (hr : X.r = D) (hc : X.c = D) (ct : Tensor ℝ)
    (hct : ct.shape = [d, D, D]) : Near (g * (1 + τ)) σ (a.transfer ct A) (tf d D X ct) (tf d D Y (absTensor ct)) := by
  have hAr : A.r = D := h.r.trans hr
  have hAc : A.c = D := h.c.trans hc
  obtain ⟨s1, s2⟩ := ac.transferSize ct A hct hAr hAc
  have hτ := ac.tau
  have bd : ∀ i < D, ∀ j < D, |X.e i j| ≤ Y.e i j := fun i hi j hj => by simpa using h.bound i (by omega) j (by omega)
  refine ⟨one_le_mul_of_one_le_of_one_le h.one_le (by linarith), h.pos, s1, s2, rfl, rfl, ?_, ?_⟩
  · intro r _ q _
    simp only [tf, Real.norm_eq_abs, absTensor]
    refine (Finset.abs_sum_le_sum_abs _ _).trans (Finset.sum_le_sum fun i _ => (Finset.abs_sum_le_sum_abs _ _).trans (Finset.sum_le_sum fun l hl =>
      (Finset.abs_sum_le_sum_abs _ _).trans (Finset.sum_le_sum fun p hp => ?_)))
    rw [abs_mul, abs_mul]
    exact mul_le_mul_of_nonneg_right (mul_le_mul_of_nonneg_left (bd l (Finset.mem_range.1 hl) p (Finset.mem_range.1 hp)) (abs_nonneg _)) (abs_nonneg _)
  · intro r hr' q hq'
    have key := lin_near (Finset.range d ×ˢ Finset.range D ×ˢ Finset.range D) (fun k => ct.get [k.1, k.2.1, r] * ct.get [k.1, k.2.2, q]) (fun k => A.e k.2.1 k.2.2)
      (fun k => X.e k.2.1 k.2.2) (fun k => Y.e k.2.1 k.2.2) g σ τ ((a.transfer ct A).e r q) h.one_le hτ h.pos
      (fun k hk => by
        simp only [Finset.mem_product, Finset.mem_range] at hk
        exact bd _ hk.2.1 _ hk.2.2)
      (fun k hk => by
        simp only [Finset.mem_product, Finset.mem_range] at hk
        exact near_real h _ _ (by omega) (by omega))
      (by
        have := ac.transfer ct A hct hAr hAc r hr' q hq'
        simp only [Finset.sum_product]
        simpa only [mul_right_comm] using this)
    simp only [Finset.sum_product] at key
    simp only [tf, absTensor, RCLike.ofReal_real_eq_id, id_eq, Real.norm_eq_abs]
    simpa only [abs_mul, mul_right_comm] using key

theorem near_trace (ac : AccurateProb a d D N γ u μ τ ν S) {g σ : ℝ} {A X Y : Mat ℝ} (h : Near g σ A X Y) (hr : X.r = D) (hc : X.c = D)
    (hcond : (g * (1 + τ) - 1) * trM D Y < trM D X) : 0 < a.trace A := by
  have bd : ∀ i < D, ∀ j < D, |X.e i j| ≤ Y.e i j := fun i hi j hj => by simpa using h.bound i (by omega) j (by omega)
  refine ac.trace A (h.r.trans hr) (h.c.trans hc) ?_
  have := lin_near (Finset.range D) (fun _ => 1) (fun k => A.e k k) (fun k => X.e k k) (fun k => Y.e k k) g σ τ
    (∑ i ∈ Finset.range D, A.e i i - τ * ∑ i ∈ Finset.range D, |A.e i i|) h.one_le ac.tau h.pos
    (fun k hk => bd _ (Finset.mem_range.1 hk) _ (Finset.mem_range.1 hk))
    (fun k hk => near_real h _ _ (by rw [hr]; exact Finset.mem_range.1 hk) (by rw [hc]; exact Finset.mem_range.1 hk))
    (by
      simp only [one_mul, sub_sub_cancel_left, abs_neg]
      rw [abs_of_nonneg (mul_nonneg ac.tau (Finset.sum_nonneg fun _ _ => abs_nonneg _))])
  simp only [one_mul, abs_one] at this
  have h1 := (abs_le.1 this).1
  unfold trM at hcond
  have h2 : 0 < σ * (∑ i ∈ Finset.range D, A.e i i - τ * ∑ i ∈ Finset.range D, |A.e i i|) := by linarith
  have h3 := pos_of_mul_pos_right h2 h.pos.le
  linarith

theorem near_quad (ac : AccurateProb a d D N γ u μ τ ν S) {g σ : ℝ} {A X Y : Mat ℝ} (h : Near g σ A X Y) (hr : X.r = D) (hc : X.c = D) (w : ℕ → ℝ) :
    |σ * a.quad w A - qf D w X| ≤ (g * (1 + τ) - 1) * qf D (fun i => |w i|) Y := by
  have bd : ∀ i < D, ∀ j < D, |X.e i j| ≤ Y.e i j := fun i hi j hj => by simpa using h.bound i (by omega) j (by omega)
  have := lin_near (Finset.range D ×ˢ Finset.range D) (fun k => w k.1 * w k.2) (fun k => A.e k.1 k.2) (fun k => X.e k.1 k.2) (fun k => Y.e k.1 k.2) g σ τ (a.quad w A)
    h.one_le ac.tau h.pos
    (fun k hk => by
      simp only [Finset.mem_product, Finset.mem_range] at hk
      exact bd _ hk.1 _ hk.2)
    (fun k hk => by
      simp only [Finset.mem_product, Finset.mem_range] at hk
      exact near_real h _ _ (by omega) (by omega))
    (by
      have := ac.quad w A (h.r.trans hr) (h.c.trans hc)
      simp only [Finset.sum_product]
      simpa only [mul_right_comm] using this)
  simp only [Finset.sum_product] at this
  unfold qf
  simpa only [abs_mul, mul_right_comm] using this

theorem near_outer (ac : AccurateProb a d D N γ u μ τ ν S) (v : ℕ → ℝ) : Near (1 + τ) 1 (a.outer D v) (dm0 D v) (dm0 D (fun i => |v i|)) := by
  have hτ := ac.tau
  refine ⟨by linarith, one_pos, (ac.outerSize v).1, (ac.outerSize v).2, rfl, rfl, ?_, ?_⟩
  · intro i _ j _
    simp [dm0, abs_mul]
  · intro i hi j hj
    have := ac.outer v i hi j hj
    simpa [dm0, abs_mul] using this

end TorchMPS
