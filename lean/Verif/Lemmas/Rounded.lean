import Verif.Lemmas.Mat
import Verif.Spec.Rounded
/-
Rounding errors of matrix reductions.
-/
namespace TorchMPS
open Spec
variable {K : Type} [RCLike K]

/-- `σ A` approximates `X` up to `(g - 1) Y`, and `X` is bounded by `Y` -/
structure Near (g σ : ℝ) (A X : Mat K) (Y : Mat ℝ) : Prop where
  one_le : 1 ≤ g
  pos : 0 < σ
  r : A.r = X.r
  c : A.c = X.c
  yr : Y.r = X.r
  yc : Y.c = X.c
  bound : ∀ i < X.r, ∀ j < X.c, ‖X.e i j‖ ≤ Y.e i j
  near : ∀ i < X.r, ∀ j < X.c, ‖(σ : K) * A.e i j - X.e i j‖ ≤ (g - 1) * Y.e i j

theorem Near.le {g σ : ℝ} {A X : Mat K} {Y : Mat ℝ} (h : Near g σ A X Y) (i j : ℕ) (hi : i < X.r) (hj : j < X.c) : ‖(σ : K) * A.e i j‖ ≤ g * Y.e i j := by
  have h1 := h.near i hi j hj
  have h2 := h.bound i hi j hj
  calc ‖(σ : K) * A.e i j‖ = ‖((σ : K) * A.e i j - X.e i j) + X.e i j‖ := by rw [sub_add_cancel]
    _ ≤ ‖(σ : K) * A.e i j - X.e i j‖ + ‖X.e i j‖ := norm_add_le _ _
    _ ≤ g * Y.e i j := by linarith

theorem near_self (A : Mat K) : Near 1 1 A A (absMat A) := by
  refine ⟨le_refl _, one_pos, rfl, rfl, rfl, rfl, fun i _ j _ => le_refl _, ?_⟩
  intro i _ j _
  simp

theorem Near.mm {ops : FlOps K} {D N : ℕ} {γ u μ : ℝ} (ac : Accurate ops D N γ u μ) {g g' σ σ' : ℝ} {A A' X X' : Mat K} {Y Y' : Mat ℝ}
    (h : Near g σ A X Y) (h' : Near g' σ' A' X' Y') (hc : X.c = X'.r) (hD : X.c ≤ D) :
    Near (g * g' * (1 + γ)) (σ * σ') (ops.mm A A') (X.mul X') (Y.mul Y') := by
  have h0 : ∀ i < X.r, ∀ j < X.c, 0 ≤ Y.e i j := fun i hi j hj => (norm_nonneg _).trans (h.bound i hi j hj)
  have h0' : ∀ i < X'.r, ∀ j < X'.c, 0 ≤ Y'.e i j := fun i hi j hj => (norm_nonneg _).trans (h'.bound i hi j hj)
  have hg := h.one_le
  have hg' := h'.one_le
  have hγ := ac.gamma
  refine ⟨?_, mul_pos h.pos h'.pos, (ac.mmSize A A').1.trans h.r, (ac.mmSize A A').2.trans h'.c, h.yr, h'.yc, ?_, ?_⟩
  · have : 1 ≤ g * g' := one_le_mul_of_one_le_of_one_le hg hg'
    exact one_le_mul_of_one_le_of_one_le this (by linarith)
  · intro i hi j hj
    simp only [Mat.mul_r, Mat.mul_c] at hi hj
    simp only [Mat.mul, h.yc]
    refine (norm_sum_le _ _).trans (Finset.sum_le_sum (fun k hk => ?_))
    have hk := Finset.mem_range.1 hk
    rw [norm_mul]
    exact mul_le_mul (h.bound i hi k hk) (h'.bound k (hc ▸ hk) j hj) (norm_nonneg _) (h0 i hi k hk)
  · intro i hi j hj
    simp only [Mat.mul_r, Mat.mul_c] at hi hj
    have hAc : A.c = A'.r := by rw [h.c, h'.r, hc]
    have e1 := ac.mm A A' hAc (by rw [h.c]; exact hD) i (by rw [h.r]; exact hi) j (by rw [h'.c]; exact hj)
    rw [h.c] at e1
    have hσ := h.pos
    have hσ' := h'.pos
    have hn : ‖((σ * σ' : ℝ) : K)‖ = σ * σ' := by
      rw [RCLike.norm_ofReal, abs_of_pos (mul_pos hσ hσ')]
    -- the rounding error of the product
    have e2 : ‖((σ * σ' : ℝ) : K) * ((ops.mm A A').e i j - ∑ k ∈ Finset.range X.c, A.e i k * A'.e k j)‖ ≤
        γ * (g * g') * ∑ k ∈ Finset.range X.c, Y.e i k * Y'.e k j := by
      rw [norm_mul, hn]
      refine (mul_le_mul_of_nonneg_left e1 (mul_pos hσ hσ').le).trans ?_
      have : σ * σ' * (γ * ∑ k ∈ Finset.range X.c, ‖A.e i k‖ * ‖A'.e k j‖) =
          γ * ∑ k ∈ Finset.range X.c, ‖(σ : K) * A.e i k‖ * ‖(σ' : K) * A'.e k j‖ := by
        rw [Finset.mul_sum, Finset.mul_sum, Finset.mul_sum]
        refine Finset.sum_congr rfl (fun k _ => ?_)
        rw [norm_mul, norm_mul, RCLike.norm_ofReal, RCLike.norm_ofReal, abs_of_pos hσ, abs_of_pos hσ']
        ring
      rw [this, mul_assoc γ, Finset.mul_sum (a := g * g')]
      refine mul_le_mul_of_nonneg_left (Finset.sum_le_sum (fun k hk => ?_)) hγ
      have hk := Finset.mem_range.1 hk
      calc ‖(σ : K) * A.e i k‖ * ‖(σ' : K) * A'.e k j‖ ≤ (g * Y.e i k) * (g' * Y'.e k j) :=
            mul_le_mul (h.le i k hi hk) (h'.le k j (hc ▸ hk) hj) (norm_nonneg _) (mul_nonneg (by linarith) (h0 i hi k hk))
        _ = g * g' * (Y.e i k * Y'.e k j) := by ring
    -- the propagated error
    have e3 : ‖((σ * σ' : ℝ) : K) * (∑ k ∈ Finset.range X.c, A.e i k * A'.e k j) - ∑ k ∈ Finset.range X.c, X.e i k * X'.e k j‖ ≤
        (g * g' - 1) * ∑ k ∈ Finset.range X.c, Y.e i k * Y'.e k j := by
      rw [Finset.mul_sum, ← Finset.sum_sub_distrib, Finset.mul_sum]
      refine (norm_sum_le _ _).trans (Finset.sum_le_sum (fun k hk => ?_))
      have hk := Finset.mem_range.1 hk
      have : ((σ * σ' : ℝ) : K) * (A.e i k * A'.e k j) - X.e i k * X'.e k j =
          ((σ : K) * A.e i k - X.e i k) * ((σ' : K) * A'.e k j) + X.e i k * ((σ' : K) * A'.e k j - X'.e k j) := by
        push_cast
        ring
      rw [this]
      refine (norm_add_le _ _).trans ?_
      rw [norm_mul (_ - _) (_ * _), norm_mul (X.e i k)]
      have b1 := mul_le_mul (h.near i hi k hk) (h'.le k j (hc ▸ hk) hj) (norm_nonneg _) (mul_nonneg (by linarith) (h0 i hi k hk))
      have b2 := mul_le_mul (h.bound i hi k hk) (h'.near k (hc ▸ hk) j hj) (norm_nonneg _) (h0 i hi k hk)
      refine (add_le_add b1 b2).trans (le_of_eq ?_)
      ring
    simp only [Mat.mul, h.yc]
    have : ((σ * σ' : ℝ) : K) * (ops.mm A A').e i j - ∑ k ∈ Finset.range X.c, X.e i k * X'.e k j =
        ((σ * σ' : ℝ) : K) * ((ops.mm A A').e i j - ∑ k ∈ Finset.range X.c, A.e i k * A'.e k j) +
        (((σ * σ' : ℝ) : K) * (∑ k ∈ Finset.range X.c, A.e i k * A'.e k j) - ∑ k ∈ Finset.range X.c, X.e i k * X'.e k j) := by ring
    rw [this]
    refine (norm_add_le _ _).trans ((add_le_add e2 e3).trans (le_of_eq ?_))
    ring

theorem Near.div {ops : FlOps K} {D N : ℕ} {γ u μ : ℝ} (ac : Accurate ops D N γ u μ) {g σ : ℝ} {A X : Mat K} {Y : Mat ℝ} (h : Near g σ A X Y)
    (s : ℝ) (hs : 0 < s) : Near (g * (1 + u)) (σ * s) (ops.div A s) X Y := by
  have hu := ac.unit
  have hg := h.one_le
  refine ⟨one_le_mul_of_one_le_of_one_le hg (by linarith), mul_pos h.pos hs, (ac.divSize A s).1.trans h.r, (ac.divSize A s).2.trans h.c, h.yr, h.yc, h.bound, ?_⟩
  intro i hi j hj
  have h0 : 0 ≤ Y.e i j := (norm_nonneg _).trans (h.bound i hi j hj)
  have e1 := ac.div A s hs i (by rw [h.r]; exact hi) j (by rw [h.c]; exact hj)
  have hsK : (s : K) ≠ 0 := by exact_mod_cast hs.ne'
  have hn : ‖((σ * s : ℝ) : K)‖ = σ * s := by
    rw [RCLike.norm_ofReal, abs_of_pos (mul_pos h.pos hs)]
  have e2 : ‖((σ * s : ℝ) : K) * ((ops.div A s).e i j - A.e i j / (s : K))‖ ≤ u * (g * Y.e i j) := by
    rw [norm_mul, hn]
    refine (mul_le_mul_of_nonneg_left e1 (mul_pos h.pos hs).le).trans ?_
    have : σ * s * (u * ‖A.e i j / (s : K)‖) = u * ‖(σ : K) * A.e i j‖ := by
      rw [norm_div, norm_mul, RCLike.norm_ofReal, RCLike.norm_ofReal, abs_of_pos hs, abs_of_pos h.pos]
      field_simp
    rw [this]
    exact mul_le_mul_of_nonneg_left (h.le i j hi hj) hu
  have : ((σ * s : ℝ) : K) * (ops.div A s).e i j - X.e i j =
      ((σ * s : ℝ) : K) * ((ops.div A s).e i j - A.e i j / (s : K)) + ((σ : K) * A.e i j - X.e i j) := by
    push_cast
    field_simp
    ring
  rw [this]
  refine (norm_add_le _ _).trans ((add_le_add e2 (h.near i hi j hj)).trans (le_of_eq ?_))
  ring

theorem Near.transpose {g σ : ℝ} {A X : Mat K} {Y : Mat ℝ} (h : Near g σ A X Y) : Near g σ A.transpose X.transpose Y.transpose :=
  ⟨h.one_le, h.pos, h.c, h.r, h.yc, h.yr, fun i hi j hj => h.bound j hj i hi, fun i hi j hj => h.near j hj i hi⟩

/-! ### the log scale -/

/-- what is known of a log scale after `k` updates with the factors `rs` -/
def LogNear (μ : ℝ) (k : ℕ) (s : ℝ) (rs : List ℝ) : Prop :=
  |s - (rs.map Real.log).sum| ≤ ((1 + μ) ^ k - 1) * (rs.map (fun r => |Real.log r|)).sum

theorem sum_abs_nonneg (rs : List ℝ) : 0 ≤ (rs.map (fun r => |Real.log r|)).sum :=
  List.sum_nonneg (by intro x hx; obtain ⟨r, _, rfl⟩ := List.mem_map.1 hx; exact abs_nonneg _)

theorem abs_sum_log_le (rs : List ℝ) : |(rs.map Real.log).sum| ≤ (rs.map (fun r => |Real.log r|)).sum := by
  induction rs with
  | nil => simp
  | cons r rs ih =>
    simp only [List.map_cons, List.sum_cons]
    exact (abs_add_le _ _).trans (add_le_add (le_refl _) ih)

theorem logNear_zero (μ : ℝ) : LogNear μ 0 0 [] := by simp [LogNear]

theorem LogNear.step {ops : FlOps K} {D N : ℕ} {γ u μ : ℝ} (ac : Accurate ops D N γ u μ) {k : ℕ} {s : ℝ} {rs : List ℝ} (h : LogNear μ k s rs)
    (qs : List ℝ) (hq : ∀ q ∈ qs, 0 < q) (hN : qs.length ≤ N) : LogNear μ (k + 1) (ops.logAdd s qs) (rs ++ qs) := by
  unfold LogNear at h ⊢
  have e := ac.logAdd s qs hq hN
  have hμ := ac.mu
  rw [List.map_append, List.map_append, List.sum_append, List.sum_append]
  set a := (rs.map Real.log).sum
  set b := (qs.map Real.log).sum
  set A := (rs.map (fun r => |Real.log r|)).sum
  set B := (qs.map (fun r => |Real.log r|)).sum
  have hA : |a| ≤ A := abs_sum_log_le rs
  have hB : 0 ≤ B := sum_abs_nonneg qs
  have hA0 : 0 ≤ A := sum_abs_nonneg rs
  have hs : |s| ≤ ((1 + μ) ^ k - 1) * A + A := by
    have : s = (s - a) + a := by ring
    rw [this]
    exact (abs_add_le _ _).trans (add_le_add h hA)
  have hpow : 1 ≤ (1 + μ) ^ k := one_le_pow₀ (by linarith)
  have e3 : ops.logAdd s qs - (a + b) = (ops.logAdd s qs - (s + b)) + (s - a) := by ring
  rw [e3]
  have e4 : μ * (|s| + B) ≤ μ * (((1 + μ) ^ k - 1) * A + A + B) := mul_le_mul_of_nonneg_left (by linarith) hμ
  refine (abs_add_le _ _).trans ((add_le_add e h).trans ?_)
  have e5 : ((1 + μ) ^ (k + 1) - 1) * (A + B) = ((1 + μ) ^ k - 1) * A + μ * (1 + μ) ^ k * A + ((1 + μ) ^ (k + 1) - 1) * B := by ring
  have e6 : μ * B ≤ ((1 + μ) ^ (k + 1) - 1) * B := by
    refine mul_le_mul_of_nonneg_right ?_ hB
    rw [pow_succ]
    nlinarith
  rw [e5]
  nlinarith

theorem exp_log_sum (rs : List ℝ) (h : ∀ r ∈ rs, 0 < r) : Real.exp (rs.map Real.log).sum = rs.prod := by
  induction rs with
  | nil => simp
  | cons r rs ih =>
    simp only [List.map_cons, List.sum_cons, List.prod_cons, Real.exp_add]
    rw [ih (fun q hq => h q (List.mem_cons_of_mem _ hq)), Real.exp_log (h r (List.mem_cons_self ..))]

/-- the final estimate -/
theorem Near.final {g E s : ℝ} {rs : List ℝ} {P X : Mat K} {Y : Mat ℝ} (h : Near g rs.prod P X Y) (hr : ∀ r ∈ rs, 0 < r)
    (hs : |s - (rs.map Real.log).sum| ≤ E) : Approximates (some (P, s)) X Y (g * Real.exp E - 1) := by
  refine ⟨h.r, h.c, ?_⟩
  intro i hi j hj
  set L := (rs.map Real.log).sum
  have hp : rs.prod = Real.exp L := (exp_log_sum rs hr).symm
  have h1 := h.near i hi j hj
  have h2 := h.bound i hi j hj
  have h0 : 0 ≤ Y.e i j := (norm_nonneg _).trans h2
  rw [hp] at h1
  have hexp : Real.exp s = Real.exp (s - L) * Real.exp L := by rw [← Real.exp_add]; congr 1; ring
  have e1 : ((Real.exp s : ℝ) : K) * P.e i j - X.e i j =
      ((Real.exp (s - L) : ℝ) : K) * (((Real.exp L : ℝ) : K) * P.e i j - X.e i j) + (((Real.exp (s - L) - 1 : ℝ)) : K) * X.e i j := by
    rw [hexp]
    push_cast
    ring
  rw [e1]
  refine (norm_add_le _ _).trans ?_
  rw [norm_mul, norm_mul, RCLike.norm_ofReal, RCLike.norm_ofReal, abs_of_pos (Real.exp_pos _)]
  have b1 : Real.exp (s - L) ≤ Real.exp E := Real.exp_le_exp.2 ((le_abs_self _).trans hs)
  have b2 : |Real.exp (s - L) - 1| ≤ Real.exp E - 1 := by
    have hE : Real.exp (-E) ≤ Real.exp (s - L) := Real.exp_le_exp.2 (by linarith [neg_abs_le (s - L)])
    have h3 : 1 - Real.exp (-E) ≤ Real.exp E - 1 := by
      have h5 : Real.exp E * Real.exp (-E) = 1 := by rw [← Real.exp_add]; simp
      have h6 := Real.exp_pos E
      have h7 := Real.exp_pos (-E)
      nlinarith [sq_nonneg (Real.exp E - 1), sq_nonneg (Real.exp E - Real.exp (-E))]
    rw [abs_le]
    constructor <;> linarith
  have hg := h.one_le
  calc Real.exp (s - L) * ‖((Real.exp L : ℝ) : K) * P.e i j - X.e i j‖ + |Real.exp (s - L) - 1| * ‖X.e i j‖
      ≤ Real.exp E * ((g - 1) * Y.e i j) + (Real.exp E - 1) * Y.e i j :=
        add_le_add (mul_le_mul b1 h1 (norm_nonneg _) (Real.exp_pos _).le) (mul_le_mul b2 h2 (norm_nonneg _) ((abs_nonneg _).trans b2))
    _ = (g * Real.exp E - 1) * Y.e i j := by ring

theorem Near.mono {g g' σ : ℝ} {A X : Mat K} {Y : Mat ℝ} (h : Near g σ A X Y) (hg : g ≤ g') : Near g' σ A X Y :=
  ⟨h.one_le.trans hg, h.pos, h.r, h.c, h.yr, h.yc, h.bound, fun i hi j hj => (h.near i hi j hj).trans
    (mul_le_mul_of_nonneg_right (by linarith) ((norm_nonneg _).trans (h.bound i hi j hj)))⟩

/-- `X` is bounded by `c Y` -/
structure Dom (c : ℝ) (X : Mat K) (Y : Mat ℝ) : Prop where
  yr : Y.r = X.r
  yc : Y.c = X.c
  bound : ∀ i < X.r, ∀ j < X.c, ‖X.e i j‖ ≤ c * Y.e i j

theorem Near.dom {g σ : ℝ} {A X : Mat K} {Y : Mat ℝ} (h : Near g σ A X Y) : Dom 1 X Y :=
  ⟨h.yr, h.yc, fun i hi j hj => by rw [one_mul]; exact h.bound i hi j hj⟩

theorem Near.dom_zero {g σ : ℝ} {A X : Mat K} {Y : Mat ℝ} (h : Near g σ A X Y) (hz : IsZero A) : Dom (g - 1) X Y := by
  refine ⟨h.yr, h.yc, fun i hi j hj => ?_⟩
  have := h.near i hi j hj
  rw [hz i (by rw [h.r]; exact hi) j (by rw [h.c]; exact hj), mul_zero, zero_sub, norm_neg] at this
  exact this

theorem Dom.mul {c c' : ℝ} {X X' : Mat K} {Y Y' : Mat ℝ} (h : Dom c X Y) (h' : Dom c' X' Y') (hc : X.c = X'.r) : Dom (c * c') (X.mul X') (Y.mul Y') := by
  refine ⟨h.yr, h'.yc, ?_⟩
  intro i hi j hj
  simp only [Mat.mul_r, Mat.mul_c] at hi hj
  simp only [Mat.mul, h.yc]
  rw [Finset.mul_sum]
  refine (norm_sum_le _ _).trans (Finset.sum_le_sum (fun k hk => ?_))
  have hk := Finset.mem_range.1 hk
  rw [norm_mul]
  refine (mul_le_mul (h.bound i hi k hk) (h'.bound k (hc ▸ hk) j hj) (norm_nonneg _) ((norm_nonneg _).trans (h.bound i hi k hk))).trans (le_of_eq (by ring))

theorem Dom.mono {c c' : ℝ} {X : Mat K} {Y : Mat ℝ} (h : Dom c X Y) (h1 : Dom 1 X Y) (hc : c ≤ c') : Dom c' X Y :=
  ⟨h.yr, h.yc, fun i hi j hj => (h.bound i hi j hj).trans (mul_le_mul_of_nonneg_right hc (by
    have := (norm_nonneg _).trans (h1.bound i hi j hj)
    rwa [one_mul] at this))⟩

theorem absMat_dom (A : Mat K) : Dom 1 A (absMat A) := ⟨rfl, rfl, fun i _ j _ => by rw [one_mul]; exact le_refl _⟩

theorem Dom.matProd {c : ℝ} {X : Mat K} {Y : Mat ℝ} (h : Dom c X Y) (ms : List (Mat K)) (hc : ChainOK (X :: ms)) :
    Dom c (matProd X ms) (matProd Y (ms.map absMat)) := by
  induction ms generalizing X Y with
  | nil => exact h
  | cons m ms ih =>
    rw [List.map_cons, matProd_cons, matProd_cons]
    have h2 := h.mul (absMat_dom m) hc.1
    rw [mul_one] at h2
    refine ih h2 ?_
    cases ms with
    | nil => trivial
    | cons a ms => exact ⟨hc.2.1, hc.2.2⟩

/-- `r` is a rescaling factor -/
def IsScale (ops : FlOps K) (r : ℝ) : Prop := ∃ t A, 0 < t ∧ r = ops.scale t A ∧ 0 < r

theorem IsScale.pos {ops : FlOps K} {r : ℝ} (h : IsScale ops r) : 0 < r := h.choose_spec.choose_spec.2.2

theorem chainOK_mul {a b : Mat K} {ms : List (Mat K)} (h : ChainOK (a :: b :: ms)) : ChainOK (a.mul b :: ms) := by
  cases ms with
  | nil => trivial
  | cons c ms => exact ⟨h.2.1, h.2.2⟩

theorem seqStepF_none (ops : FlOps K) (ms : List (Mat K)) : ms.foldl ops.seqStep none = none := by
  induction ms with
  | nil => rfl
  | cons a ms ih => exact ih

theorem seq_loopF {ops : FlOps K} {D N : ℕ} {γ u μ : ℝ} (ac : Accurate ops D N γ u μ) (hN : 1 ≤ N) (ms : List (Mat K)) :
    ∀ (p X : Mat K) (Y : Mat ℝ) (k : ℕ) (s : ℝ) (rs : List ℝ) (g : ℝ), Near g rs.prod p X Y → (∀ r ∈ rs, IsScale ops r) → LogNear μ k s rs →
    ChainOK (X :: ms) → 1 ≤ X.r → X.c ≤ D → SizesUpTo D ms →
    match ms.foldl ops.seqStep (some (p, s)) with
    | none => Dom (g * ((1 + γ) * (1 + u)) ^ ms.length - 1) (matProd X ms) (matProd Y (ms.map absMat))
    | some (P, s') => ∃ rs', Near (g * ((1 + γ) * (1 + u)) ^ ms.length) rs'.prod P (matProd X ms) (matProd Y (ms.map absMat)) ∧
        (∀ r ∈ rs', IsScale ops r) ∧ LogNear μ (k + ms.length) s' rs' ∧ rs'.length = rs.length + ms.length := by
  induction ms with
  | nil =>
    intro p X Y k s rs g h1 h2 h3 _ _ _ _
    refine ⟨rs, ?_, h2, h3, rfl⟩
    rw [List.length_nil, pow_zero, mul_one]
    exact h1
  | cons m ms ih =>
    intro p X Y k s rs g h1 h2 h3 hc hr hD hs
    obtain ⟨m1, m2, m3, m4⟩ := hs m (List.mem_cons_self ..)
    have hmm := h1.mm ac (near_self m) hc.1 hD
    have hγ := ac.gamma
    have hu := ac.unit
    have hg := h1.one_le
    rw [mul_one, mul_one] at hmm
    rw [List.foldl_cons, List.map_cons, matProd_cons, matProd_cons]
    have hstep : ops.seqStep (some (p, s)) m = if ops.scale (Real.sqrt (((ops.mm p m).r * (ops.mm p m).c : ℕ) : ℝ)) (ops.mm p m) = 0 then none
      else some (ops.div (ops.mm p m) (ops.scale (Real.sqrt (((ops.mm p m).r * (ops.mm p m).c : ℕ) : ℝ)) (ops.mm p m)),
        ops.logAdd s [ops.scale (Real.sqrt (((ops.mm p m).r * (ops.mm p m).c : ℕ) : ℝ)) (ops.mm p m)]) := by
      simp only [Arith.seqStep, ac.isZero]
    rw [hstep]
    have ht : 0 < Real.sqrt (((ops.mm p m).r * (ops.mm p m).c : ℕ) : ℝ) := by
      refine Real.sqrt_pos.2 ?_
      rw [(ac.mmSize p m).1, (ac.mmSize p m).2, h1.r]
      exact_mod_cast Nat.mul_pos hr m3
    generalize hρ : ops.scale (Real.sqrt (((ops.mm p m).r * (ops.mm p m).c : ℕ) : ℝ)) (ops.mm p m) = ρ
    by_cases h0 : ρ = 0
    · rw [if_pos h0, seqStepF_none]
      have hz := (ac.scaleZero _ (ops.mm p m) ht).1 (hρ.trans h0)
      have hd := (hmm.dom_zero hz).mono hmm.dom (c' := g * ((1 + γ) * (1 + u)) ^ (ms.length + 1) - 1) (by
        have e1 : (1 : ℝ) ≤ (1 + γ) * (1 + u) := one_le_mul_of_one_le_of_one_le (by linarith) (by linarith)
        have e2 : (1 + γ) * (1 + u) ≤ ((1 + γ) * (1 + u)) ^ (ms.length + 1) := le_self_pow₀ e1 (by omega)
        have e3 : 1 + γ ≤ (1 + γ) * (1 + u) := le_mul_of_one_le_right (by linarith) (by linarith)
        have := mul_le_mul_of_nonneg_left (e3.trans e2) (by linarith : 0 ≤ g)
        linarith)
      exact hd.matProd ms (chainOK_mul hc)
    · rw [if_neg h0]
      have hpos : 0 < ρ := lt_of_le_of_ne (hρ ▸ ac.scaleNonneg _ _ ht) (Ne.symm h0)
      have hdiv := hmm.div ac ρ hpos
      have hl := h3.step ac [ρ] (by simpa using hpos) hN
      have hprod : rs.prod * ρ = (rs ++ [ρ]).prod := by simp
      rw [hprod] at hdiv
      have key := ih (ops.div (ops.mm p m) ρ) (X.mul m) (Y.mul (absMat m)) (k + 1) (ops.logAdd s [ρ]) (rs ++ [ρ]) _ hdiv (by
        intro r hr
        rcases List.mem_append.1 hr with hr | hr
        · exact h2 r hr
        · rw [List.mem_singleton] at hr
          exact ⟨_, _, ht, by rw [hr, hρ], by rw [hr]; exact hpos⟩) hl (chainOK_mul hc) hr m4 (fun x hx => hs x (List.mem_cons_of_mem _ hx))
      have e1 : g * (1 + γ) * (1 + u) * ((1 + γ) * (1 + u)) ^ ms.length = g * ((1 + γ) * (1 + u)) ^ (m :: ms).length := by
        rw [List.length_cons, pow_succ]
        ring
      rw [e1] at key
      generalize ms.foldl ops.seqStep (some (ops.div (ops.mm p m) ρ, ops.logAdd s [ρ])) = res at key
      cases res with
      | none => exact key
      | some q =>
        obtain ⟨P, s'⟩ := q
        obtain ⟨rs', k1, k2, k3, k4⟩ := key
        refine ⟨rs', k1, k2, ?_, ?_⟩
        · rw [List.length_cons, ← Nat.add_assoc, Nat.add_right_comm]
          exact k3
        · rw [k4, List.length_append, List.length_singleton, List.length_cons]
          omega

/-- The error of a log scale whose factors are bounded. -/
theorem LogNear.bounded {ops : FlOps K} {μ S : ℝ} (hμ : 0 ≤ μ) (hS : ScalesBounded ops S) {k : ℕ} {s : ℝ} {rs : List ℝ} (h : LogNear μ k s rs)
    (hr : ∀ r ∈ rs, IsScale ops r) : |s - (rs.map Real.log).sum| ≤ ((1 + μ) ^ k - 1) * (rs.length * S) := by
  refine h.trans (mul_le_mul_of_nonneg_left ?_ ?_)
  · refine (List.sum_le_card_nsmul _ S ?_).trans (le_of_eq ?_)
    · intro x hx
      obtain ⟨r, hr', rfl⟩ := List.mem_map.1 hx
      obtain ⟨t, A, h1, h2, h3⟩ := hr r hr'
      rw [h2] at h3 ⊢
      exact hS.2 t A h1 h3
    · simp [nsmul_eq_mul]
  · have : (1 : ℝ) ≤ (1 + μ) ^ k := one_le_pow₀ (by linarith)
    linarith

/-! ### reversal -/

theorem chainOK_isChain (l : List (Mat K)) : ChainOK l ↔ List.IsChain (fun a b => a.c = b.r) l := by
  induction l with
  | nil => simp [ChainOK]
  | cons a l ih =>
    cases l with
    | nil => simp [ChainOK]
    | cons b l => rw [List.isChain_cons_cons, ← ih]; rfl

theorem chainOK_reverse (l : List (Mat K)) (h : ChainOK l) : ChainOK (l.reverse.map Mat.transpose) := by
  rw [chainOK_isChain] at h ⊢
  rw [List.isChain_map, List.isChain_reverse]
  exact h.imp (fun a b h => h.symm)

theorem chainOK_absMat (l : List (Mat K)) (h : ChainOK l) : ChainOK (l.map absMat) := by
  induction l with
  | nil => trivial
  | cons a l ih =>
    cases l with
    | nil => trivial
    | cons b l => exact ⟨h.1, ih h.2⟩

/-! ### pairs -/

/-- neighbours combined by `f` -/
def pairBy {α : Type} (f : α → α → α) : List α → List α
  | a :: b :: l => f a b :: pairBy f l
  | l => l

theorem parPairsF_eq (ops : FlOps K) : ∀ ms : List (Mat K), ops.parPairs ms = pairBy ops.mm ms
  | [] => by simp [Arith.parPairs, pairBy, everyOther]
  | [a] => by simp [Arith.parPairs, pairBy, everyOther]
  | a :: b :: l => by
    have ih := parPairsF_eq ops l
    simp only [pairBy, ← ih, Arith.parPairs, List.length_cons]
    have h : (l.length + 1 + 1) / 2 * 2 = l.length / 2 * 2 + 2 := by omega
    rw [h]
    simp only [List.take_succ_cons, List.drop_succ_cons, everyOther, List.drop_zero, List.zipWith_cons_cons, List.cons_append]
    congr 1
    congr 1
    generalize l.take (l.length / 2 * 2) = l'
    cases l' with
    | nil => simp [everyOther]
    | cons c l' => cases l' <;> simp [everyOther]

/-- The matrices are near factors of `X`. -/
inductive Nears (D : ℕ) : List (Mat K) → Mat K → Mat ℝ → ℝ → ℝ → Prop
  | one {A X Y g σ} : Near g σ A X Y → X.r = D → X.c = D → Nears D [A] X Y g σ
  | cons {A X Y g σ As X' Y' g' σ'} : Near g σ A X Y → X.r = D → X.c = D → Nears D As X' Y' g' σ' → Nears D (A :: As) (X.mul X') (Y.mul Y') (g * g') (σ * σ')

theorem Nears.size {D : ℕ} {As : List (Mat K)} {X : Mat K} {Y : Mat ℝ} {g σ : ℝ} (h : Nears D As X Y g σ) : X.r = D ∧ X.c = D ∧ 1 ≤ g ∧ As ≠ [] := by
  induction h with
  | one h1 h2 h3 => exact ⟨h2, h3, h1.one_le, by simp⟩
  | cons h1 h2 h3 _ ih => exact ⟨h2, ih.2.1, one_le_mul_of_one_le_of_one_le h1.one_le ih.2.2.1, by simp⟩

theorem Nears.dom {D : ℕ} {As : List (Mat K)} {X : Mat K} {Y : Mat ℝ} {g σ : ℝ} (h : Nears D As X Y g σ) : Dom 1 X Y := by
  induction h with
  | one h1 h2 h3 => exact h1.dom
  | cons h1 h2 h3 h4 ih =>
    have := h1.dom.mul ih (by rw [h3, h4.size.1])
    rwa [one_mul] at this

theorem Nears.dom_zero {D : ℕ} {As : List (Mat K)} {X : Mat K} {Y : Mat ℝ} {g σ : ℝ} (h : Nears D As X Y g σ) (hz : ∃ A ∈ As, IsZero A) : Dom (g - 1) X Y := by
  induction h with
  | one h1 h2 h3 =>
    obtain ⟨A, hA, hz⟩ := hz
    rw [List.mem_singleton] at hA
    subst hA
    exact h1.dom_zero hz
  | @cons A X Y g σ As X' Y' g' σ' h1 h2 h3 h4 ih =>
    have hg := h1.one_le
    have hg' := h4.size.2.2.1
    have hd := (h1.dom.mul h4.dom (by rw [h3, h4.size.1]))
    rw [one_mul] at hd
    obtain ⟨B, hB, hz⟩ := hz
    rcases List.mem_cons.1 hB with rfl | hB
    · have := (h1.dom_zero hz).mul h4.dom (by rw [h3, h4.size.1])
      exact this.mono hd (by nlinarith)
    · have := h1.dom.mul (ih ⟨B, hB, hz⟩) (by rw [h3, h4.size.1])
      exact this.mono hd (by nlinarith)

theorem Nears.congr {D : ℕ} {As : List (Mat K)} {X : Mat K} {Y : Mat ℝ} {g σ g' σ' : ℝ} (h : Nears D As X Y g σ) (hg : g = g') (hσ : σ = σ') :
    Nears D As X Y g' σ' := hg ▸ hσ ▸ h

theorem Nears.pair {ops : FlOps K} {D D' N : ℕ} {γ u μ : ℝ} (ac : Accurate ops D' N γ u μ) (hD : D ≤ D') : ∀ (n : ℕ) (As : List (Mat K)) (X : Mat K) (Y : Mat ℝ) (g σ : ℝ),
    As.length ≤ n → Nears D As X Y g σ → Nears D (pairBy ops.mm As) X Y (g * (1 + γ) ^ (As.length / 2)) σ := by
  intro n
  induction n with
  | zero =>
    intro As X Y g σ hn h
    exact absurd (List.length_eq_zero_iff.1 (by omega)) h.size.2.2.2
  | succ n ih =>
    intro As X Y g σ hn h
    cases h with
    | one h1 h2 h3 => exact (Nears.one h1 h2 h3).congr (by simp) rfl
    | cons h1 h2 h3 h4 =>
      cases h4 with
      | one k1 k2 k3 =>
        exact (Nears.one (h1.mm ac k1 (by rw [h3, k2]) (by rw [h3]; exact hD)) h2 k3).congr (by simp) rfl
      | @cons A' X' Y' g1 σ1 As' X'' Y'' g2 σ2 k1 k2 k3 k4 =>
        have hp := ih _ _ _ _ _ (by simp only [List.length_cons] at hn ⊢; omega) k4
        have := Nears.cons (h1.mm ac k1 (by rw [h3, k2]) (by rw [h3]; exact hD)) h2 k3 hp
        rw [Mat.mul_assoc, Mat.mul_assoc] at this
        refine this.congr ?_ (by ring)
        have e : (A' :: As').length / 2 = (A' :: As').length / 2 := rfl
        have e2 : (As'.length + 1 + 1) / 2 = As'.length / 2 + 1 := by omega
        simp only [List.length_cons]
        rw [e2, pow_succ]
        ring

theorem Nears.divAll {ops : FlOps K} {D D' N : ℕ} {γ u μ : ℝ} (ac : Accurate ops D' N γ u μ) (f : Mat K → ℝ) {As : List (Mat K)} {X : Mat K} {Y : Mat ℝ} {g σ : ℝ}
    (h : Nears D As X Y g σ) (hf : ∀ A ∈ As, 0 < f A) :
    Nears D (As.map (fun A => ops.div A (f A))) X Y (g * (1 + u) ^ As.length) (σ * (As.map f).prod) := by
  induction h with
  | one h1 h2 h3 => exact (Nears.one (h1.div ac _ (hf _ (by simp))) h2 h3).congr (by simp) (by simp)
  | cons h1 h2 h3 h4 ih =>
    refine (Nears.cons (h1.div ac _ (hf _ (by simp))) h2 h3 (ih (fun A hA => hf A (List.mem_cons_of_mem _ hA)))).congr ?_ ?_
    · rw [List.length_cons, pow_succ]
      ring
    · rw [List.map_cons, List.prod_cons]
      ring

theorem nears_init (D : ℕ) (m : Mat K) (ms : List (Mat K)) (h : ∀ x ∈ m :: ms, x.r = D ∧ x.c = D) : Nears D (m :: ms) (matProd m ms) (absProd m ms) 1 1 := by
  induction ms generalizing m with
  | nil => exact .one (near_self m) (h m (by simp)).1 (h m (by simp)).2
  | cons a ms ih =>
    have := Nears.cons (near_self m) (h m (by simp)).1 (h m (by simp)).2 (ih a (fun x hx => h x (List.mem_cons_of_mem _ hx)))
    unfold absProd at this ⊢
    rw [matProd_mul, matProd_mul] at this
    exact this.congr (by ring) (by ring)

theorem parLoopF_none (ops : FlOps K) (D : ℕ) (ms : List (Mat K)) (s : ℝ) (hl : 1 < ms.length) (h : ops.parStep D ms s = none) : ops.parLoop D ms s = none := by
  rw [Arith.parLoop.eq_def, dif_pos hl]
  split
  · rfl
  · rename_i hs
    rw [h] at hs
    cases hs

theorem parLoopF_some (ops : FlOps K) (D : ℕ) (ms ms' : List (Mat K)) (s s' : ℝ) (hl : 1 < ms.length) (h : ops.parStep D ms s = some (ms', s')) :
    ops.parLoop D ms s = ops.parLoop D ms' s' := by
  rw [Arith.parLoop.eq_def, dif_pos hl]
  split
  · rename_i hs
    rw [h] at hs
    cases hs
  · rename_i hs
    rw [h] at hs
    cases hs
    rfl

theorem parLoopF_one (ops : FlOps K) (D : ℕ) (m : Mat K) (s : ℝ) : ops.parLoop D [m] s = some (m, s) := by
  rw [Arith.parLoop.eq_def, dif_neg (by simp)]

theorem Nears.single {D : ℕ} {As : List (Mat K)} {X : Mat K} {Y : Mat ℝ} {g σ : ℝ} (h : Nears D As X Y g σ) (hl : ¬ 1 < As.length) :
    ∃ A, As = [A] ∧ Near g σ A X Y := by
  cases h with
  | one a1 a2 a3 => exact ⟨_, rfl, a1⟩
  | cons a1 a2 a3 a4 =>
    have := List.length_pos_of_ne_nil a4.size.2.2.2
    simp only [List.length_cons] at hl
    omega

theorem par_loopF {ops : FlOps K} {D N : ℕ} {γ u μ : ℝ} (hD : 1 ≤ D) (ac : Accurate ops D N γ u μ) : ∀ (n : ℕ) (ms : List (Mat K)) (X : Mat K) (Y : Mat ℝ) (k : ℕ) (s : ℝ)
    (rs : List ℝ) (g : ℝ), ms.length ≤ n → ms.length ≤ N → Nears D ms X Y g rs.prod → (∀ r ∈ rs, IsScale ops r) → LogNear μ k s rs →
    match ops.parLoop D ms s with
    | none => Dom (g * ((1 + γ) ^ (ms.length - 1) * (1 + u) ^ (2 * (ms.length - 1))) - 1) X Y
    | some (P, s') => ∃ rs', Near (g * ((1 + γ) ^ (ms.length - 1) * (1 + u) ^ (2 * (ms.length - 1)))) rs'.prod P X Y ∧
        (∀ r ∈ rs', IsScale ops r) ∧ LogNear μ (k + Nat.clog 2 ms.length) s' rs' ∧ rs'.length ≤ rs.length + 2 * (ms.length - 1) := by
  have hγ := ac.gamma
  have hu := ac.unit
  intro n
  induction n with
  | zero =>
    intro ms X Y k s rs g hn _ h
    exact absurd (List.length_eq_zero_iff.1 (by omega)) h.size.2.2.2
  | succ n ih =>
    intro ms X Y k s rs g hn hN h h2 h3
    by_cases hlen : 1 < ms.length
    · have hp := Nears.pair ac (le_refl D) ms.length ms X Y g rs.prod (le_refl _) h
      have hplen : (pairBy ops.mm ms).length = ms.length - ms.length / 2 := by rw [← parPairsF_eq, ops.parPairs_length]
      have hstep : ops.parStep D ms s = if ∃ r ∈ (pairBy ops.mm ms).map (ops.scale (D : ℝ)), r = 0 then none
        else some ((pairBy ops.mm ms).map (fun m => ops.div m (ops.scale (D : ℝ) m)), ops.logAdd s ((pairBy ops.mm ms).map (ops.scale (D : ℝ)))) := by
        rw [← parPairsF_eq]
        simp only [Arith.parStep, ac.isZero]
      have hDr : (0 : ℝ) < D := by exact_mod_cast hD
      have e1 : ∀ q : ℕ, (1 : ℝ) ≤ (1 + u) ^ q := fun q => one_le_pow₀ (by linarith)
      have e2 : ∀ q q' : ℕ, q ≤ q' → (1 + γ) ^ q ≤ (1 + γ) ^ q' := fun q q' hq => pow_le_pow_right₀ (by linarith) hq
      have e3 : ∀ q q' : ℕ, q ≤ q' → (1 + u) ^ q ≤ (1 + u) ^ q' := fun q q' hq => pow_le_pow_right₀ (by linarith) hq
      have hg := h.size.2.2.1
      by_cases hz : ∃ r ∈ (pairBy ops.mm ms).map (ops.scale (D : ℝ)), r = 0
      · rw [if_pos hz] at hstep
        rw [parLoopF_none ops D ms s hlen hstep]
        · have := hg
          obtain ⟨r, hr, h0⟩ := hz
          obtain ⟨A, hA, rfl⟩ := List.mem_map.1 hr
          have := hp.dom_zero ⟨A, hA, (ac.scaleZero _ A hDr).1 h0⟩
          refine this.mono hp.dom ?_
          have b1 : (1 + γ) ^ (ms.length / 2) ≤ (1 + γ) ^ (ms.length - 1) * (1 + u) ^ (2 * (ms.length - 1)) :=
            (e2 _ _ (by omega)).trans (le_mul_of_one_le_right (by positivity) (e1 _))
          have := mul_le_mul_of_nonneg_left b1 (by linarith : 0 ≤ g)
          linarith
      · rw [if_neg hz] at hstep
        rw [parLoopF_some ops D ms _ s _ hlen hstep]
        · have := hg
          have hpos : ∀ A ∈ pairBy ops.mm ms, 0 < ops.scale (D : ℝ) A := by
            intro A hA
            exact lt_of_le_of_ne (ac.scaleNonneg _ _ hDr) (fun h0 => hz ⟨_, List.mem_map.2 ⟨A, hA, rfl⟩, h0.symm⟩)
          have hd := hp.divAll ac (ops.scale (D : ℝ)) hpos
          have hl := h3.step ac ((pairBy ops.mm ms).map (ops.scale (D : ℝ))) (by
            intro q hq
            obtain ⟨A, hA, rfl⟩ := List.mem_map.1 hq
            exact hpos A hA) (by rw [List.length_map, hplen]; omega)
          rw [← List.prod_append] at hd
          have hlen' : ((pairBy ops.mm ms).map (fun m => ops.div m (ops.scale (D : ℝ) m))).length = (ms.length + 1) / 2 := by
            rw [List.length_map, hplen]
            omega
          have key := ih ((pairBy ops.mm ms).map (fun m => ops.div m (ops.scale (D : ℝ) m))) X Y (k + 1) _ _ _ (by omega) (by omega) hd (by
            intro r hr
            rcases List.mem_append.1 hr with hr | hr
            · exact h2 r hr
            · obtain ⟨A, hA, rfl⟩ := List.mem_map.1 hr
              exact ⟨_, A, hDr, rfl, hpos A hA⟩) hl
          rw [hlen'] at key
          have hbd : g * (1 + γ) ^ (ms.length / 2) * (1 + u) ^ (pairBy ops.mm ms).length *
              ((1 + γ) ^ ((ms.length + 1) / 2 - 1) * (1 + u) ^ (2 * ((ms.length + 1) / 2 - 1))) ≤
              g * ((1 + γ) ^ (ms.length - 1) * (1 + u) ^ (2 * (ms.length - 1))) := by
            have b1 : (1 + γ) ^ (ms.length / 2) * (1 + γ) ^ ((ms.length + 1) / 2 - 1) ≤ (1 + γ) ^ (ms.length - 1) := by
              rw [← pow_add]
              exact e2 _ _ (by omega)
            have b2 : (1 + u) ^ (pairBy ops.mm ms).length * (1 + u) ^ (2 * ((ms.length + 1) / 2 - 1)) ≤ (1 + u) ^ (2 * (ms.length - 1)) := by
              rw [← pow_add]
              exact e3 _ _ (by rw [hplen]; omega)
            have b3 := mul_le_mul b1 b2 (by positivity) (by positivity)
            have b4 := mul_le_mul_of_nonneg_left b3 (by linarith : 0 ≤ g)
            refine le_trans (le_of_eq ?_) b4
            ring
          generalize ops.parLoop D ((pairBy ops.mm ms).map (fun m => ops.div m (ops.scale (D : ℝ) m)))
            (ops.logAdd s ((pairBy ops.mm ms).map (ops.scale (D : ℝ)))) = res at key ⊢
          cases res with
          | none => exact key.mono hp.dom (by linarith)
          | some q =>
            obtain ⟨P, s'⟩ := q
            obtain ⟨rs', k1, k2, k3, k4⟩ := key
            refine ⟨rs', k1.mono hbd, k2, ?_, ?_⟩
            · rw [Nat.clog_of_one_lt (by norm_num) hlen, show (ms.length + 2 - 1) / 2 = (ms.length + 1) / 2 from rfl, Nat.add_comm (Nat.clog 2 _) 1, ← Nat.add_assoc]
              exact k3
            · rw [List.length_append, List.length_map, hplen] at k4
              omega
    · obtain ⟨A, rfl, a1⟩ := h.single hlen
      rw [parLoopF_one]
      refine ⟨rs, ?_, h2, ?_, by simp⟩
      · simpa using a1
      · simpa using h3

end TorchMPS
