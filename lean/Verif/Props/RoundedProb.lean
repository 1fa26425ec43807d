import Verif.Lemmas.RoundedForward
import Verif.Props.ProbMps
/-
Properties of the log probabilities in rounded arithmetic: C91.
-/
namespace TorchMPS
open Spec
variable {a : ProbArith} {d D N : ℕ} {γ u μ τ ν S : ℝ}

/-- C91. `get_log_norm` in any accurate arithmetic: if the exact norm and the exact masses of all prefixes exceed the error (that is, `normErr` times their values for the model with the absolute
values of all parameters; by a factor 2 for the norm), then the result is finite, and its exponential has at most that error. -/
theorem C91_log_norm (ac : AccurateProb a d D N γ u μ τ ν S) (hN : 1 ≤ N) (m : ProbMPS ℝ) (n : ℕ) (hm : ValidModel m n d D) (hb : m.bias = none)
    (hcond : ∀ k, 1 ≤ k → k ≤ n → normErr u μ τ S n (modelZ m n d D) * prefixMass (absModel m) d D k < prefixMass m d D k)
    (hZ : 0 < modelZ m n d D) (hfin : 2 * (normErr u μ τ S n (modelZ m n d D) * modelZ (absModel m) n d D) ≤ modelZ m n d D) :
    ∃ z, a.logNorm m.core m.edge (if m.uniform then some (n : ℤ) else none) = .ok (some z) ∧
      |Real.exp z - modelZ m n d D| ≤ normErr u μ τ S n (modelZ m n d D) * modelZ (absModel m) n d D := by
  refine logNorm_near ac hN m n hm.coreShape hm.edge hb _ ?_ hcond hZ hfin
  have := hm.core
  cases hu : m.uniform <;> rw [hu] at this
  · right; simp at this; simp [this]
  · left; simp at this; simp [this]

/-- C91. Log probabilities in any accurate arithmetic, with slim, sequential or parallel evaluation: if in addition every exact amplitude exceeds its error (`ampErr` times the amplitude of the model
with the absolute values of all parameters), then `forward` succeeds, and each returned value differs from `log(ψ² / Z)` at most by the sum of the relative errors of `ψ²` and `Z` (on the
logarithmic scale), and the rounding error of the final combination of the computed values. -/
theorem C91_log_prob (ac : AccurateProb a d D N γ u μ τ ν S) (m : ProbMPS ℝ) (n : ℕ) (hN : n + 2 ≤ N) (hn : 1 ≤ n) (hm : ValidModel m n d D) (hb : m.bias = none)
    (t : Tensor ℤ) (B : ℕ) (hx : ValidInput (.ints t : SeqInput ℝ) B n d) (slim par : Bool)
    (hcond : ∀ k, 1 ≤ k → k ≤ n → normErr u μ τ S n (modelZ m n d D) * prefixMass (absModel m) d D k < prefixMass m d D k)
    (hZ : 0 < modelZ m n d D) (hfin : 2 * (normErr u μ τ S n (modelZ m n d D) * modelZ (absModel m) n d D) ≤ modelZ m n d D)
    (hamp : ∀ b < B, ampErr γ u μ S n * psi (absModel m) (.ints t) n d D b < |psi m (.ints t) n d D b|) :
    ∃ out psis z, a.forward m t slim par = .ok out ∧ out.shape = [B] ∧ a.evalPsi m (.ints t) slim par = .ok psis ∧
      a.logNorm m.core m.edge (if m.uniform then some (n : ℤ) else none) = .ok (some z) ∧
      ∀ b < B, ∃ y p l : ℝ, out.get [b] = some (y : EReal) ∧ psis.product.get [b] = some p ∧ psis.logScale.get [b] = some l ∧
        |y - Real.log (psi m (.ints t) n d D b ^ 2 / modelZ m n d D)| ≤
          -2 * Real.log (1 - ampErr γ u μ S n * psi (absModel m) (.ints t) n d D b / |psi m (.ints t) n d D b|) -
          Real.log (1 - normErr u μ τ S n (modelZ m n d D) * modelZ (absModel m) n d D / modelZ m n d D) +
          ν * (2 * abs (Real.log |p|) + 2 * |l| + |z|) := by
  classical
  obtain ⟨z, z1, z2⟩ := C91_log_norm ac (by omega) m n hm hb hcond hZ hfin
  obtain ⟨psis, p1, p2, p3, p4⟩ := evalPsi_near ac m n hN hn hm hb t B hx slim par
  have hval : ∀ b < B, ∃ p l, psis.product.get [b] = some p ∧ psis.logScale.get [b] = some l ∧
      |Real.exp l * p - psi m (.ints t) n d D b| ≤ ampErr γ u μ S n * psi (absModel m) (.ints t) n d D b := by
    intro b hb'
    have h1 := p4 b hb'
    have h2 := hamp b hb'
    cases hp : psis.product.get [b] <;> cases hl : psis.logScale.get [b] <;> rw [hp, hl] at h1
    · exact absurd h1 (not_le.2 h2)
    · exact h1.elim
    · exact h1.elim
    · exact ⟨_, _, rfl, rfl, h1⟩
  have hall : ∀ idx, InRange idx psis.product.shape → (psis.product.get idx).isSome := by
    intro idx hidx
    rw [p2] at hidx
    rcases idx with _ | ⟨b, _ | ⟨c, idx⟩⟩
    · exact absurd hidx (by simp)
    · obtain ⟨p, l, h1, -⟩ := hval b (by simpa using hidx)
      rw [h1]
      rfl
    · exact absurd hidx (by simp)
  have ht : t.shape = [B, n] := hx.1
  have hfwd : a.forward m t slim par = .ok ⟨psis.product.shape, fun idx => a.logProb (psis.product.get idx) (psis.logScale.get idx) z⟩ := by
    unfold ProbArith.forward
    rw [if_neg (by simp [ht])]
    simp only [ht, List.getD_cons_succ, List.getD_cons_zero, bind, Except.bind, pure, Except.pure, p1, z1]
    rw [assert_true _ (by simp), assert_true _ hall]
    simp only [p2]
    cases m.uniform <;> simp [assert, bind, Except.bind, pure, Except.pure]
  refine ⟨_, psis, z, hfwd, p2, p1, z1, ?_⟩
  intro b hb'
  obtain ⟨p, l, h1, h2, h3⟩ := hval b hb'
  have h4 := hamp b hb'
  set ψ := psi m (.ints t) n d D b
  set ψ' := psi (absModel m) (.ints t) n d D b
  set Z := modelZ m n d D
  have hψ : 0 < |ψ| := by
    by_contra hneg
    have h0 : |ψ| = 0 := le_antisymm (not_lt.1 hneg) (abs_nonneg _)
    rw [h0] at h4
    have := (abs_nonneg _).trans h3
    linarith
  have hψ0 : ψ ≠ 0 := abs_pos.1 hψ
  have e1 : abs (|Real.exp l * p| - |ψ|) ≤ (ampErr γ u μ S n * ψ' / |ψ|) * |ψ| := by
    rw [div_mul_cancel₀ _ hψ.ne']
    exact (abs_abs_sub_abs_le_abs_sub _ _).trans h3
  obtain ⟨q1, q2⟩ := log_rel hψ e1 (by rw [div_lt_one hψ]; exact h4)
  have hp : p ≠ 0 := by
    rintro rfl
    simp at q1
  have e2 : |Real.exp z - Z| ≤ (normErr u μ τ S n Z * modelZ (absModel m) n d D / Z) * Z := by
    rw [div_mul_cancel₀ _ hZ.ne']
    exact z2
  obtain ⟨-, q3⟩ := log_rel hZ e2 (by rw [div_lt_one hZ]; linarith)
  rw [Real.log_exp] at q3
  have e3 : Real.log |Real.exp l * p| = l + Real.log |p| := by
    rw [abs_mul, abs_of_pos (Real.exp_pos l), Real.log_mul (Real.exp_pos l).ne' (abs_pos.2 hp).ne', Real.log_exp]
  rw [e3] at q2
  refine ⟨a.finish p l z, p, l, ?_, h1, h2, ?_⟩
  · show a.logProb (psis.product.get [b]) (psis.logScale.get [b]) z = _
    rw [h1, h2]
    simp [ProbArith.logProb, hp]
  · have e4 : Real.log (ψ ^ 2 / Z) = 2 * Real.log |ψ| - Real.log Z := by
      rw [Real.log_div (pow_ne_zero 2 hψ0) hZ.ne', ← sq_abs, Real.log_pow]
      norm_num
    rw [e4]
    have e5 := ac.finish p l z hp
    have e6 : a.finish p l z - (2 * Real.log |ψ| - Real.log Z) =
        (a.finish p l z - (2 * (Real.log |p| + l) - z)) + (2 * (l + Real.log |p| - Real.log |ψ|) + (Real.log Z - z)) := by ring
    rw [e6]
    refine (abs_add_le _ _).trans ?_
    have e7 : |2 * (l + Real.log |p| - Real.log |ψ|) + (Real.log Z - z)| ≤ 2 * abs (l + Real.log |p| - Real.log |ψ|) + |z - Real.log Z| := by
      refine (abs_add_le _ _).trans (le_of_eq ?_)
      rw [abs_mul, abs_of_pos (by norm_num : (0 : ℝ) < 2), abs_sub_comm (Real.log Z)]
    linarith

/-! ### non-negative parameters -/

/-- The parameters which enter into the amplitudes of sequences of length `n` are not negative. -/
def Spec.NonnegParams (m : ProbMPS ℝ) (n d D : ℕ) : Prop :=
  (∀ s < n, ∀ k < d, ∀ i j, 0 ≤ coreMat m.core D s k i j) ∧ ∀ e < 2, ∀ j, 0 ≤ boundVec m.edge D e j

theorem coreMat_abs (m : ProbMPS ℝ) (s k : ℕ) : coreMat (absModel m).core D s k = (coreMat m.core D s k).map abs := by
  ext i j
  by_cases h : m.core.shape.length = 3 <;> simp [coreMat, absModel, absTensor, h]

theorem coreMat_abs_of_nonneg {m : ProbMPS ℝ} {n : ℕ} (h : NonnegParams m n d D) (s k : ℕ) (hs : s < n) (hk : k < d) :
    coreMat (absModel m).core D s k = coreMat m.core D s k := by
  rw [coreMat_abs]
  ext i j
  exact abs_of_nonneg (h.1 s hs k hk i j)

theorem boundVec_abs_of_nonneg {m : ProbMPS ℝ} {n : ℕ} (h : NonnegParams m n d D) (e : ℕ) (he : e < 2) : boundVec (absModel m).edge D e = boundVec m.edge D e := by
  funext j
  exact abs_of_nonneg (h.2 e he j)

theorem modelZ_abs {m : ProbMPS ℝ} {n : ℕ} (h : NonnegParams m n d D) : modelZ (absModel m) n d D = modelZ m n d D := by
  unfold modelZ psiSeq
  have hB : biasMat (absModel m) D = biasMat m D := rfl
  simp only [hB, boundVec_abs_of_nonneg h 0 (by norm_num), boundVec_abs_of_nonneg h 1 (by norm_num)]
  refine Finset.sum_congr rfl fun x _ => ?_
  have : (fun s : Fin n => coreMat (absModel m).core D s (x s) + biasMat m D) = fun s : Fin n => coreMat m.core D s (x s) + biasMat m D := by
    funext s
    rw [coreMat_abs_of_nonneg h s (x s) s.2 (x s).2]
  rw [this]

theorem prefixMass_abs {m : ProbMPS ℝ} {n : ℕ} (h : NonnegParams m n d D) (k : ℕ) (hk : k ≤ n) : prefixMass (absModel m) d D k = prefixMass m d D k := by
  unfold prefixMass
  rw [boundVec_abs_of_nonneg h 0 (by norm_num)]
  refine Finset.sum_congr rfl fun x _ => ?_
  have : (fun s : Fin k => coreMat (absModel m).core D s (x s)) = fun s : Fin k => coreMat m.core D s (x s) := by
    funext s
    rw [coreMat_abs_of_nonneg h s (x s) (by omega) (x s).2]
  rw [this]

theorem psi_abs_of_nonneg {m : ProbMPS ℝ} {n : ℕ} (h : NonnegParams m n d D) (hb : m.bias = none) (t : Tensor ℤ) (B : ℕ) (hx : ValidInput (.ints t : SeqInput ℝ) B n d)
    (b : ℕ) (hbB : b < B) : psi (absModel m) (.ints t) n d D b = psi m (.ints t) n d D b := by
  rw [psi_tokens m hb, psi_tokens (absModel m) hb, boundVec_abs_of_nonneg h 0 (by norm_num), boundVec_abs_of_nonneg h 1 (by norm_num)]
  congr 1
  refine List.map_congr_left fun s hs => ?_
  rw [List.mem_range] at hs
  obtain ⟨h1, h2⟩ := hx.2 b hbB s hs
  exact coreMat_abs_of_nonneg h s _ hs (by omega)

theorem prefixMass_nonneg (m : ProbMPS ℝ) (k : ℕ) : 0 ≤ prefixMass m d D k :=
  Finset.sum_nonneg fun _ _ => Finset.sum_nonneg fun _ _ => sq_nonneg _

theorem take_ofFn {α : Type} {n : ℕ} (f : Fin n → α) (k : ℕ) (hk : k ≤ n) : (List.ofFn f).take k = List.ofFn fun i : Fin k => f (Fin.castLE hk i) := by
  apply List.ext_getElem
  · simp [hk]
  · intro i h1 h2
    simp

/-- If all partial products of some length are zero, then so is the norm. -/
theorem modelZ_of_prefix (m : ProbMPS ℝ) (hb : m.bias = none) (n k : ℕ) (hk : k ≤ n) (h0 : prefixMass m d D k = 0) : modelZ m n d D = 0 := by
  unfold prefixMass at h0
  rw [Finset.sum_eq_zero_iff_of_nonneg (fun _ _ => Finset.sum_nonneg fun _ _ => sq_nonneg _)] at h0
  unfold modelZ psiSeq
  refine Finset.sum_eq_zero fun x _ => ?_
  have hB : biasMat m D = 0 := by simp [biasMat, hb]
  simp only [hB, add_zero]
  have h1 := h0 (fun i => x (Fin.castLE hk i)) (Finset.mem_univ _)
  rw [Finset.sum_eq_zero_iff_of_nonneg (fun _ _ => sq_nonneg _)] at h1
  have h2 : Matrix.vecMul (boundVec m.edge D 0) (List.ofFn fun s : Fin k => coreMat m.core D s (x (Fin.castLE hk s))).prod = 0 := by
    funext j
    exact pow_eq_zero_iff (two_ne_zero) |>.1 (h1 j (Finset.mem_univ _))
  have h3 : (List.ofFn fun s : Fin k => coreMat m.core D s (x (Fin.castLE hk s))) = (List.ofFn fun s : Fin n => coreMat m.core D s (x s)).take k := by
    rw [take_ofFn _ k hk]
    rfl
  rw [h3] at h2
  rw [amplitude, Matrix.dotProduct_mulVec, ← List.prod_take_mul_prod_drop _ k, ← Matrix.vecMul_vecMul, h2, Matrix.zero_vecMul, zero_dotProduct]
  simp

/-- C91. Without negative parameters there is no cancellation: if the error factors are small (below 1 for the amplitudes, at most 1/2 for the norm), then for every model with positive norm and
every batch of sequences with positive amplitude, `forward` succeeds in rounded arithmetic, and every returned log probability has an absolute error of at most
`-2 log(1 - ampErr) - log(1 - normErr)`, plus the rounding error of the final combination. -/
theorem C91_nonneg (ac : AccurateProb a d D N γ u μ τ ν S) (m : ProbMPS ℝ) (n : ℕ) (hN : n + 2 ≤ N) (hn : 1 ≤ n) (hm : ValidModel m n d D) (hb : m.bias = none)
    (hpos : NonnegParams m n d D) (t : Tensor ℤ) (B : ℕ) (hx : ValidInput (.ints t : SeqInput ℝ) B n d) (slim par : Bool) (hZ : 0 < modelZ m n d D)
    (hψ : ∀ b < B, 0 < psi m (.ints t) n d D b) (ha : ampErr γ u μ S n < 1) (hz : normErr u μ τ S n (modelZ m n d D) ≤ 1 / 2) :
    ∃ out psis z, a.forward m t slim par = .ok out ∧ out.shape = [B] ∧ a.evalPsi m (.ints t) slim par = .ok psis ∧
      a.logNorm m.core m.edge (if m.uniform then some (n : ℤ) else none) = .ok (some z) ∧
      ∀ b < B, ∃ y p l : ℝ, out.get [b] = some (y : EReal) ∧ psis.product.get [b] = some p ∧ psis.logScale.get [b] = some l ∧
        |y - Real.log (psi m (.ints t) n d D b ^ 2 / modelZ m n d D)| ≤
          -2 * Real.log (1 - ampErr γ u μ S n) - Real.log (1 - normErr u μ τ S n (modelZ m n d D)) + ν * (2 * abs (Real.log |p|) + 2 * |l| + |z|) := by
  obtain ⟨out, psis, z, h1, h2, h3, h4, h5⟩ := C91_log_prob ac m n hN hn hm hb t B hx slim par
    (by
      intro k h1 h2
      rw [prefixMass_abs hpos k h2]
      have : 0 < prefixMass m d D k := lt_of_le_of_ne (prefixMass_nonneg m k) fun h => hZ.ne' (modelZ_of_prefix m hb n k h2 h.symm)
      nlinarith) hZ
    (by rw [modelZ_abs hpos]; nlinarith)
    (by
      intro b hb'
      rw [psi_abs_of_nonneg hpos hb t B hx b hb', abs_of_pos (hψ b hb')]
      have := hψ b hb'
      nlinarith)
  refine ⟨out, psis, z, h1, h2, h3, h4, ?_⟩
  intro b hb'
  obtain ⟨y, p, l, k1, k2, k3, k4⟩ := h5 b hb'
  refine ⟨y, p, l, k1, k2, k3, ?_⟩
  rw [modelZ_abs hpos, psi_abs_of_nonneg hpos hb t B hx b hb', abs_of_pos (hψ b hb'), mul_div_assoc, mul_div_assoc, div_self hZ.ne', div_self (hψ b hb').ne', mul_one,
    mul_one] at k4
  exact k4

end TorchMPS
