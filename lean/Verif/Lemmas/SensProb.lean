import Verif.Spec.SensProb
import Verif.Lemmas.Sens
import Verif.Props.ProbMps
import Mathlib.Analysis.InnerProductSpace.PiL2
/-
Amplitudes as polynomials with natural coefficients, and the distance between the distributions of two amplitude tensors.
-/
namespace TorchMPS
open Spec
variable {K R R' : Type}

theorem amplitude_mem [CommRing R] (S : Subsemiring R) {D : ℕ} (l r : Fin D → R) (Ms : List (Matrix (Fin D) (Fin D) R)) (hl : ∀ i, l i ∈ S) (hr : ∀ i, r i ∈ S)
    (hM : ∀ M ∈ Ms, ∀ i j, M i j ∈ S) : amplitude l r Ms ∈ S := by
  have hp : ∀ i j, Ms.prod i j ∈ S := by
    induction Ms with
    | nil =>
      intro i j
      rw [List.prod_nil, Matrix.one_apply]
      split
      · exact S.one_mem
      · exact S.zero_mem
    | cons M Ms ih =>
      intro i j
      rw [List.prod_cons, Matrix.mul_apply]
      exact S.sum_mem fun k _ => S.mul_mem (hM M (by simp) i k) (ih (fun N hN => hM N (by simp [hN])) k j)
  simp only [amplitude, dotProduct, Matrix.mulVec]
  exact S.sum_mem fun i _ => S.mul_mem (hl i) (S.sum_mem fun j _ => S.mul_mem (hp i j) (hr j))

theorem amplitude_mapHom [CommRing R] [CommRing R'] (f : R →+* R') {D : ℕ} (l r : Fin D → R) (Ms : List (Matrix (Fin D) (Fin D) R)) :
    f (amplitude l r Ms) = amplitude (fun i => f (l i)) (fun i => f (r i)) (Ms.map fun M => M.map f) := by
  have hp : (Ms.prod).map f = (Ms.map fun M => M.map f).prod := by
    induction Ms with
    | nil =>
      simp only [List.prod_nil, List.map_nil]
      exact Matrix.map_one f (map_zero f) (map_one f)
    | cons M Ms ih => rw [List.prod_cons, List.map_cons, List.prod_cons, ← ih, Matrix.map_mul]
  unfold amplitude
  rw [← hp]
  simp only [dotProduct, Matrix.mulVec, map_sum, map_mul, Matrix.map_apply]

/-- changed amplitude -/
theorem amplitude_near [RCLike K] {D n : ℕ} (l l' r r' : Fin D → K) (lv lw rv rw' : Fin D → ℝ) (M M' : Fin n → Matrix (Fin D) (Fin D) K) (V W : Fin n → Matrix (Fin D) (Fin D) ℝ)
    (hl : ∀ i, ‖l i‖ ≤ lv i ∧ ‖l' i - l i‖ ≤ lw i - lv i) (hr : ∀ i, ‖r i‖ ≤ rv i ∧ ‖r' i - r i‖ ≤ rw' i - rv i)
    (hM : ∀ s i j, ‖M s i j‖ ≤ V s i j ∧ ‖M' s i j - M s i j‖ ≤ W s i j - V s i j) :
    ‖amplitude l' r' (List.ofFn M') - amplitude l r (List.ofFn M)‖ ≤ amplitude lw rw' (List.ofFn W) - amplitude lv rv (List.ofFn V) := by
  let L : Fin D → Quad K := fun i => (l i, l' i, lv i, lw i)
  let Rr : Fin D → Quad K := fun i => (r i, r' i, rv i, rw' i)
  let Q : Fin n → Matrix (Fin D) (Fin D) (Quad K) := fun s => Matrix.of fun i j => (M s i j, M' s i j, V s i j, W s i j)
  have := (amplitude_mem (nearS K) L Rr (List.ofFn Q) hl hr (by
    intro N hN i j
    obtain ⟨s, rfl⟩ := (List.mem_ofFn' Q N).1 hN
    exact hM s i j)).2
  have t1 : (amplitude L Rr (List.ofFn Q)).1 = amplitude l r (List.ofFn M) := by
    refine (amplitude_mapHom (RingHom.fst K (K × ℝ × ℝ)) L Rr (List.ofFn Q)).trans ?_
    rw [List.map_ofFn]
    rfl
  have t2 : (amplitude L Rr (List.ofFn Q)).2.1 = amplitude l' r' (List.ofFn M') := by
    refine (amplitude_mapHom ((RingHom.fst K (ℝ × ℝ)).comp (RingHom.snd K (K × ℝ × ℝ))) L Rr (List.ofFn Q)).trans ?_
    rw [List.map_ofFn]
    rfl
  have t3 : (amplitude L Rr (List.ofFn Q)).2.2.1 = amplitude lv rv (List.ofFn V) := by
    refine (amplitude_mapHom (((RingHom.fst ℝ ℝ).comp (RingHom.snd K (ℝ × ℝ))).comp (RingHom.snd K (K × ℝ × ℝ))) L Rr (List.ofFn Q)).trans ?_
    rw [List.map_ofFn]
    rfl
  have t4 : (amplitude L Rr (List.ofFn Q)).2.2.2 = amplitude lw rw' (List.ofFn W) := by
    refine (amplitude_mapHom (((RingHom.snd ℝ ℝ).comp (RingHom.snd K (ℝ × ℝ))).comp (RingHom.snd K (K × ℝ × ℝ))) L Rr (List.ofFn Q)).trans ?_
    rw [List.map_ofFn]
    rfl
  rw [t1, t2, t3, t4] at this
  exact this

/-- pairs of nonnegative numbers in order -/
def leS : Subsemiring (ℝ × ℝ) where
  carrier := {z | 0 ≤ z.1 ∧ z.1 ≤ z.2}
  zero_mem' := by simp
  one_mem' := by simp
  add_mem' := by
    rintro a b ⟨a1, a2⟩ ⟨b1, b2⟩
    exact ⟨add_nonneg a1 b1, add_le_add a2 b2⟩
  mul_mem' := by
    rintro a b ⟨a1, a2⟩ ⟨b1, b2⟩
    exact ⟨mul_nonneg a1 b1, mul_le_mul a2 b2 b1 (le_trans a1 a2)⟩

theorem amplitude_mono {D n : ℕ} (l l' r r' : Fin D → ℝ) (M M' : Fin n → Matrix (Fin D) (Fin D) ℝ) (hl : ∀ i, 0 ≤ l i ∧ l i ≤ l' i) (hr : ∀ i, 0 ≤ r i ∧ r i ≤ r' i)
    (hM : ∀ s i j, 0 ≤ M s i j ∧ M s i j ≤ M' s i j) : 0 ≤ amplitude l r (List.ofFn M) ∧ amplitude l r (List.ofFn M) ≤ amplitude l' r' (List.ofFn M') := by
  let L : Fin D → ℝ × ℝ := fun i => (l i, l' i)
  let Rr : Fin D → ℝ × ℝ := fun i => (r i, r' i)
  let Q : Fin n → Matrix (Fin D) (Fin D) (ℝ × ℝ) := fun s => Matrix.of fun i j => (M s i j, M' s i j)
  have := amplitude_mem leS L Rr (List.ofFn Q) hl hr (by
    intro N hN i j
    obtain ⟨s, rfl⟩ := (List.mem_ofFn' Q N).1 hN
    exact hM s i j)
  have t1 : (amplitude L Rr (List.ofFn Q)).1 = amplitude l r (List.ofFn M) := by
    refine (amplitude_mapHom (RingHom.fst ℝ ℝ) L Rr (List.ofFn Q)).trans ?_
    rw [List.map_ofFn]
    rfl
  have t2 : (amplitude L Rr (List.ofFn Q)).2 = amplitude l' r' (List.ofFn M') := by
    refine (amplitude_mapHom (RingHom.snd ℝ ℝ) L Rr (List.ofFn Q)).trans ?_
    rw [List.map_ofFn]
    rfl
  rw [← t1, ← t2]
  exact this

theorem amplitude_scaled [CommRing R] {D n : ℕ} (c : R) (l r : Fin D → R) (M : Fin n → Matrix (Fin D) (Fin D) R) :
    amplitude (fun i => c * l i) (fun i => c * r i) (List.ofFn fun s => c • M s) = c ^ (n + 2) * amplitude l r (List.ofFn M) := by
  have hp : (List.ofFn fun s => c • M s).prod = c ^ n • (List.ofFn M).prod := by
    induction n with
    | zero => simp
    | succ n ih =>
      rw [List.ofFn_succ, List.ofFn_succ, List.prod_cons, List.prod_cons, ih (fun s => M s.succ)]
      rw [smul_mul_assoc, mul_smul_comm, smul_smul, pow_succ, mul_comm]
  unfold amplitude
  rw [hp]
  have e1 : (fun i => c * l i) = c • l := rfl
  have e2 : (fun i => c * r i) = c • r := rfl
  rw [e1, e2, Matrix.smul_mulVec, Matrix.mulVec_smul, smul_dotProduct, dotProduct_smul, dotProduct_smul]
  simp only [smul_eq_mul]
  ring

/-- The distributions of two amplitude tensors. -/
theorem distributions_near {X : Type} [Fintype X] [RCLike K] (a b : X → K) (A B : ℝ) (hA : A = ∑ x, ‖a x‖ ^ 2) (hB : B = ∑ x, ‖b x‖ ^ 2) (hA0 : 0 < A) (hB0 : 0 < B) (c : X → ℝ)
    (hc : ∀ x, ‖b x - a x‖ ≤ c x) : ∑ x, |‖b x‖ ^ 2 / B - ‖a x‖ ^ 2 / A| ≤ 4 * Real.sqrt (∑ x, c x ^ 2) / Real.sqrt A := by
  let U : EuclideanSpace ℝ X := WithLp.toLp 2 fun x => ‖a x‖
  let V : EuclideanSpace ℝ X := WithLp.toLp 2 fun x => ‖b x‖
  have nU : ‖U‖ = Real.sqrt A := by rw [EuclideanSpace.norm_eq, hA]; simp [U]
  have nV : ‖V‖ = Real.sqrt B := by rw [EuclideanSpace.norm_eq, hB]; simp [V]
  have hU : 0 < ‖U‖ := by rw [nU]; exact Real.sqrt_pos.2 hA0
  have hV : 0 < ‖V‖ := by rw [nV]; exact Real.sqrt_pos.2 hB0
  have nd : ‖V - U‖ ≤ Real.sqrt (∑ x, c x ^ 2) := by
    rw [EuclideanSpace.norm_eq]
    refine Real.sqrt_le_sqrt (Finset.sum_le_sum fun x _ => ?_)
    have h1 : ‖(V - U) x‖ ≤ c x := le_trans (abs_norm_sub_norm_le _ _) (hc x)
    exact pow_le_pow_left₀ (norm_nonneg _) h1 2
  set P : EuclideanSpace ℝ X := ‖V‖⁻¹ • V - ‖U‖⁻¹ • U with hP
  set Q : EuclideanSpace ℝ X := ‖V‖⁻¹ • V + ‖U‖⁻¹ • U with hQ
  have n1 : ‖‖V‖⁻¹ • V‖ = 1 := by rw [norm_smul, norm_inv, norm_norm, inv_mul_cancel₀ hV.ne']
  have n2 : ‖‖U‖⁻¹ • U‖ = 1 := by rw [norm_smul, norm_inv, norm_norm, inv_mul_cancel₀ hU.ne']
  have nQ : ‖Q‖ ≤ 2 := by
    refine le_trans (norm_add_le _ _) ?_
    rw [n1, n2]
    norm_num
  have nP : ‖P‖ ≤ 2 * Real.sqrt (∑ x, c x ^ 2) / Real.sqrt A := by
    have e : P = (‖V‖⁻¹ - ‖U‖⁻¹) • V + ‖U‖⁻¹ • (V - U) := by
      rw [hP, sub_smul, smul_sub]
      abel
    have k1 : ‖(‖V‖⁻¹ - ‖U‖⁻¹) • V‖ = |‖U‖ - ‖V‖| / ‖U‖ := by
      rw [norm_smul, Real.norm_eq_abs]
      have : ‖V‖⁻¹ - ‖U‖⁻¹ = (‖U‖ - ‖V‖) / (‖V‖ * ‖U‖) := by field_simp
      rw [this, abs_div, abs_of_pos (mul_pos hV hU)]
      field_simp
    have k2 : ‖‖U‖⁻¹ • (V - U)‖ = ‖V - U‖ / ‖U‖ := by
      rw [norm_smul, norm_inv, norm_norm]
      field_simp
    have k3 : |‖U‖ - ‖V‖| ≤ ‖V - U‖ := by
      rw [abs_sub_comm]
      exact abs_norm_sub_norm_le _ _
    rw [e]
    refine le_trans (norm_add_le _ _) ?_
    rw [k1, k2, ← add_div, ← nU]
    gcongr
    linarith
  have cs : ∑ x, |P x| * |Q x| ≤ ‖P‖ * ‖Q‖ := by
    have h := Real.sum_mul_le_sqrt_mul_sqrt Finset.univ (fun x => |P x|) (fun x => |Q x|)
    rw [EuclideanSpace.norm_eq, EuclideanSpace.norm_eq]
    simpa using h
  have e : ∀ x, |‖b x‖ ^ 2 / B - ‖a x‖ ^ 2 / A| = |P x| * |Q x| := by
    intro x
    have hsA : Real.sqrt A ^ 2 = A := Real.sq_sqrt hA0.le
    have hsB : Real.sqrt B ^ 2 = B := Real.sq_sqrt hB0.le
    rw [← abs_mul]
    congr 1
    have p : P x = (Real.sqrt B)⁻¹ * ‖b x‖ - (Real.sqrt A)⁻¹ * ‖a x‖ := by rw [hP, nU, nV]; simp [U, V]
    have q : Q x = (Real.sqrt B)⁻¹ * ‖b x‖ + (Real.sqrt A)⁻¹ * ‖a x‖ := by rw [hQ, nU, nV]; simp [U, V]
    rw [p, q]
    have : ‖b x‖ ^ 2 / B - ‖a x‖ ^ 2 / A = (Real.sqrt B ^ 2)⁻¹ * ‖b x‖ ^ 2 - (Real.sqrt A ^ 2)⁻¹ * ‖a x‖ ^ 2 := by
      rw [hsA, hsB]
      ring
    rw [this]
    ring
  rw [Finset.sum_congr rfl fun x _ => e x]
  refine le_trans cs ?_
  have h1 : ‖P‖ * ‖Q‖ ≤ ‖P‖ * 2 := mul_le_mul_of_nonneg_left nQ (norm_nonneg _)
  refine le_trans h1 (le_trans (mul_le_mul_of_nonneg_right nP (by norm_num)) (le_of_eq ?_))
  ring

end TorchMPS
