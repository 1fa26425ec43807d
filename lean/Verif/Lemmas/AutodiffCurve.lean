import Verif.Lemmas.Autodiff
import Mathlib.Analysis.SpecialFunctions.Log.Deriv
import Mathlib.Analysis.Calculus.Deriv.Comp
/-
Curves of matrices and their jets.
-/
namespace TorchMPS
open Spec
variable {K : Type} [RCLike K]

/-! ### numbers -/

theorem Spec.Follows.mul {f g : ℝ → K} {a b : DualNumber K} {t₀ : ℝ} (hf : Follows f a t₀) (hg : Follows g b t₀) : Follows (fun t => f t * g t) (a * b) t₀ := by
  refine ⟨?_, ?_⟩
  · rw [TrivSqZeroExt.fst_mul, ← hf.1, ← hg.1]
  · rw [DualNumber.snd_mul, ← hf.1, ← hg.1, add_comm]
    exact hf.2.mul hg.2

theorem Spec.Follows.add {f g : ℝ → K} {a b : DualNumber K} {t₀ : ℝ} (hf : Follows f a t₀) (hg : Follows g b t₀) : Follows (fun t => f t + g t) (a + b) t₀ := by
  refine ⟨?_, ?_⟩
  · rw [TrivSqZeroExt.fst_add, ← hf.1, ← hg.1]
  · rw [TrivSqZeroExt.snd_add]
    exact hf.2.add hg.2

theorem follows_zero (t₀ : ℝ) : Follows (fun _ => (0 : K)) 0 t₀ := ⟨rfl, hasDerivAt_const t₀ 0⟩

theorem Spec.Follows.sum {ι : Type} (s : Finset ι) {f : ι → ℝ → K} {a : ι → DualNumber K} {t₀ : ℝ} (h : ∀ i ∈ s, Follows (f i) (a i) t₀) :
    Follows (fun t => ∑ i ∈ s, f i t) (∑ i ∈ s, a i) t₀ := by
  classical
  induction s using Finset.induction_on with
  | empty => simpa using follows_zero t₀
  | insert i s hi ih =>
    simp only [Finset.sum_insert hi]
    exact (h i (Finset.mem_insert_self i s)).add (ih (fun j hj => h j (Finset.mem_insert_of_mem hj)))

theorem Spec.Follows.unique {f : ℝ → K} {a b : DualNumber K} {t₀ : ℝ} (ha : Follows f a t₀) (hb : Follows f b t₀) : a = b :=
  dual_ext (ha.1.symm.trans hb.1) (ha.2.unique hb.2)

/-- the derivative of `log ‖X‖` -/
theorem hasDerivAt_logNorm {f : ℝ → K} {f' : K} {t₀ : ℝ} (h : HasDerivAt f f' t₀) (h0 : f t₀ ≠ 0) :
    HasDerivAt (fun t => Real.log ‖f t‖) (RCLike.re (star (f t₀) * f') / ‖f t₀‖ ^ 2) t₀ := by
  have h1 : HasDerivAt (fun t => RCLike.re (f t)) (RCLike.re f') t₀ := (RCLike.reCLM (K := K)).hasFDerivAt.comp_hasDerivAt t₀ h
  have h2 : HasDerivAt (fun t => RCLike.im (f t)) (RCLike.im f') t₀ := (RCLike.imCLM (K := K)).hasFDerivAt.comp_hasDerivAt t₀ h
  have h3 := (h1.mul h1).add (h2.mul h2)
  have e : ∀ z : K, RCLike.re z * RCLike.re z + RCLike.im z * RCLike.im z = ‖z‖ ^ 2 := fun z => by
    rw [← RCLike.normSq_eq_def', RCLike.normSq_apply]
  have hpos : ‖f t₀‖ ^ 2 ≠ 0 := pow_ne_zero _ (norm_ne_zero_iff.2 h0)
  have h4 : HasDerivAt (fun t => ‖f t‖ ^ 2) (RCLike.re f' * RCLike.re (f t₀) + RCLike.re (f t₀) * RCLike.re f' +
      (RCLike.im f' * RCLike.im (f t₀) + RCLike.im (f t₀) * RCLike.im f')) t₀ := by
    refine h3.congr_of_eventuallyEq (Filter.Eventually.of_forall (fun t => ?_))
    exact (e (f t)).symm
  have h5 := (h4.log hpos).div_const 2
  have e2 : ∀ t, Real.log (‖f t‖ ^ 2) / 2 = Real.log ‖f t‖ := fun t => by rw [Real.log_pow]; push_cast; ring
  simp only [e2] at h5
  refine h5.congr_deriv ?_
  have : RCLike.re (star (f t₀) * f') = RCLike.re (f t₀) * RCLike.re f' + RCLike.im (f t₀) * RCLike.im f' := by
    rw [RCLike.star_def, RCLike.mul_re, RCLike.conj_re, RCLike.conj_im]
    ring
  rw [this]
  ring

/-! ### matrices -/

theorem Spec.MatFollows.mul {f g : ℝ → Mat K} {A B : Mat (DualNumber K)} {t₀ : ℝ} (hf : MatFollows f A t₀) (hg : MatFollows g B t₀) (hc : A.c = B.r) :
    MatFollows (fun t => (f t).mul (g t)) (A.mul B) t₀ := by
  refine ⟨fun t => ⟨(hf.1 t).1, (hg.1 t).2⟩, ?_⟩
  intro i hi j hj
  have hi : i < A.r := hi
  have hj : j < B.c := hj
  have : (fun t => ((f t).mul (g t)).e i j) = fun t => ∑ k ∈ Finset.range A.c, (f t).e i k * (g t).e k j := by
    funext t
    show ∑ k ∈ Finset.range (f t).c, _ = _
    rw [(hf.1 t).2]
  rw [this]
  exact Follows.sum _ (fun k hk => (hf.2 i hi k (Finset.mem_range.1 hk)).mul (hg.2 k (hc ▸ Finset.mem_range.1 hk) j hj))

theorem matFollows_matProd (fs : List (ℝ → Mat K)) : ∀ (ds : List (Mat (DualNumber K))) (t₀ : ℝ) (f : ℝ → Mat K) (d : Mat (DualNumber K)), MatFollows f d t₀ →
    List.Forall₂ (fun f d => MatFollows f d t₀) fs ds → ChainOK (d :: ds) → MatFollows (fun t => matProd (f t) (fs.map (· t))) (matProd d ds) t₀ := by
  induction fs with
  | nil =>
    intro ds t₀ f d h h2 _
    cases h2
    exact h
  | cons g fs ih =>
    intro ds t₀ f d h h2 hc
    cases h2 with
    | cons h3 h4 =>
      rename_i e es
      simp only [List.map_cons, matProd_cons]
      refine ih es t₀ (fun t => (f t).mul (g t)) (d.mul e) (h.mul h3 hc.1) h4 ?_
      have := hc.2
      cases es with
      | nil => trivial
      | cons a es => exact ⟨this.1, this.2⟩

/-! ### the product rule -/

theorem mul_primal (A B : Mat (DualNumber K)) : (A.mul B).primal = A.primal.mul B.primal := (dualOps_sim (fun _ => 0)).mm A B

theorem matProd_primal (m : Mat (DualNumber K)) (ms : List (Mat (DualNumber K))) : (matProd m ms).primal = matProd m.primal (ms.map Mat.primal) := by
  induction ms generalizing m with
  | nil => rfl
  | cons a ms ih => rw [matProd_cons, ih, mul_primal, List.map_cons, matProd_cons]

theorem leibniz_length : ∀ (ms : List (Mat (DualNumber K))), ∀ l ∈ leibniz ms, l.length = ms.length := by
  intro ms
  induction ms with
  | nil => intro l hl; cases hl
  | cons m ms ih =>
    intro l hl
    rcases List.mem_cons.1 hl with rfl | hl
    · simp
    · obtain ⟨l', hl', rfl⟩ := List.mem_map.1 hl
      simp [ih l' hl']

theorem list_sum_finset {ι : Type} {α : Type} (s : Finset ι) (L : List α) (F : α → ι → K) : (L.map (fun a => ∑ k ∈ s, F a k)).sum = ∑ k ∈ s, (L.map (fun a => F a k)).sum := by
  induction L with
  | nil => simp
  | cons a L ih => simp [ih, Finset.sum_add_distrib]

theorem matProd_head (l : List (Mat K)) (m b : Mat K) : (matProd m (b :: l)) = m.mul (matProd b l) := by rw [matProd_cons, matProd_mul]

theorem list_sum_mul_left {α : Type} (L : List α) (c : K) (F : α → K) : (L.map (fun a => c * F a)).sum = c * (L.map F).sum := by
  induction L with
  | nil => simp
  | cons a L ih => simp [ih, mul_add]

/-- the tangent of a product of matrices is the sum of the products with one tangent -/
theorem matProd_tangent : ∀ (ms : List (Mat (DualNumber K))) (m : Mat (DualNumber K)) (i j : ℕ), ((matProd m ms).e i j).snd = leibnizEntry (m :: ms) i j := by
  intro ms
  induction ms with
  | nil =>
    intro m i j
    simp [leibnizEntry, leibniz, prodEntry, matProd, tangentMat, Mat.map]
  | cons a ms ih =>
    intro m i j
    rw [matProd_cons, ← matProd_mul]
    have e1 : ((m.mul (matProd a ms)).e i j).snd = ∑ k ∈ Finset.range m.c, ((m.e i k).fst * ((matProd a ms).e k j).snd + (m.e i k).snd * ((matProd a ms).e k j).fst) := by
      show (∑ k ∈ Finset.range m.c, m.e i k * (matProd a ms).e k j).snd = _
      rw [TrivSqZeroExt.snd_sum]
      exact Finset.sum_congr rfl (fun k _ => DualNumber.snd_mul _ _)
    rw [e1, Finset.sum_add_distrib]
    unfold leibnizEntry
    rw [leibniz, List.map_cons, List.sum_cons, List.map_map, add_comm]
    congr 1
    · simp only [List.map_cons, prodEntry]
      rw [matProd_head, ← matProd_primal]
      rfl
    · have : ∀ l ∈ leibniz (a :: ms), ((fun l => prodEntry l i j) ∘ fun x => m.primal :: x) l = ∑ k ∈ Finset.range m.c, (m.e i k).fst * prodEntry l k j := by
        intro l hl
        have := leibniz_length _ l hl
        obtain _ | ⟨b, l⟩ := l
        · simp at this
        · show (matProd m.primal (b :: l)).e i j = _
          rw [matProd_head]
          rfl
      rw [List.map_congr_left this, list_sum_finset]
      refine Finset.sum_congr rfl (fun k _ => ?_)
      rw [list_sum_mul_left, ih]
      rfl

end TorchMPS
