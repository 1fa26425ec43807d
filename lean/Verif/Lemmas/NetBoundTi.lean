import Verif.Lemmas.NetBound
import Verif.Props.TiMps
/-
Error bounds of the rounded forward pass of TI_MPS.
-/
namespace TorchMPS
open Spec
variable {K : Type} [RCLike K]

section
variable {A : NetArith K} {S : ℕ} {γ u : ℝ} (ac : AccurateNet A S γ u)
include ac

theorem tiEmbedIfRaw_rounded (m : TiMps K) (x e : Tensor K) (h : m.embedIfRaw x = .ok e) :
    ∃ f, A.tiEmbedIfRaw m x = .ok f ∧ f.shape = e.shape ∧ ∀ idx, ‖f.get idx - e.get idx‖ ≤ u * ‖e.get idx‖ := by
  have same : ∀ t : Tensor K, t.shape = t.shape ∧ ∀ idx, ‖t.get idx - t.get idx‖ ≤ u * ‖t.get idx‖ := by
    refine fun t => ⟨rfl, fun idx => ?_⟩
    simp only [sub_self, norm_zero]
    exact mul_nonneg ac.unit (norm_nonneg _)
  unfold TiMps.embedIfRaw at h
  unfold NetArith.tiEmbedIfRaw
  split at h
  · rename_i h2
    rw [if_pos h2]
    unfold TiMps.embedInput at h
    unfold NetArith.tiEmbed
    obtain ⟨_, a1, h⟩ := bind_inv h
    rw [a1]
    simp only [bind_ok_except]
    cases hf : m.featureMap with
    | some φ =>
      rw [hf] at h
      exact ⟨e, h, same e⟩
    | none =>
      rw [hf] at h
      simp only at h ⊢
      split at h
      · cases h
      · rename_i h2
        cases h
        rw [if_neg h2]
        exact ⟨_, rfl, embedLinear_rounded ac x⟩
  · rename_i h2
    rw [if_neg h2]
    cases h
    exact ⟨_, rfl, same _⟩

theorem tiFormat_rounded (m : TiMps K) (inp : TiInput K) (e : Tensor K) (h : m.formatInput inp = .ok e) :
    ∃ f, A.tiFormat m inp = .ok f ∧ f.shape = e.shape ∧ ∀ idx, ‖f.get idx - e.get idx‖ ≤ u * ‖e.get idx‖ := by
  cases inp with
  | other => cases h
  | batch t =>
    simp only [TiMps.formatInput] at h
    simp only [NetArith.tiFormat]
    obtain ⟨e', h1, h⟩ := bind_inv h
    obtain ⟨_, h2, h⟩ := bind_inv h
    obtain ⟨_, h3, h⟩ := bind_inv h
    cases h
    obtain ⟨f, f1, f2, f3⟩ := tiEmbedIfRaw_rounded ac m t e h1
    refine ⟨f, ?_, f2, f3⟩
    unfold Tensor.ndim at h2 ⊢
    rw [f1, bind_ok_except, f2, h2, bind_ok_except, h3, bind_ok_except]
    rfl
  | list ts =>
    cases ts with
    | nil => cases h
    | cons t₀ tl =>
      simp only [TiMps.formatInput] at h
      simp only [NetArith.tiFormat]
      obtain ⟨_, h1, h⟩ := bind_inv h
      obtain ⟨_, h2, h⟩ := bind_inv h
      obtain ⟨_, h3, h⟩ := bind_inv h
      rw [h1, h2, h3]
      simp only [bind_ok_except]
      split at h
      · cases h
      · rename_i h4
        rw [if_neg h4]
        obtain ⟨b, h5, h⟩ := bind_inv h
        rw [h5]
        simp only [bind_ok_except]
        exact tiEmbedIfRaw_rounded ac m b e h

theorem ti_rounded (hS : 1 ≤ S) (m : TiMps K) (h : IsTi m) (zD : m.bondDim ≤ S) (zF : m.featureDim ≤ S) (zO : m.outputDim ≤ S) (inp : TiInput K) (e : Tensor K)
    (hf : m.formatInput inp = .ok e) (B n : ℕ) (hx : e.shape = [B, n, m.featureDim]) (hn : 1 ≤ n) (g : Option ℕ) :
    ∃ y, A.tiForward m inp g = (.ok y, some B) ∧ y.shape = [B, m.outputDim] ∧ ∀ b < B, ∀ o < m.outputDim,
      ‖y.get [b, o] - tiValue m n (seqOf e b) o‖ ≤ ((1 + γ) ^ (2 * n + 1) * (1 + u) ^ (2 * n) - 1) * tiValue (absTi m) n (seqOf (absT e) b) o := by
  have g0 := ac.gamma
  have u0 := ac.unit
  set θ : ℝ := (1 + γ) ^ 2 * (1 + u) ^ 2 with hθ
  have hθ0 : 0 < θ := by positivity
  have hw0 : 0 < 1 + γ := by positivity
  have hθ' : 1 ≤ θ⁻¹ * θ := by rw [inv_mul_cancel₀ hθ0.ne']
  have hw' : 1 ≤ (1 + γ)⁻¹ * (1 + γ) := by rw [inv_mul_cancel₀ hw0.ne']
  have hq : (1 + γ)⁻¹ * (1 + γ)⁻¹ * (1 + γ) = (1 + γ)⁻¹ := by
    have : (1 + γ) ≠ 0 := by positivity
    field_simp
  obtain ⟨f, f1, f2, f3⟩ := tiFormat_rounded ac m inp e hf
  have hfr := tri_input f e f2 f3
  have hT : IsTi (triTi θ (1 + γ) m) := by
    refine ⟨h.core, h.initVec, h.termMat, ?_, by simp [triTi]⟩
    intro hb
    obtain ⟨b, b1, b2⟩ := h.bias hb
    exact ⟨triT θ b, by simp [triTi, b1], b2⟩
  have hform : (triTi θ (1 + γ) m).formatInput (.batch (triT 1 e)) = .ok (triT 1 e) := by
    have e3 : (triT 1 e : Tensor (Tri K)).ndim = 3 := by simp [Tensor.ndim, triT, hx]
    rw [ti_format_batch, embedIfRaw_not _ _ (by rw [e3]; decide), bind_ok_except, assert_true _ e3, bind_ok_except, assert_true _ (by simp [triT, triTi, hx]), bind_ok_except]
    rfl
  obtain ⟨y', y1, y2, y3⟩ := ti_forward (triTi θ (1 + γ) m) hT (.batch (triT 1 e)) (triT 1 e) hform B n hx hn g
  have hrel : RelM (TR (1 + γ)⁻¹) (A.tiForward m inp) ((triTi θ (1 + γ) m).forward (.batch (triT 1 e))) := by
    unfold NetArith.tiForward TiMps.forward
    rw [f1, hform]
    refine rel_lift_bind (Q := fun a b => a = f ∧ b = triT 1 e) (.ok _ _ ⟨rfl, rfl⟩) ?_
    rintro fa eb _ _ ⟨hfa, heb⟩
    rw [hfa, heb]
    unfold NetArith.tiRun
    rw [hfr.1]
    have hcore : ExRel (fun c c' => TR θ⁻¹ c c' ∧ c.shape = [f.shape.getD 1 0, m.bondDim, m.bondDim, m.featureDim])
        ((m.core.unsqueeze 0).expand [f.shape.getD 1 0, m.bondDim, m.bondDim, m.featureDim])
        (((triT θ m.core : Tensor (Tri K)).unsqueeze 0).expand [f.shape.getD 1 0, m.bondDim, m.bondDim, m.featureDim]) := by
      have hc := (((triT_rel hθ' m.core).unsqueeze 0).expand [f.shape.getD 1 0, m.bondDim, m.bondDim, m.featureDim])
      revert hc
      unfold Tensor.expand
      split
      · rename_i h1
        split
        · intro hc
          cases hc with
          | ok _ _ hc => exact .ok _ _ ⟨hc, rfl⟩
        · intro hc
          cases hc
      · split
        · intro hc; cases hc
        · intro hc
          exact .error _
    refine rel_lift_bind hcore ?_
    rintro core core' _ _ ⟨hc1, hc2⟩
    have hmk : ExRel (RelMod θ (1 + γ)⁻¹ m.bondDim m.featureDim m.outputDim) (mkInputRegion core m.useBias m.biasMat)
        (mkInputRegion core' m.useBias (m.biasMat.map (triT θ))) := by
      unfold mkInputRegion Tensor.ndim
      rw [hc1.1]
      refine ExRel.same _ fun _ _ => ExRel.same _ fun _ _ => ?_
      by_cases hb : m.useBias = true
      · obtain ⟨b, b1, b2⟩ := h.bias hb
        rw [if_pos hb, if_pos hb, b1]
        unfold regionBias
        have n1 : b.ndim = 2 := by simp [Tensor.ndim, b2]
        have n2 : (triT θ b : Tensor (Tri K)).ndim = 2 := n1
        simp only [Option.getD_some, Option.map_some, n1, n2, if_true]
        exact .ok _ _ (.region _ _ _ _ _ hc1 hc2 ((triT_rel hθ' b).unsqueeze 0))
      · rw [if_neg hb, if_neg hb]
        exact .ok _ _ (.region _ _ _ _ _ hc1 hc2 trivial)
    refine rel_lift_bind hmk ?_
    intro r r' _ _ hr
    have hmod : RelM (RelC (1 + γ)⁻¹ S) (A.moduleForward r f) (r'.forward (triT 1 e)) := by
      cases hr with
      | region n t t' bias bias' ht hsh hb => exact rel_inputRegion ac hS θ hθ _ _ n zD zF t t' ht hsh bias bias' hb _ _ hfr
      | output t t' ht hsh => exact rel_outputSite _ _ zO zD t t' ht hsh _ _
    refine rel_bind hmod fun c c' hc => ?_
    refine rel_bind (rel_mkEdgeVec1 _ _ (triT_rel hw' m.initVec) true (by rw [h.initVec]; rfl) (by rw [h.initVec]; simpa using zD)) fun v v' hv => ?_
    refine rel_bind (rel_mkOutputMat2 _ _ (triT_rel hw' m.termMat) false (by rw [h.termMat]; rfl) (by rw [h.termMat]; simpa using ⟨zD, zO⟩)) fun t t' ht => ?_
    refine rel_bind (rel_reduceList ac hS hq _ _ _ (.cons hv (.cons hc (.cons ht .nil)))) ?_
    rintro o ⟨o', l⟩ ho
    simp only at ho ⊢
    rw [ho.str, ho.rel.1]
    exact rel_same _ fun _ _ => rel_same _ fun _ _ => rel_same _ fun _ _ => rel_pure ho.rel
  obtain ⟨r1, r2⟩ := hrel g
  rw [y1] at r1 r2
  cases hc : A.tiForward m inp g with
  | mk res g1 =>
  rw [hc] at r1 r2
  simp only at r1 r2
  subst r1
  cases r2 with
  | ok y _ hy =>
    refine ⟨y, rfl, by rw [← hy.1]; exact y2, ?_⟩
    intro b hb o ho
    have h1 := hy.2 [b, o]
    rw [y3 b hb o ho, tiValue_tri] at h1
    have h2 := h1.2
    simp only at h2
    refine le_trans h2 (le_of_eq ?_)
    have : (1 + γ)⁻¹ * ((1 + γ) * (1 + γ) * θ ^ n * tiValue (absTi m) n (seqOf (absT e) b) o) =
        (1 + γ) * θ ^ n * tiValue (absTi m) n (seqOf (absT e) b) o := by
      field_simp
    rw [this, hθ, mul_pow, ← pow_mul, ← pow_mul]
    ring

end
end TorchMPS
