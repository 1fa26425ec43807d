import Verif.Lemmas.NetValue
import Verif.Props.Mps
/-
Error bounds of the rounded forward passes.
-/
namespace TorchMPS
open Spec
variable {K : Type} [RCLike K]

theorem tri_input {u : ℝ} (f e : Tensor K) (hs : f.shape = e.shape) (h : ∀ idx, ‖f.get idx - e.get idx‖ ≤ u * ‖e.get idx‖) : TR (1 + u) f (triT 1 e) := by
  refine ⟨hs.symm, fun idx => ⟨le_refl _, ?_⟩⟩
  simp only [triT]
  have := h idx
  linarith

section
variable {A : NetArith K} {S : ℕ} {γ u : ℝ} (ac : AccurateNet A S γ u)
include ac

theorem embedLinear_rounded (x : Tensor K) :
    (A.embedLinear x).shape = (embedLinear x).shape ∧ ∀ idx, ‖(A.embedLinear x).get idx - (embedLinear x).get idx‖ ≤ u * ‖(embedLinear x).get idx‖ := by
  refine ⟨rfl, fun idx => ?_⟩
  simp only [NetArith.embedLinear, embedLinear]
  split
  · simp only [sub_self, norm_zero]
    exact mul_nonneg ac.unit (norm_nonneg _)
  · exact ac.compl _ _

theorem mpsEmbed_rounded (m : MPS K) (x e : Tensor K) (h : m.embedInput x = .ok e) :
    ∃ f, A.mpsEmbed m x = .ok f ∧ f.shape = e.shape ∧ ∀ idx, ‖f.get idx - e.get idx‖ ≤ u * ‖e.get idx‖ := by
  have same : ∀ t : Tensor K, t.shape = t.shape ∧ ∀ idx, ‖t.get idx - t.get idx‖ ≤ u * ‖t.get idx‖ := by
    refine fun t => ⟨rfl, fun idx => ?_⟩
    simp only [sub_self, norm_zero]
    exact mul_nonneg ac.unit (norm_nonneg _)
  unfold MPS.embedInput at h
  unfold NetArith.mpsEmbed
  obtain ⟨_, a1, h⟩ := bind_inv h
  obtain ⟨_, a2, h⟩ := bind_inv h
  rw [a1, a2]
  simp only [bind_ok_except]
  by_cases h3 : x.ndim = 3
  · rw [if_pos h3] at h ⊢
    exact ⟨e, h, same e⟩
  · rw [if_neg h3] at h ⊢
    cases hf : m.featureMap with
    | some φ =>
      rw [hf] at h
      exact ⟨e, h, same e⟩
    | none =>
      rw [hf] at h
      simp only at h ⊢
      split at h
      · cases h
      · rename_i h2
        cases h
        rw [if_neg h2]
        exact ⟨_, rfl, embedLinear_rounded ac x⟩

end

/-- an MPS as triples -/
noncomputable def triMps (θ w : ℝ) (k : ℕ) (ub : Bool) (p : Params K) (m : MPS K) : MPS (Tri K) :=
  ⟨m.inputDim, m.outputDim, m.bondDim, m.featureDim, m.periodic, m.parallel, none, none,
    (if k = 0 then [] else [.inputRegion (triT θ p.left) (if ub then some (triT θ p.leftBias) else none)]) ++
    .outputSite (triT w p.out) ::
    (if k = m.inputDim then [] else [.inputRegion (triT θ p.right) (if ub then some (triT θ p.rightBias) else none)])⟩

theorem triMps_isMps (θ w : ℝ) (k : ℕ) (ub : Bool) (p : Params K) (m : MPS K) (h : IsMps k ub p m) : IsMps k ub (triParams θ w p) (triMps θ w k ub p m) :=
  ⟨h.label, rfl, h.left, h.leftBias, h.out, h.right, h.rightBias⟩

theorem triMps_modules (θ w : ℝ) (hθ : 0 < θ) (hw : 0 < w) (k : ℕ) (ub : Bool) (p : Params K) (m : MPS K) (h : IsMps k ub p m) :
    List.Forall₂ (RelMod θ w⁻¹ m.bondDim m.featureDim m.outputDim) m.modules (triMps θ w k ub p m).modules := by
  have hθ' : 1 ≤ θ⁻¹ * θ := by rw [inv_mul_cancel₀ hθ.ne']
  have hw' : 1 ≤ w⁻¹ * w := by rw [inv_mul_cancel₀ hw.ne']
  have hb : ∀ b : Tensor K, RelBias θ⁻¹ (if ub then some b else none) (if ub then some (triT θ b) else none) := by
    intro b
    cases ub with
    | false => trivial
    | true => exact triT_rel hθ' b
  rw [h.modules]
  refine List.rel_append ?_ (.cons (.output _ _ (triT_rel hw' _) h.out) ?_)
  · split
    · exact .nil
    · exact .cons (.region k _ _ _ _ (triT_rel hθ' _) h.left (hb _)) .nil
  · split
    · exact .nil
    · exact .cons (.region (m.inputDim - k) _ _ _ _ (triT_rel hθ' _) h.right (hb _)) .nil

section
variable {A : NetArith K} {S : ℕ} {γ u : ℝ} (ac : AccurateNet A S γ u) (hS : 1 ≤ S)
include ac hS

theorem mps_rounded (k : ℕ) (ub : Bool) (p : Params K) (m : MPS K) (h : IsMps k ub p m) (hD : m.periodic = true ∨ 1 ≤ m.bondDim) (hs : NoShortRegion m.inputDim k)
    (zD : m.bondDim ≤ S) (zF : m.featureDim ≤ S) (zO : m.outputDim ≤ S) (x e : Tensor K) (he : Embedded m x e) (B : ℕ) (hB : e.shape.getD 0 0 = B) (g : Option ℕ)
    (hg : BatchKnown k B g) :
    ∃ y g', A.mpsForward m x g = (.ok y, g') ∧ y.shape = [B, m.outputDim] ∧ ∀ b < B, ∀ o < m.outputDim,
      ‖y.get [b, o] - mpsValue m.bondDim m.featureDim m.inputDim k ub m.periodic p e b o‖ ≤
        ((1 + γ) ^ (2 * m.inputDim + 2) * (1 + u) ^ (2 * m.inputDim) - 1) *
          mpsValue m.bondDim m.featureDim m.inputDim k ub m.periodic (absParams p) (absT e) b o := by
  have g0 := ac.gamma
  have u0 := ac.unit
  set θ : ℝ := (1 + γ) ^ 2 * (1 + u) ^ 2 with hθ
  have hθ0 : 0 < θ := by positivity
  have hw0 : 0 < 1 + γ := by positivity
  obtain ⟨x', e1, e2⟩ := he
  obtain ⟨f, f1, f2, f3⟩ := mpsEmbed_rounded ac m x' e e2
  have hf := tri_input f e f2 f3
  have hsh := embed_shape m x' e e2
  have hT := triMps_isMps θ (1 + γ) k ub p m h
  obtain ⟨t1, t2, t3, t4, t5⟩ := mps_facts k ub _ _ hT
  obtain ⟨_, _, n3, _, _⟩ := mps_facts k ub _ _ h
  have hB' : (triT 1 e : Tensor (Tri K)).shape = [B, m.inputDim, m.featureDim] := by
    show e.shape = _
    rw [hsh] at hB ⊢
    simp at hB
    simp [hB]
  obtain ⟨cs', g', c1, c2, c3⟩ := runModules_ok m.bondDim m.featureDim m.outputDim B m.inputDim (triT 1 e) hB' (triMps θ (1 + γ) k ub p m).modules t1 (t4 hs) 0 g
    (hg.elim (fun hk => Or.inr (t5 hk)) Or.inl)
  have hne : (triMps θ (1 + γ) k ub p m).modules ≠ [] := by
    intro hc
    obtain ⟨as, a, bs, e, _⟩ := t2
    rw [hc] at e
    simp at e
  rw [c2 hne] at c1
  have hrel := rel_runModules ac hS θ hθ m.bondDim m.featureDim m.outputDim zD zF zO f (triT 1 e) hf _ _ (triMps_modules θ (1 + γ) hθ0 hw0 k ub p m h) 0 g
  rw [c1] at hrel
  cases hc : A.runModules f 0 m.modules g with
  | mk res g1 =>
  rw [hc] at hrel
  obtain ⟨r1, r2⟩ := hrel
  simp only at r1 r2
  subst r1
  cases r2 with
  | ok cs _ hcs =>
    have hrun : A.mpsForward m x g = (if m.periodic then A.closeRing cs else A.closeOpen cs m.parallel) (some B) := by
      unfold NetArith.mpsForward NetArith.linearForward
      rw [e1, CM.bind_ok (CM.lift_apply _ _), f1, CM.bind_ok (CM.lift_apply _ _), assert_true _ (by simp [Tensor.ndim, f2, hsh]),
        assert_true _ (by rw [f2, hsh, n3]; rfl), CM.bind_ok (CM.lift_apply _ _), CM.bind_ok (CM.lift_apply _ _), CM.bind_ok hc]
    rw [hrun]
    have hchain : ∀ b o, chainMats m.bondDim m.featureDim (triT 1 e) b o 0 (triMps θ (1 + γ) k ub p m).modules =
        mpsMats m.bondDim m.featureDim m.inputDim k ub (triParams θ (1 + γ) p) (triT 1 e) b o := fun b o => chain_mps k ub _ _ hT (triT 1 e) b o
    have hpow : (1 + γ) * θ ^ m.inputDim = (1 + γ) ^ (2 * m.inputDim + 1) * (1 + u) ^ (2 * m.inputDim) := by
      rw [hθ, mul_pow, ← pow_mul, ← pow_mul]
      ring
    cases hper : m.periodic with
    | false =>
      simp only [Bool.false_eq_true, if_false]
      obtain ⟨y, y1, y2, y3⟩ := close_open_rounded ac hS m.bondDim m.featureDim m.outputDim B (hD.resolve_left (by simp [hper])) zD (triT 1 e) _ cs cs' hcs c3 t2 m.parallel
      refine ⟨y, _, y1, y2, ?_⟩
      intro b hb o ho
      obtain ⟨M, m1, m2⟩ := y3 b hb o ho
      have hv := mpsValue_tri θ (1 + γ) m.bondDim m.featureDim m.inputDim k h.label ub false p e b o
      rw [hchain] at m1
      rw [show mpsValue m.bondDim m.featureDim m.inputDim k ub false (triParams θ (1 + γ) p) (triT 1 e) b o = M.e 0 0 by simp [mpsValue, m1]] at hv
      rw [hv] at m2
      have m3 := m2.2
      simp only [Prod.mk_mul_mk, one_mul, mul_one] at m3
      refine le_trans m3 (le_of_eq ?_)
      have : (1 + γ)⁻¹ * ((1 + γ) * (1 + γ) * ((1 + γ) * θ ^ m.inputDim * mpsValue m.bondDim m.featureDim m.inputDim k ub false (absParams p) (absT e) b o)) =
          (1 + γ) * ((1 + γ) * θ ^ m.inputDim) * mpsValue m.bondDim m.featureDim m.inputDim k ub false (absParams p) (absT e) b o := by
        field_simp
      rw [this, hpow]
      ring
    | true =>
      simp only [if_true]
      obtain ⟨y, g2, y1, y2, y3⟩ := close_ring_rounded ac hS m.bondDim m.featureDim m.outputDim B (triT 1 e) _ cs cs' hcs c3 t2 (some B)
      refine ⟨y, _, y1, y2, ?_⟩
      intro b hb o ho
      obtain ⟨M, m1, m2⟩ := y3 b hb o ho
      have hv := mpsValue_tri θ (1 + γ) m.bondDim m.featureDim m.inputDim k h.label ub true p e b o
      rw [hchain] at m1
      rw [show mpsValue m.bondDim m.featureDim m.inputDim k ub true (triParams θ (1 + γ) p) (triT 1 e) b o = ∑ i ∈ Finset.range m.bondDim, M.e i i by
        simp [mpsValue, m1]] at hv
      rw [hv] at m2
      have m0 : 0 ≤ mpsValue m.bondDim m.featureDim m.inputDim k ub true (absParams p) (absT e) b o := le_trans (norm_nonneg _) m2.1
      have m3 := m2.2
      simp only at m3
      refine le_trans m3 ?_
      rw [hpow, one_mul, sub_mul, one_mul]
      refine sub_le_sub_right (mul_le_mul_of_nonneg_right (mul_le_mul_of_nonneg_right (pow_le_pow_right₀ (by linarith) (by omega)) (by positivity)) m0) _

end
end TorchMPS
