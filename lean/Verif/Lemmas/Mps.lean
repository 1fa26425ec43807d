import Verif.Spec.MpsFn
import Verif.Lemmas.Linear
/-
MPS.forward: preparation of the input, and the chain of matrices.
-/
namespace TorchMPS
open Spec
variable {K : Type}

theorem shape2 {sh : Shape} (h : sh.length = 2) : sh = [sh.getD 0 0, sh.getD 1 0] := by
  obtain _ | ⟨a, _ | ⟨b, _ | ⟨c, l⟩⟩⟩ := sh <;> simp at h ⊢

theorem shape3 {sh : Shape} (h : sh.length = 3) : sh = [sh.getD 0 0, sh.getD 1 0, sh.getD 2 0] := by
  obtain _ | ⟨a, _ | ⟨b, _ | ⟨c, _ | ⟨d, l⟩⟩⟩⟩ := sh <;> simp at h ⊢

theorem bind_ok_inv {α β : Type} {x : Except Err α} {f : α → Except Err β} {b : β} (h : (x >>= f) = .ok b) : ∃ a, x = .ok a ∧ f a = .ok b := by
  cases x with
  | ok a => exact ⟨a, rfl, h⟩
  | error e => cases h

theorem embed_shape [One K] [Sub K] (m : MPS K) (x e : Tensor K) (h : m.embedInput x = .ok e) :
    e.shape = [x.shape.getD 0 0, m.inputDim, m.featureDim] := by
  unfold MPS.embedInput at h
  obtain ⟨_, h1, h⟩ := bind_ok_inv h
  obtain ⟨_, h2, h⟩ := bind_ok_inv h
  rw [assert_ok_iff] at h1 h2
  split at h
  · rename_i h3
    split at h
    · cases h
    · rename_i h4
      cases h
      have := shape3 h3
      simp only [ne_eq, not_not] at h4
      rw [this, h2, h4]
      rfl
  · rename_i h3
    have h5 : x.ndim = 2 := h1.resolve_right h3
    split at h
    · obtain ⟨a, h6, h⟩ := bind_ok_inv h
      obtain ⟨_, h7, h⟩ := bind_ok_inv h
      rw [assert_ok_iff] at h7
      cases h
      exact h7
    · split at h
      · cases h
      · rename_i h8
        simp only [ne_eq, not_not] at h8
        cases h
        unfold embedLinear
        have := shape2 h5
        rw [h2] at this
        simp only
        rw [h8]
        conv_lhs => rw [this]
        rfl

theorem embed_embedded [One K] [Sub K] (m : MPS K) (B : ℕ) (e : Tensor K) (h : e.shape = [B, m.inputDim, m.featureDim]) :
    m.embedInput e = .ok e := by
  unfold MPS.embedInput
  rw [assert_true _ (by right; simp [Tensor.ndim, h]), assert_true _ (by simp [h])]
  simp [bind_ok_except, Tensor.ndim, h]

/-- The chain of matrices of a well-formed MPS. -/
theorem chain_mps [CommSemiring K] (k : ℕ) (ub : Bool) (p : Params K) (m : MPS K) (h : IsMps k ub p m) (e : Tensor K) (b o : ℕ) :
    chainMats m.bondDim m.featureDim e b o 0 m.modules = mpsMats m.bondDim m.featureDim m.inputDim k ub p e b o := by
  have hl : ∀ bias, biasEntry (if ub then some bias else none) = fun l r => if ub then (bias : Tensor K).get [0, l, r] else 0 := by
    intro bias
    funext l r
    cases ub <;> rfl
  have hr : ∀ n, moduleMats m.bondDim m.featureDim e b o n (.inputRegion p.right (if ub then some p.rightBias else none)) =
      (List.range (m.inputDim - k)).map (fun s => affMat m.bondDim m.featureDim (fun l r f => p.right.get [s, l, r, f])
        (fun f => e.get [b, n + s, f]) (fun l r => if ub then p.rightBias.get [0, l, r] else 0)) := by
    intro n
    simp only [moduleMats, h.right, List.getD_cons_zero, hl]
  have hrr : chainMats m.bondDim m.featureDim e b o k
      (if k = m.inputDim then [] else [.inputRegion p.right (if ub then some p.rightBias else none)]) =
      pixelMats m.bondDim m.featureDim k ub p e b k m.inputDim := by
    unfold pixelMats
    by_cases hk : k = m.inputDim
    · rw [if_pos hk, hk]; simp [chainMats]
    · rw [if_neg hk]
      simp only [chainMats, List.append_nil]
      rw [hr, List.range'_eq_map_range, List.map_map]
      refine List.map_congr_left ?_
      intro s _
      simp only [Function.comp, pixelMat]
      congr 1
      · funext l r f
        unfold Params.core
        rw [if_neg (by omega), Nat.add_sub_cancel_left]
      · funext l r
        unfold Params.bias
        rw [if_neg (c := k + s < k) (by omega)]
  rw [h.modules]
  unfold mpsMats
  by_cases hk : k = 0
  · subst hk
    rw [if_pos rfl]
    simp only [List.nil_append, chainMats, moduleMats, Module.len, Nat.add_zero]
    rw [hrr]
    rfl
  · rw [if_neg hk]
    simp only [List.cons_append, List.nil_append, chainMats]
    have hlen : (Module.inputRegion p.left (if ub then some p.leftBias else none)).len = k := by simp [Module.len, h.left]
    rw [hlen]
    simp only [Module.len, Nat.add_zero, Nat.zero_add]
    rw [hrr]
    congr 1
    simp only [moduleMats, h.left, List.getD_cons_zero, hl, pixelMats, Nat.sub_zero, Nat.zero_add]
    rw [List.range'_eq_map_range, List.map_map]
    refine List.map_congr_left ?_
    intro s hs
    have hs := List.mem_range.1 hs
    simp only [Function.comp, pixelMat, Nat.zero_add]
    congr 1
    · funext l r f
      unfold Params.core
      rw [if_pos hs]
    · funext l r
      unfold Params.bias
      rw [if_pos (c := s < k) hs]

theorem mps_facts [CommSemiring K] (k : ℕ) (ub : Bool) (p : Params K) (m : MPS K) (h : IsMps k ub p m) :
    (∀ a ∈ m.modules, Fits m.bondDim m.featureDim m.outputDim a) ∧ OneOut m.modules ∧ modulesLen m.modules = m.inputDim ∧
      (NoShortRegion m.inputDim k → ∀ a ∈ m.modules, ¬ ShortRegion a) ∧
      (1 ≤ k → ∀ a ∈ m.modules.head?, ¬ IsOutputSite a) := by
  have hk := h.label
  refine ⟨?_, ?_, ?_, ?_, ?_⟩
  · intro a ha
    rw [h.modules] at ha
    simp only [List.mem_append, List.mem_cons] at ha
    rcases ha with ha | rfl | ha
    · split at ha
      · simp at ha
      · rw [List.mem_singleton.1 ha]
        refine ⟨⟨k, by omega, h.left⟩, ?_⟩
        intro bm hbm
        cases ub with
        | false => simp at hbm
        | true => simp at hbm; rw [← hbm]; exact h.leftBias
    · exact h.out
    · split at ha
      · simp at ha
      · rw [List.mem_singleton.1 ha]
        refine ⟨⟨m.inputDim - k, by omega, h.right⟩, ?_⟩
        intro bm hbm
        cases ub with
        | false => simp at hbm
        | true => simp at hbm; rw [← hbm]; exact h.rightBias
  · refine ⟨_, _, _, h.modules, ?_, trivial, ?_⟩
    · intro a ha
      split at ha
      · simp at ha
      · rw [List.mem_singleton.1 ha]; exact id
    · intro a ha
      split at ha
      · simp at ha
      · rw [List.mem_singleton.1 ha]; exact id
  · unfold modulesLen
    rw [h.modules]
    have h1 : ((if k = 0 then [] else [Module.inputRegion p.left (if ub then some p.leftBias else none)]).map Module.len).sum = k := by
      split
      · simp; omega
      · simp only [List.map_cons, List.map_nil, List.sum_cons, List.sum_nil, Module.len, h.left, List.getD_cons_zero, Nat.add_zero]
    have h2 : ((if k = m.inputDim then [] else [Module.inputRegion p.right (if ub then some p.rightBias else none)]).map Module.len).sum =
        m.inputDim - k := by
      split
      · simp; omega
      · simp only [List.map_cons, List.map_nil, List.sum_cons, List.sum_nil, Module.len, h.right, List.getD_cons_zero, Nat.add_zero]
    rw [List.map_append, List.sum_append, h1, List.map_cons, List.sum_cons, h2]
    simp only [Module.len]
    omega
  · intro hns a ha
    rw [h.modules] at ha
    simp only [List.mem_append, List.mem_cons] at ha
    rcases ha with ha | rfl | ha
    · split at ha
      · simp at ha
      · rw [List.mem_singleton.1 ha]
        simp only [ShortRegion, h.left, List.getD_cons_zero]
        exact hns.1
    · exact id
    · split at ha
      · simp at ha
      · rw [List.mem_singleton.1 ha]
        simp only [ShortRegion, h.right, List.getD_cons_zero]
        exact hns.2
  · intro h1 a ha
    rw [h.modules, if_neg (by omega)] at ha
    simp at ha
    rw [← ha]
    exact id

theorem forward_of_embedded [CommRing K] (m : MPS K) (x e : Tensor K) (h : Embedded m x e) (g : Option ℕ) :
    m.forward x g = linearForward m.modules m.periodic m.parallel e g := by
  obtain ⟨x', h1, h2⟩ := h
  unfold MPS.forward
  rw [h1, CM.bind_ok (CM.lift_apply _ _), h2, CM.bind_ok (CM.lift_apply _ _)]

/-- linearity of a product of square matrices in one factor -/
theorem prodL_linear [CommSemiring K] (D : ℕ) (as bs : List (Mat K)) (ha : ∀ A ∈ as, A.r = D ∧ A.c = D) (hb : ∀ A ∈ bs, A.r = D ∧ A.c = D) :
    ∃ P Q : ℕ → ℕ → K, ∀ f : ℕ → ℕ → K, ∃ R, prodL (as ++ Mat.of D D f :: bs) = some R ∧ ∀ i < D, ∀ j < D,
      R.e i j = ∑ a ∈ Finset.range D, ∑ c ∈ Finset.range D, P i a * f a c * Q c j := by
  have left : ∃ P : ℕ → ℕ → K, ∀ f : ℕ → ℕ → K, ∃ R, prodL (as ++ [Mat.of D D f]) = some R ∧ R.r = D ∧ R.c = D ∧ ∀ i < D, ∀ j < D,
      R.e i j = ∑ a ∈ Finset.range D, P i a * f a j := by
    by_cases hn : as = []
    · subst hn
      refine ⟨fun i a => if i = a then 1 else 0, ?_⟩
      intro f
      refine ⟨Mat.of D D f, rfl, rfl, rfl, ?_⟩
      intro i hi j hj
      simp [Mat.of, hi, hj]
    · obtain ⟨P, hP⟩ : ∃ P, prodL as = some P := by
        cases as with
        | nil => exact absurd rfl hn
        | cons a l => exact ⟨_, rfl⟩
      have hs := prodL_size D as ha P hP
      refine ⟨P.e, ?_⟩
      intro f
      refine ⟨P.mul (Mat.of D D f), ?_, hs.1, rfl, ?_⟩
      · rw [prodL_append _ _ hn (by simp), hP]
        rfl
      · intro i hi j hj
        unfold Mat.mul
        simp only [hs.2]
        refine Finset.sum_congr rfl ?_
        intro a ha'
        have := Finset.mem_range.1 ha'
        simp [Mat.of, this, hj]
  obtain ⟨P, hP⟩ := left
  by_cases hn : bs = []
  · subst hn
    refine ⟨P, fun c j => if c = j then 1 else 0, ?_⟩
    intro f
    obtain ⟨R, r1, _, _, r4⟩ := hP f
    refine ⟨R, r1, ?_⟩
    intro i hi j hj
    rw [r4 i hi j hj]
    refine Finset.sum_congr rfl ?_
    intro a _
    simp [hj]
  · obtain ⟨Q, hQ⟩ : ∃ Q, prodL bs = some Q := by
      cases bs with
      | nil => exact absurd rfl hn
      | cons a l => exact ⟨_, rfl⟩
    have hs := prodL_size D bs hb Q hQ
    refine ⟨P, Q.e, ?_⟩
    intro f
    obtain ⟨R, r1, r2, r3, r4⟩ := hP f
    refine ⟨R.mul Q, ?_, ?_⟩
    · rw [show as ++ Mat.of D D f :: bs = (as ++ [Mat.of D D f]) ++ bs by simp, prodL_append _ _ (by simp) hn, r1, hQ]
      rfl
    · intro i hi j hj
      unfold Mat.mul
      simp only [r3]
      rw [Finset.sum_comm]
      refine Finset.sum_congr rfl ?_
      intro c hc
      rw [r4 i hi c (Finset.mem_range.1 hc), Finset.sum_mul]

end TorchMPS
