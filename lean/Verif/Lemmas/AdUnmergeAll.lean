import Verif.Lemmas.AdUnmerge
/-
Unmerging all modules of a merged chain.
-/
namespace TorchMPS
open Spec

theorem pieces_congr (D F O i : ℕ) (a a' : Cores ℝ) (κ : Kind) (hat : Kind.At i κ) (us : List (Module ℝ))
    (hA : ∀ q, i ≤ q → q < i + κ.len → a.A q = a'.A q) (hC : κ.isOut = true → a.C = a'.C) (h : Pieces D F O a κ us) : Pieces D F O a' κ us := by
  cases κ with
  | site j =>
    have hat : j = i := hat
    subst hat
    obtain ⟨m, h1, t, h2, h3, h4⟩ := h
    refine ⟨m, h1, t, h2, h3, ?_⟩
    rw [← hA j le_rfl (by simp [Kind.len])]
    exact h4
  | out =>
    obtain ⟨m, h1, t, h2, h3, h4⟩ := h
    refine ⟨m, h1, t, h2, h3, ?_⟩
    rw [← hC rfl]
    exact h4
  | pairs j c =>
    obtain ⟨rfl, hc⟩ := hat
    obtain ⟨m, h1, h2, t, b, h3, h4, h5⟩ := h
    refine ⟨m, h1, h2, t, b, h3, h4, ?_⟩
    intro s hs
    rw [← hA (j + s) (by omega) (by simp [Kind.len]; omega)]
    exact h5 s hs
  | mout j b =>
    have hat : j = i := hat
    subst hat
    have e1 := hA j le_rfl (by simp [Kind.len])
    have e2 := hC rfl
    cases b with
    | true =>
      obtain ⟨m, m', h1, ⟨t, h2, h3, h4⟩, t', h5, h6, h7⟩ := h
      rw [e2] at h4
      rw [e1] at h7
      exact ⟨m, m', h1, ⟨t, h2, h3, h4⟩, t', h5, h6, h7⟩
    | false =>
      obtain ⟨m, m', h1, ⟨t, h2, h3, h4⟩, t', h5, h6, h7⟩ := h
      rw [e1] at h4
      rw [e2] at h7
      exact ⟨m, m', h1, ⟨t, h2, h3, h4⟩, t', h5, h6, h7⟩

theorem holds_congr (D F O i : ℕ) (a a' : Cores ℝ) (κ : Kind) (hat : Kind.At i κ) (m : Module ℝ)
    (hA : ∀ q, i ≤ q → q < i + κ.len → a.A q = a'.A q) (hC : κ.isOut = true → a.C = a'.C) (h : κ.Holds D F O a m) : κ.Holds D F O a' m := by
  cases κ with
  | site j =>
    cases m <;> first | exact h.elim | skip
    have hat : j = i := hat
    subst hat
    simp only [Kind.Holds] at h ⊢
    rw [← hA j le_rfl (by simp [Kind.len])]
    exact h
  | out =>
    cases m <;> first | exact h.elim | skip
    simp only [Kind.Holds] at h ⊢
    rw [← hC rfl]
    exact h
  | pairs j c =>
    cases m <;> first | exact h.elim | skip
    obtain ⟨rfl, hc⟩ := hat
    simp only [Kind.Holds] at h ⊢
    intro s hs
    rw [← hA (j + 2 * s) (by omega) (by simp [Kind.len]; omega), ← hA (j + 2 * s + 1) (by omega) (by simp [Kind.len]; omega)]
    exact h s hs
  | mout j b =>
    have hat : j = i := hat
    subst hat
    have e1 := hA j le_rfl (by simp [Kind.len])
    have e2 := hC rfl
    cases b <;> cases m <;> first | exact h.elim | skip
    all_goals
      simp only [Kind.Holds] at h ⊢
      rw [← e1, ← e2]
      exact h

theorem tail_congr {β : Type} (P : Cores ℝ → Kind → β → Prop) (i : ℕ) (a a' : Cores ℝ)
    (hP : ∀ j κ b, Kind.At j κ → (∀ q, j ≤ q → q < j + κ.len → a.A q = a'.A q) → (κ.isOut = true → a.C = a'.C) → P a κ b → P a' κ b)
    (ks : List Kind) (hst : Starts i ks)
    (hA : ∀ q, i ≤ q → a.A q = a'.A q) (hC : ∀ κ ∈ ks, κ.isOut = true → a.C = a'.C) (bs : List β)
    (h : List.Forall₂ (P a) ks bs) : List.Forall₂ (P a') ks bs := by
  induction h generalizing i with
  | nil => exact .nil
  | @cons κ b ks bs h1 h2 ih =>
    refine .cons (hP i κ b hst.1 (fun q hq _ => hA q hq) (hC κ (by simp)) h1) ?_
    exact ih (i + κ.len) hst.2 (fun q hq => hA q (by omega)) (fun κ hκ => hC κ (by simp [hκ]))

theorem unmerge_all (svd : Mat ℝ → SVD) (hsvd : ∀ A, IsSVD A (svd A)) (pop : List Char → Char) (hpop : ∀ x xs, pop (x :: xs) ∈ x :: xs)
    (D F O i : ℕ) (hD : 1 ≤ D) (cutoff : ℝ) (ks : List Kind) (hst : Starts i ks)
    (hone : ks.Pairwise (fun a b => ¬ (a.isOut = true ∧ b.isOut = true)))
    (ms : List (Module ℝ)) (h : List.Forall₂ (fun κ m => κ.Shaped D F O m) ks ms) :
    (unmergeAll svd pop cutoff ms = .error .runtime ∧ Vanishing svd D cutoff ms) ∨
    ∃ chunks bs a, unmergeAll svd pop cutoff ms = .ok (chunks.flatten, bs) ∧ List.Forall₂ (Pieces D F O a) ks chunks ∧
      List.Forall₂ (BondOk D cutoff) (ms.flatMap (bondPlan svd)) bs ∧
      (0 < cutoff → ∀ u ∈ chunks.flatten, (0 : ℝ) ∈ u.norms → ∃ m ∈ ms, LoneZero m) ∧
      ((Lossless svd D cutoff ms → List.Forall₂ (fun κ m => κ.Shaped D F O m ∧ κ.Holds D F O a m) ks ms) ∧
        ∃ ms', List.Forall₂ (fun κ m => κ.Shaped D F O m ∧ κ.Holds D F O a m) ks ms' ∧ List.Forall₂ (Truncated svd D F O cutoff) ms ms') := by
  induction h generalizing i with
  | nil =>
    right
    exact ⟨[], [], ⟨fun _ _ _ _ => 0, fun _ _ _ => 0⟩, rfl, .nil, .nil, by simp, fun _ => .nil, [], .nil, .nil⟩
  | @cons κ m ks ms h1 h2 ih =>
    obtain ⟨hone1, hone2⟩ := List.pairwise_cons.1 hone
    simp only [unmergeAll]
    rcases unmerge_module svd hsvd pop hpop D F O i hD κ hst.1 m h1 cutoff with ⟨g1, sv, g2, g3⟩ | ⟨us, bs, a1, g1, g2, g3, g5, g4, m1, gs, gh, gt⟩
    · left
      rw [g1]
      exact ⟨rfl, m, by simp, sv, g2, g3⟩
    · rw [g1]
      simp only [bind_ok_except]
      rcases ih (i + κ.len) hst.2 hone2 with ⟨f1, m', f2, f3⟩ | ⟨chunks, cs, a2, f1, f2, f3, f5, f4, ms1, fs, ft⟩
      · left
        rw [f1]
        exact ⟨rfl, m', by simp [f2], f3⟩
      · right
        rw [f1]
        have hA1 : ∀ q, i ≤ q → q < i + κ.len → a1.A q = (fun q => if q < i + κ.len then a1.A q else a2.A q) q := by
          intro q _ hq
          simp only
          rw [if_pos hq]
        have hC1 : κ.isOut = true → a1.C = if κ.isOut then a1.C else a2.C := by
          intro hκ
          rw [if_pos hκ]
        have hA2 : ∀ q, i + κ.len ≤ q → a2.A q = (fun q => if q < i + κ.len then a1.A q else a2.A q) q := by
          intro q hq
          simp only
          rw [if_neg (by omega)]
        have hC2 : ∀ κ' ∈ ks, κ'.isOut = true → a2.C = if κ.isOut then a1.C else a2.C := by
          intro κ' hκ' hκ2
          rw [if_neg]
          intro hκ
          exact hone1 κ' hκ' ⟨hκ, hκ2⟩
        refine ⟨us :: chunks, bs ++ cs, ⟨fun q => if q < i + κ.len then a1.A q else a2.A q, if κ.isOut then a1.C else a2.C⟩, rfl, ?_, ?_, ?_, ?_⟩
        · refine .cons (pieces_congr D F O i a1 _ κ hst.1 us hA1 hC1 g2) ?_
          exact tail_congr (fun a κ us => Pieces D F O a κ us) (i + κ.len) a2 _ (fun j κ b x1 x2 x3 x4 => pieces_congr D F O j _ _ κ x1 b x2 x3 x4)
            ks hst.2 hA2 hC2 chunks f2
        · simp only [List.flatMap_cons]
          exact List.rel_append g3 f3
        · intro hcut u hu h0
          simp only [List.flatten_cons, List.mem_append] at hu
          rcases hu with hu | hu
          · exact ⟨m, by simp, g5 hcut u hu h0⟩
          · obtain ⟨m', q1, q2⟩ := f5 hcut u hu h0
            exact ⟨m', by simp [q1], q2⟩
        · refine ⟨?_, m1 :: ms1, .cons ⟨gs, holds_congr D F O i a1 _ κ hst.1 m1 hA1 hC1 gh⟩ ?_, .cons gt ft⟩
          · intro hl
            refine .cons ⟨h1, holds_congr D F O i a1 _ κ hst.1 m hA1 hC1 (g4 (fun sv hsv => hl m (by simp) sv hsv))⟩ ?_
            exact tail_congr (fun a κ m => κ.Shaped D F O m ∧ κ.Holds D F O a m) (i + κ.len) a2 _
              (fun j κ b x1 x2 x3 x4 => ⟨x4.1, holds_congr D F O j _ _ κ x1 b x2 x3 x4.2⟩)
              ks hst.2 hA2 hC2 ms (f4 (fun m' hm' => hl m' (by simp [hm'])))
          · exact tail_congr (fun a κ m => κ.Shaped D F O m ∧ κ.Holds D F O a m) (i + κ.len) a2 _
              (fun j κ b x1 x2 x3 x4 => ⟨x4.1, holds_congr D F O j _ _ κ x1 b x2 x3 x4.2⟩)
              ks hst.2 hA2 hC2 ms1 fs

end TorchMPS
