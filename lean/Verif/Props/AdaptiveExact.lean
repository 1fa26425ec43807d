import Verif.Props.AdaptiveMore
/-
C61, exactly: which calls of an adaptive model fail, for every label_site and every history.
-/
namespace TorchMPS
open Spec

/-- C61, for every label_site: after any history, a call with a valid input succeeds exactly if no flip is due, or the flip is not one of the
two which the code cannot carry out (two sites on the left of the output core and offset 1, or two sites on its right and the parity of
label_site as offset), every merged core has a singular value reaching the cutoff, and no lone core is exactly zero. -/
theorem C61_flips_iff (svd : Mat ℝ → SVD) (hsvd : ∀ A, IsSVD A (svd A)) (pop : List Char → Char) (hpop : ∀ x xs, pop (x :: xs) ∈ x :: xs)
    (k : ℕ) (m m' : AdMps) (g g' : Option ℕ) (Bs : List ℕ) (fs : List Bool) (h : IsAdMps k m) (hD : 1 ≤ m.mps.bondDim)
    (hcut : 0 < m.region.cutoff) (hh : History svd pop m g Bs fs m' g')
    (x e : Tensor ℝ) (he : Embedded m'.mps x e) (g'' : Option ℕ) (hg : BatchKnown k (e.shape.getD 0 0) g'') :
    (∃ y, (m'.forward svd pop x g'').1 = .ok y) ↔
      (m'.region.threshold ≤ m'.region.counter →
        ¬ (k = 2 ∧ m'.region.offset = 1) ∧ ¬ (m.mps.inputDim - k = 2 ∧ m'.region.offset = k % 2) ∧
        ¬ Vanishing svd m'.mps.bondDim m'.region.cutoff (m'.region.listAt m'.region.offset) ∧
        ∀ u ∈ m'.region.listAt m'.region.offset, ¬ LoneZero u) := by
  obtain ⟨hw, ⟨f, hm'⟩, hc', _⟩ := C61_structure svd hsvd pop hpop k m m' g g' Bs fs h hD hh
  have hD' : 1 ≤ m'.mps.bondDim := by rw [hm']; exact hD
  have hin : m'.mps.inputDim = m.mps.inputDim := by rw [hm']
  by_cases hs : m'.region.threshold ≤ m'.region.counter ∧ Stuck m'.region.offset k m'.mps.inputDim
  · obtain ⟨hdue, hs⟩ := hs
    obtain ⟨er, m2, g2, z1, z2⟩ := stuck_call svd hsvd pop hpop k m' hw hD' hdue hs x e he g''
    rw [z1]
    constructor
    · rintro ⟨y, hy⟩
      simp at hy
    · intro hx
      obtain ⟨x1, x2, _⟩ := hx hdue
      rcases hs with ⟨h1, h2⟩ | ⟨h1, h2⟩
      · exact absurd ⟨h2, h1⟩ x1
      · exact absurd ⟨by rw [← hin]; exact h2, h1.symm⟩ x2
  · by_cases hdue : m'.region.threshold ≤ m'.region.counter
    · have hns : ¬ Stuck m'.region.offset k m'.mps.inputDim := fun h => hs ⟨hdue, h⟩
      have n1 : ¬ (k = 2 ∧ m'.region.offset = 1) := fun h => hns (Or.inl ⟨h.2, h.1⟩)
      have n2 : ¬ (m.mps.inputDim - k = 2 ∧ m'.region.offset = k % 2) := fun h => hns (Or.inr ⟨h.2.symm, by rw [hin]; exact h.1⟩)
      rcases flip_call svd hsvd pop hpop k m' hw hD' hdue hns x e he g'' with (⟨z, z1⟩ | ⟨z, z1, z2⟩) | ⟨l, bs, a, c1, cb, c2, c3, c4, c5, c6, c7⟩
      · rw [z]
        constructor
        · rintro ⟨y, hy⟩
          simp at hy
        · intro hx
          exact absurd z1 (hx hdue).2.2.1
      · rw [z]
        constructor
        · rintro ⟨y, hy⟩
          simp at hy
        · intro hx
          obtain ⟨u, u1, u2⟩ := z2 (by rw [hc']; exact hcut)
          exact absurd u2 ((hx hdue).2.2.2 u u1)
      · obtain ⟨y, g3, y1, _⟩ := c6 (Or.inl hg)
        rw [y1]
        exact ⟨fun _ _ => ⟨n1, n2, c2, c3⟩, fun _ => ⟨y, rfl⟩⟩
    · constructor
      · intro _ h1
        exact absurd h1 hdue
      · intro _
        have hoff := hw.offset
        obtain ⟨y, g3, y1, _⟩ := merged_eval m'.mps.bondDim m'.mps.featureDim m'.mps.outputDim m'.region.offset k m'.mps.inputDim _ hoff hw.label
          (by have := hw.size; omega) _ (listAt_shape k m' hw _ hoff) m'.mps.periodic m'.mps.parallel (Or.inr hD') e (embedded_shape _ x e he) g''
          (hg.elim (fun h => Or.inr (by omega)) Or.inl)
        refine ⟨y, ?_⟩
        unfold AdMps.forward
        rw [ad_forward_eq svd pop m' x e he]
        simp only [AdRegion.maybeFlip]
        rw [if_neg hdue]
        simp only
        have : AdRegion.active { m'.region with counter := m'.region.counter + e.shape.getD 0 0 } = m'.region.listAt m'.region.offset := by
          unfold AdRegion.active
          simp only [hw.stray]
          rfl
        rw [this, y1]

end TorchMPS
