import Verif.Model.Len
import Verif.Props.AdaptiveFlip
/-
C73: the number of input sites and of cores.
-/
namespace TorchMPS
variable {K : Type}
open Spec

/-- C73: a plain MPS has `input_dim` input sites and `input_dim + 1` cores, wherever the label site is. -/
theorem C73_plain [CommRing K] (k : ℕ) (ub : Bool) (p : Params K) (m : MPS K) (h : IsMps k ub p m) :
    m.len = m.inputDim ∧ m.regionLen = m.inputDim ∧ m.coreLen = m.inputDim + 1 := by
  refine ⟨rfl, (mps_facts k ub p m h).2.2.1, ?_⟩
  have hk := h.label
  unfold MPS.coreLen modulesCoreLen
  rw [h.modules]
  have h1 : ((if k = 0 then [] else [.inputRegion p.left (if ub then some p.leftBias else none)] : List (Module K)).map
      Module.coreLen).sum = k := by
    split
    · simp_all
    · simp [Module.coreLen, h.left]
  have h2 : ((if k = m.inputDim then [] else [.inputRegion p.right (if ub then some p.rightBias else none)] :
      List (Module K)).map Module.coreLen).sum = m.inputDim - k := by
    split
    · simp; omega
    · simp [Module.coreLen, h.right]
  rw [List.map_append, List.sum_append, List.map_cons, List.sum_cons, h1, h2]
  simp only [Module.coreLen]
  omega

theorem layout_cores (p k n : ℕ) (hp : p ≤ 1) (hk : k ≤ n) : ((layout p k n).map Kind.cores).sum = n + 1 := by
  unfold layout leftKinds rightKinds
  split_ifs <;> simp [Kind.cores] <;> omega

theorem merged_coreLen (D F O : ℕ) (ks : List Kind) (ms : List (Module K)) (h : List.Forall₂ (fun κ m => κ.Shaped D F O m) ks ms) :
    modulesCoreLen ms = (ks.map Kind.cores).sum := by
  induction h with
  | nil => rfl
  | @cons κ m _ _ h1 _ ih =>
    simp only [modulesCoreLen, List.map_cons, List.sum_cons] at ih ⊢
    rw [ih]
    rw [(shaped_len D F O κ m h1).2]

/-- C73: an adaptive MPS has `input_dim` input sites and `input_dim + 1` cores in every state: after every history of
successful or failed calls, flips, training steps and map registrations. -/
theorem C73_adaptive (svd : Mat ℝ → SVD) (hsvd : ∀ A, IsSVD A (svd A)) (pop : List Char → Char) (hpop : ∀ x xs, pop (x :: xs) ∈ x :: xs)
    (k : ℕ) (m m' : AdMps) (g g' : Option ℕ) (Bs : List ℕ) (fs : List Bool) (h : IsAdMps k m) (hD : 1 ≤ m.mps.bondDim)
    (hh : History svd pop m g Bs fs m' g') :
    m'.len = m.mps.inputDim ∧ m'.regionLen = m.mps.inputDim ∧ m'.coreLen = m.mps.inputDim + 1 := by
  obtain ⟨hw, ⟨f, hm'⟩, -⟩ := C61_structure svd hsvd pop hpop k m m' g g' Bs fs h hD hh
  have hn : m'.mps.inputDim = m.mps.inputDim := by rw [hm']
  have hs : MergedShape m'.mps.bondDim m'.mps.featureDim m'.mps.outputDim m'.region.offset k m'.mps.inputDim m'.region.active := by
    unfold AdRegion.active
    rw [hw.stray]
    have := hw.offset
    rcases (show m'.region.offset = 0 ∨ m'.region.offset = 1 by omega) with h0 | h0 <;> rw [h0]
    · exact hw.list0
    · exact hw.list1
  refine ⟨hn, ?_, ?_⟩
  · rw [← hn]
    exact (merged_facts _ _ _ _ k _ hw.offset hw.label (by have := hw.size; omega) _ hs).2.2.2.1
  · rw [← hn]
    unfold AdMps.coreLen
    rw [merged_coreLen _ _ _ _ _ hs, layout_cores _ _ _ hw.offset hw.label]

/-- Non-vacuity: a merged chain of five pixels with the output core after pixel 1: two pairs of pixel cores, and
the output core merged with pixel 2. -/
example : layout 0 2 5 = [.pairs 0 1, .mout 2 true, .pairs 3 1] ∧ ((layout 0 2 5).map Kind.cores).sum = 6 := by
  constructor <;> simp [layout, leftKinds, rightKinds, Kind.cores]

end TorchMPS
