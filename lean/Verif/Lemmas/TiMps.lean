import Verif.Spec.TiMps
import Verif.Lemmas.Linear
import Verif.Props.ContractableList
/-
Lemmas on TI_MPS.
-/
namespace TorchMPS
open Spec
variable {K : Type}

theorem mkOutputMat_expand (D O : ℕ) (t : Tensor K) (ht : t.shape = [D, O]) (B : ℕ) :
    mkOutputMat t false (some B) = (.ok ⟨.outputMat, ⟨[B, D, O], fun idx => t.get (idx.drop 1)⟩, ['b', 'l', 'o']⟩, some B) := by
  unfold mkOutputMat
  rw [if_neg (by simp [Tensor.ndim, ht]), mkContractable_expand _ _ _ (by simp [ht]) (by simp) (Or.inr ⟨rfl, by simp [Tensor.ndim, ht]⟩)]
  simp [ht]

theorem terminal_piece (B D O : ℕ) (t : Tensor K) (ht : t.shape = [B, D, O]) :
    Piece B (⟨.outputMat, t, ['b', 'l', 'o']⟩ : Contractable K) := by
  refine ⟨⟨rfl, ?_, ?_, by simp [ht]⟩, Or.inl rfl, by simp [axis, ht], by simp⟩
  · simp only; decide
  · simp only; decide

theorem terminal_mat [Zero K] (B D O : ℕ) (t : Tensor K) (ht : t.shape = [B, D, O]) (b o : ℕ) :
    matOf (⟨.outputMat, t, ['b', 'l', 'o']⟩ : Contractable K) b o = Mat.of D 1 (fun i _ => t.get [b, i, o]) := by
  unfold matOf rows cols
  rw [if_pos (by simp), if_neg (by simp)]
  have : axis (⟨.outputMat, t, ['b', 'l', 'o']⟩ : Contractable K) 'l' = D := by simp [axis, ht]
  rw [this]
  refine mat_of_congr _ _ _ _ ?_
  intro i _ j _
  simp [entry, place]

/-- the matrix of step `i` -/
def tiMat [CommSemiring K] (m : TiMps K) (x : ℕ → ℕ → K) (i : ℕ) : Mat K :=
  affMat m.bondDim m.featureDim (fun l r f => m.core.get [l, r, f]) (x i) (tiBiasAt m)

/-- the product of the initial vector with the first `n` matrices -/
theorem foldl_state [CommSemiring K] (m : TiMps K) (x : ℕ → ℕ → K) (n : ℕ) :
    let v := Mat.of 1 m.bondDim (fun _ r => m.initVec.get [r])
    let P := ((List.range n).map (tiMat m x)).foldl Mat.mul v
    P.r = 1 ∧ P.c = m.bondDim ∧ ∀ r < m.bondDim, P.e 0 r = tiState m x n r := by
  induction n with
  | zero =>
    refine ⟨rfl, rfl, ?_⟩
    intro r hr
    simp [Mat.of, hr, tiState]
  | succ n ih =>
    obtain ⟨h1, h2, h3⟩ := ih
    simp only [List.range_succ, List.map_append, List.foldl_append, List.map_cons, List.map_nil, List.foldl_cons, List.foldl_nil]
    refine ⟨h1, rfl, ?_⟩
    intro r hr
    simp only [Mat.mul, h2, tiState]
    refine Finset.sum_congr rfl ?_
    intro l hl
    have hl := Finset.mem_range.1 hl
    rw [h3 l hl]
    congr 1
    simp [tiMat, affMat, Mat.of, hl, hr]

theorem terminal_value [CommSemiring K] (m : TiMps K) (x : ℕ → ℕ → K) (n o : ℕ) (M : Mat K)
    (hM : orderedProd (Mat.of 1 m.bondDim (fun _ r => m.initVec.get [r]) :: (List.range n).map (tiMat m x) ++
      [Mat.of m.bondDim 1 (fun l _ => m.termMat.get [l, o])]) = some M) : M.e 0 0 = tiValue m n x o := by
  rw [orderedProd_eq, List.cons_append, prodL_cons_foldl, List.foldl_append, Option.some.injEq] at hM
  obtain ⟨h1, h2, h3⟩ := foldl_state m x n
  subst hM
  simp only [List.foldl_cons, List.foldl_nil, Mat.mul, h2, tiValue]
  refine Finset.sum_congr rfl ?_
  intro l hl
  have hl := Finset.mem_range.1 hl
  rw [h3 l hl]
  congr 1
  simp [Mat.of, hl]

theorem expand_core (D F n : ℕ) (t : Tensor K) (ht : t.shape = [D, D, F]) :
    ∃ t', (t.unsqueeze 0).expand [n, D, D, F] = .ok t' ∧ t'.shape = [n, D, D, F] ∧
      ∀ s < n, ∀ l < D, ∀ r < D, ∀ f < F, t'.get [s, l, r, f] = t.get [l, r, f] := by
  have hu : (t.unsqueeze 0).shape = [1, D, D, F] := by simp [Tensor.unsqueeze, ht]
  refine ⟨⟨[n, D, D, F], fun idx => (t.unsqueeze 0).get (Tensor.clampIdx (t.unsqueeze 0).shape idx)⟩, ?_, rfl, ?_⟩
  · unfold Tensor.expand
    rw [if_pos]
    rw [hu]
    exact .cons (Or.inr rfl) (.cons (Or.inl rfl) (.cons (Or.inl rfl) (.cons (Or.inl rfl) .nil)))
  · intro s hs l hl r hr f hf
    simp only [hu]
    have hc : Tensor.clampIdx [1, D, D, F] [s, l, r, f] = 0 :: [l, r, f] := by
      have := Tensor.clampIdx_of_inRange (sh := [D, D, F]) (idx := [l, r, f]) (.cons hl (.cons hr (.cons hf .nil)))
      have e : Tensor.clampIdx [1, D, D, F] [s, l, r, f] = 0 :: Tensor.clampIdx [D, D, F] [l, r, f] := rfl
      rw [e, this]
    rw [hc]
    simp [Tensor.unsqueeze]

/-- the region built by `forward` -/
theorem ti_region [CommSemiring K] (m : TiMps K) (h : IsTi m) (n : ℕ) (core : Tensor K)
    (hc : core.shape = [n, m.bondDim, m.bondDim, m.featureDim]) :
    ∃ bias, mkInputRegion core m.useBias m.biasMat = .ok (.inputRegion core bias) ∧ (∀ bm ∈ bias, bm.shape = [1, m.bondDim, m.bondDim]) ∧
      ∀ l r, biasEntry bias l r = tiBiasAt m l r := by
  unfold mkInputRegion
  rw [assert_true _ (by simp [Tensor.ndim, hc]), assert_true _ (by simp [hc])]
  simp only [bind_ok_except]
  by_cases hb : m.useBias = true
  · obtain ⟨b, b1, b2⟩ := h.bias hb
    rw [if_pos hb]
    refine ⟨some (b.unsqueeze 0), ?_, ?_, ?_⟩
    · unfold regionBias
      simp [b1, Tensor.ndim, b2]
    · intro bm hbm
      cases hbm
      simp [Tensor.unsqueeze, b2]
    · intro l r
      simp [biasEntry, tiBiasAt, hb, b1, Tensor.unsqueeze]
  · rw [if_neg hb]
    refine ⟨none, rfl, by simp, ?_⟩
    intro l r
    simp [biasEntry, tiBiasAt, hb]

theorem ti_forward [CommRing K] (m : TiMps K) (h : IsTi m) (inp : TiInput K) (x : Tensor K) (hf : m.formatInput inp = .ok x)
    (B n : ℕ) (hx : x.shape = [B, n, m.featureDim]) (hn : 1 ≤ n) (g : Option ℕ) :
    ∃ y, m.forward inp g = (.ok y, some B) ∧ y.shape = [B, m.outputDim] ∧ ∀ b < B, ∀ o < m.outputDim,
      y.get [b, o] = tiValue m n (seqOf x b) o := by
  obtain ⟨core, c1, c2, c3⟩ := expand_core m.bondDim m.featureDim n m.core h.core
  obtain ⟨bias, b1, b2, b3⟩ := ti_region m h n core c2
  obtain ⟨mats, m1, m2, m3⟩ := inputRegionMats_ok B n m.bondDim m.featureDim core x bias c2 hx b2
  set E : Contractable K := ⟨.edgeVec, ⟨[B, m.bondDim], fun idx => m.initVec.get (idx.drop 1)⟩, ['b', 'r']⟩ with hE
  set R : Contractable K := ⟨.matRegion, mats, ['b', 's', 'l', 'r']⟩ with hR
  set T : Contractable K := ⟨.outputMat, ⟨[B, m.bondDim, m.outputDim], fun idx => m.termMat.get (idx.drop 1)⟩, ['b', 'l', 'o']⟩ with hT
  have pR : Piece B R := region_piece B n m.bondDim mats m2 hn
  obtain ⟨c, r1, r2, r3, r4⟩ := C48_terminal B m.outputDim E T [R] m.parallel ⟨edge_piece B m.bondDim true _ rfl, rfl, rfl⟩
    ⟨terminal_piece B m.bondDim m.outputDim _ rfl, rfl, rfl, by simp [axis, hT]⟩
    (by intro c hc; rw [List.mem_singleton.1 hc]; exact pR) (by intro c hc; rw [List.mem_singleton.1 hc]; exact Or.inl rfl)
    (by
      refine ⟨?_, ?_, trivial⟩
      · simp [axis, hE, hR, m2]
      · simp [axis, hT, hR, m2]) (some B)
  have hlist : E :: [R] ++ [T] = [E, R, T] := rfl
  rw [hlist] at r1 r4
  refine ⟨c.tensor, ?_, r3, ?_⟩
  · unfold TiMps.forward
    rw [hf, CM.bind_ok (CM.lift_apply _ _), hx]
    simp only [List.getD_cons_succ, List.getD_cons_zero]
    rw [c1, CM.bind_ok (CM.lift_apply _ _), b1, CM.bind_ok (CM.lift_apply _ _)]
    have hfw : (Module.inputRegion core bias).forward x g = (.ok R, some B) := by
      simp only [Module.forward]
      rw [m1, CM.bind_ok (CM.lift_apply _ _), mkMatRegion_ok B n m.bondDim mats m2]
    have he : mkEdgeVec m.initVec true (some B) = (.ok E, some B) := mkEdgeVec_expand m.bondDim true m.initVec h.initVec B
    have ht : mkOutputMat m.termMat false (some B) = (.ok T, some B) := mkOutputMat_expand m.bondDim m.outputDim m.termMat h.termMat B
    rw [CM.bind_ok hfw, CM.bind_ok he, CM.bind_ok ht, CM.bind_ok r1]
    simp only
    rw [r2, r3, assert_true _ rfl, CM.bind_ok (CM.lift_apply _ _), assert_true _ (by simp), CM.bind_ok (CM.lift_apply _ _),
      assert_true _ (by simp), CM.bind_ok (CM.lift_apply _ _)]
    rfl
  · intro b hb o ho
    obtain ⟨M, M1, M2, M3, M4⟩ := r4 b hb o ho
    rw [M4]
    refine terminal_value m (seqOf x b) n o M ?_
    rw [← M1]
    congr 1
    have f1 : factors E b o = [Mat.of 1 m.bondDim (fun _ r => m.initVec.get [r])] := by
      show [matOf E b o] = _
      rw [edge_mat_left E rfl]
      simp [axis, hE]
    have f2 : factors T b o = [Mat.of m.bondDim 1 (fun l _ => m.termMat.get [l, o])] := by
      show [matOf T b o] = _
      rw [terminal_mat B m.bondDim m.outputDim _ rfl]
      simp
    have f3 : factors R b o = (List.range n).map (tiMat m (seqOf x b)) := by
      rw [region_factors B _ pR rfl]
      have e1 : axis R 's' = n := by simp [axis, hR, m2]
      have e2 : axis R 'l' = m.bondDim := by simp [axis, hR, m2]
      rw [e1, e2]
      refine List.map_congr_left ?_
      intro s hs
      have hs := List.mem_range.1 hs
      rw [m3 b hb s hs]
      unfold tiMat affMat
      refine mat_of_congr _ _ _ _ ?_
      intro l hl r hr
      rw [b3]
      congr 1
      refine Finset.sum_congr rfl ?_
      intro f hff
      beta_reduce
      rw [c3 s hs l hl r hr f (Finset.mem_range.1 hff)]
      rfl
    simp only [List.flatMap_cons, List.flatMap_nil, f1, f2, f3]
    simp

end TorchMPS
