import Verif.Props.Svd
import Mathlib.Data.List.GetD
/-
C70: the factors returned by `svd_flex` are orthogonal along the new bond.
-/
namespace TorchMPS
open Spec

theorem gram_side (sz : Char → ℕ) (w lp : List Char) (c : Char) (hlp : lp = w.filter (· ≠ c)) (hc : c ∈ w) (hnd : w.Nodup)
    (D : ℕ) (t : Tensor ℝ) (V : ℕ → ℕ → ℝ) (coef : ℕ → ℝ)
    (hR : t.Reads (Env.set sz c D) w (fun env => V (ravel (lp.map sz) (lp.map env)) (env c) * coef (env c)))
    (k k' : ℕ) (hk : k < D) (hk' : k' < D) :
    sumIdx (lp.map sz) (fun idx => t.get (w.map (Env.set (Env.ofOut lp idx) c k)) * t.get (w.map (Env.set (Env.ofOut lp idx) c k'))) =
      (∑ i ∈ Finset.range (lp.map sz).prod, V i k * V i k') * (coef k * coef k') := by
  have hcl : c ∉ lp := by rw [hlp]; simp
  have hget : ∀ k < D, ∀ idx, InRange idx (lp.map sz) →
      t.get (w.map (Env.set (Env.ofOut lp idx) c k)) = V (ravel (lp.map sz) idx) k * coef k := by
    intro k hk idx hidx
    have hl : idx.length = lp.length := by
      have := List.Forall₂.length_eq hidx
      simpa using this
    have hm : lp.map (Env.set (Env.ofOut lp idx) c k) = idx := by
      have : lp.map (Env.set (Env.ofOut lp idx) c k) = lp.map (Env.ofOut lp idx) := by
        refine List.map_congr_left ?_
        intro d hd
        have : d ≠ c := by rintro rfl; exact hcl hd
        simp [Env.set, this]
      rw [this]
      exact Env.map_ofOut lp (by rw [hlp]; exact hnd.filter _) idx hl
    rw [hR.2 _ (by
      intro d hd
      by_cases hdc : d = c
      · simp [Env.set, hdc, hk]
      · simp only [Env.set, if_neg hdc]
        exact Env.ofOut_lt sz lp idx hidx d (by rw [hlp]; simp [hd, hdc]))]
    simp only
    rw [hm]
    simp [Env.set]
  rw [sumIdx_congr _ _ (fun idx => (fun i => V i k * coef k * (V i k' * coef k')) (ravel (lp.map sz) idx)) (by
    intro idx hidx
    rw [hget k hk idx hidx, hget k' hk' idx hidx])]
  rw [sumIdx_ravel (lp.map sz) (fun i => V i k * coef k * (V i k' * coef k')), Finset.sum_mul]
  refine Finset.sum_congr rfl ?_
  intro i _
  ring

/-- C70: along the new bond (as far as singular values were kept), the factor without the singular values has orthonormal slices, and
the other one orthogonal slices whose squared norms are the squared singular values. -/
theorem C70_orthogonal_factors (svd : Mat ℝ → SVD) (hsvd : ∀ A, IsSVD A (svd A))
    (pop : List Char → Char) (hpop : ∀ x xs, pop (x :: xs) ∈ x :: xs)
    (str ini l r : List Char) (c : Char) (hstr : str.filter (· ≠ ' ') = svdStr ini l r)
    (hs : SvdString ini l r c) (hcov : Covers ini l r)
    (t : Tensor ℝ) (sz : Char → ℕ) (ht : t.shape = ini.map sz) (maxD : ℕ) (cutoff : ℝ) (svRight : Bool)
    (svVec : Option (Tensor ℝ)) (out : SvdOut)
    (hout : svdFlex svd pop t str maxD cutoff svRight svVec = .ok out) :
    let svs := singularValues svd t ini l r c
    let outer : List Char → List Char := fun w => w.filter (· ≠ c)
    let gram : Tensor ℝ → List Char → ℕ → ℕ → ℝ := fun f w k k' =>
      sumIdx ((outer w).map sz) (fun idx =>
        f.get (w.map (Env.set (Env.ofOut (outer w) idx) c k)) * f.get (w.map (Env.set (Env.ofOut (outer w) idx) c k')))
    ∀ k < out.bondDim, k < svs.length → ∀ k' < out.bondDim, k' < svs.length →
      gram out.left l k k' = (if k = k' then (if svRight then 1 else svs.getD k 0 ^ 2) else 0) ∧
      gram out.right r k k' = (if k = k' then (if svRight then svs.getD k 0 ^ 2 else 1) else 0) := by
  intro svs outer gram k hk hks k' hk' hks'
  have hlen : t.ndim = ini.length := by unfold Tensor.ndim; rw [ht]; simp
  obtain ⟨f1, f2⟩ := svdFlex_facts svd hsvd pop hpop str ini l r c hstr hs hcov t hlen maxD cutoff svRight svVec
  obtain ⟨g1, g2, g3⟩ := svdFlex_out svd hsvd pop hpop str ini l r c hstr hs hcov t hlen maxD cutoff svRight svVec out hout
  obtain ⟨b1, b2⟩ := f2 _ g1
  obtain ⟨lt, rt, U, s, W, c1, hF, hL, hR, _⟩ := b2 (by unfold singularValues at g2; rw [← g2]; exact g3)
  rw [c1] at hout
  injection hout with hout
  have hbd : truncLen cutoff (resizedSvs maxD (svd (flattening t ini (l.filter (· ≠ c)) (r.filter (· ≠ c)))).s) = out.bondDim := g2.symm
  rw [hbd] at hF hL hR
  have hl : out.left = lt := by rw [← hout]
  have hr : out.right = rt := by rw [← hout]
  set A := flattening t ini (l.filter (· ≠ c)) (r.filter (· ≠ c)) with hA
  have hsz : ∀ d ∈ ini, Env.ofOut ini t.shape d = sz d := by
    intro d hd; rw [ht]; exact Env.ofOut_map ini sz d hd
  have hmapL : (l.filter (· ≠ c)).map (Env.ofOut ini t.shape) = (l.filter (· ≠ c)).map sz := by
    refine List.map_congr_left ?_
    intro d hd
    simp at hd
    exact hsz d ((hs.subL d hd.1).resolve_left hd.2)
  have hmapR : (r.filter (· ≠ c)).map (Env.ofOut ini t.shape) = (r.filter (· ≠ c)).map sz := by
    refine List.map_congr_left ?_
    intro d hd
    simp at hd
    exact hsz d ((hs.subR d hd.1).resolve_left hd.2)
  have hAr : ((l.filter (· ≠ c)).map (Env.ofOut ini t.shape)).prod = A.r := rfl
  have hAc : ((r.filter (· ≠ c)).map (Env.ofOut ini t.shape)).prod = A.c := rfl
  have hsl : svs.length = min A.r A.c := (hsvd A).len
  have hkD := hF.le
  have hm : k < min A.r A.c := by omega
  have hm' : k' < min A.r A.c := by omega
  have hsv : svs = (svd A).s := rfl
  rw [hl, hr]
  constructor
  · simp only [gram, outer]
    rw [← hmapL, gram_side (Env.ofOut ini t.shape) l _ c rfl hs.left hs.nodupL _ lt (fun i k => U.e i k) (fun k => if svRight then 1 else s.getD k 0) hL
      k k' (by omega) (by omega), hAr]
    rw [Finset.sum_congr rfl (g := fun i => (svd A).U.e i k * (svd A).U.e i k') (by
      intro i _
      rw [hF.keepU i k hk hm, hF.keepU i k' hk' hm'])]
    rw [(hsvd A).orthU k hm k' hm']
    by_cases hkk : k = k'
    · subst hkk
      cases svRight
      · have := hF.keepS k hk hm
        simp only [List.getD_eq_getElem?_getD] at this ⊢
        simp [this, hsv, sq]
      · simp
    · simp [hkk]
  · simp only [gram, outer]
    rw [← hmapR, gram_side (Env.ofOut ini t.shape) r _ c rfl hs.right hs.nodupR _ rt (fun j k => W.e k j) (fun k => if svRight then s.getD k 0 else 1)
      ⟨hR.1, fun env henv => by rw [hR.2 env henv]; beta_reduce; rw [mul_comm]⟩ k k' (by omega) (by omega), hAc]
    rw [Finset.sum_congr rfl (g := fun j => (svd A).V.e j k * (svd A).V.e j k') (by
      intro j _
      rw [hF.keepW j k hk hm, hF.keepW j k' hk' hm'])]
    rw [(hsvd A).orthV k hm k' hm']
    by_cases hkk : k = k'
    · subst hkk
      cases svRight
      · simp
      · have := hF.keepS k hk hm
        simp only [List.getD_eq_getElem?_getD] at this ⊢
        simp [this, hsv, sq]
    · simp [hkk]

/-- C70: with a positive cutoff all kept bond values are singular values, so the previous theorem is about the whole new bond (apart from
the zero padding). -/
theorem C70_kept_le (svd : Mat ℝ → SVD) (hsvd : ∀ A, IsSVD A (svd A))
    (pop : List Char → Char) (hpop : ∀ x xs, pop (x :: xs) ∈ x :: xs)
    (str ini l r : List Char) (c : Char) (hstr : str.filter (· ≠ ' ') = svdStr ini l r)
    (hs : SvdString ini l r c) (hcov : Covers ini l r)
    (t : Tensor ℝ) (ht : t.ndim = ini.length) (maxD : ℕ) (cutoff : ℝ) (hc : 0 < cutoff) (svRight : Bool)
    (svVec : Option (Tensor ℝ)) (out : SvdOut)
    (hout : svdFlex svd pop t str maxD cutoff svRight svVec = .ok out) :
    1 ≤ out.bondDim ∧ out.bondDim ≤ (singularValues svd t ini l r c).length ∧
      ∀ k < out.bondDim, cutoff ≤ (singularValues svd t ini l r c).getD k 0 := by
  obtain ⟨h1, h2, _⟩ := C40_bond_dim svd hsvd pop hpop str ini l r c hstr hs hcov t ht maxD cutoff hc svRight svVec out hout
  have hsort : (singularValues svd t ini l r c).Pairwise (fun a b => b ≤ a) := (hsvd _).sorted
  set svs := singularValues svd t ini l r c with hsvs
  have hle : out.bondDim ≤ svs.length := by
    rw [h1]
    refine le_trans (List.length_filter_le _ _) ?_
    split
    · exact le_refl _
    · exact List.length_take_le' _ _
  refine ⟨h2, hle, ?_⟩
  intro k hk
  have hsub : (if maxD = 0 then svs else svs.take maxD).Sublist svs := by
    split
    · exact List.Sublist.refl _
    · exact List.take_sublist _ _
  by_contra hx
  push Not at hx
  -- all values from `k` on are below the cutoff, so at most `k` are kept
  have hkl : k < svs.length := by omega
  rw [List.getD_eq_getElem _ _ hkl] at hx
  have hcount : (svs.filter (fun x => decide (cutoff ≤ x))).length ≤ k := by
    have e : svs = svs.take k ++ svs.drop k := (List.take_append_drop k svs).symm
    have hdrop : (svs.drop k).filter (fun x => decide (cutoff ≤ x)) = [] := by
      rw [List.filter_eq_nil_iff]
      intro x hxm
      obtain ⟨j, hj, rfl⟩ := List.getElem_of_mem hxm
      rw [List.getElem_drop]
      have hjl : k + j < svs.length := by
        rw [List.length_drop] at hj
        omega
      have : svs[k + j] ≤ svs[k] := by
        rcases Nat.eq_zero_or_pos j with h | h
        · subst h; exact le_refl _
        · exact List.pairwise_iff_getElem.1 hsort k (k + j) hkl hjl (by omega)
      simp only [decide_eq_true_eq, not_le]
      linarith
    rw [e, List.filter_append, hdrop, List.append_nil]
    exact le_trans (List.length_filter_le _ _) (List.length_take_le _ _)
  have := (hsub.filter (fun x => decide (cutoff ≤ x))).length_le
  omega

/-- A case meeting the hypotheses: a 2 x 2 tensor. -/
example : ∃ out, svdFlex someSvd popHead ⟨[2, 2], fun idx => if idx.getD 0 0 = idx.getD 1 0 then 1 else 0⟩ "ab->ac,cb".toList 0 0 true none = .ok out ∧
    SvdString ['a', 'b'] ['a', 'c'] ['c', 'b'] 'c' ∧ Covers ['a', 'b'] ['a', 'c'] ['c', 'b'] := by
  have hs : SvdString ['a', 'b'] ['a', 'c'] ['c', 'b'] 'c' := by constructor <;> decide
  obtain ⟨out, hout⟩ := (C41_accepted_strings someSvd someSvd_spec popHead popHead_mem
    "ab->ac,cb".toList ⟨[2, 2], fun idx => if idx.getD 0 0 = idx.getD 1 0 then 1 else 0⟩ (by simp) 0 true).2
    ⟨['a', 'b'], ['a', 'c'], ['c', 'b'], 'c', by decide, hs, rfl⟩
  exact ⟨out, hout, hs, by unfold Covers; decide⟩

end TorchMPS
