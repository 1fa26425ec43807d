import Verif.Lemmas.SvdParse
import Mathlib.Data.List.Sort
/-
The matrices and tensors computed by `svd_flex`.
-/
namespace TorchMPS

theorem sortDesc_of_sorted {s : List ℝ} (h : s.Pairwise (fun a b => b ≤ a)) : sortDesc s = s := by
  unfold sortDesc
  apply List.mergeSort_of_pairwise
  exact h.imp (fun {a b} hab => by simpa using hab)

theorem truncLen_le (cutoff : ℝ) (s : List ℝ) : truncLen cutoff s ≤ s.length := by
  induction s with
  | nil => simp [truncLen]
  | cons x s ih =>
    simp only [truncLen, List.length_cons]
    split <;> omega

/-- What the SVD phase of `svd_flex` produces: factors with `D` columns / rows that agree with the first
`tr` singular triples of `d` and contribute nothing beyond. -/
structure Factors (A : Mat ℝ) (d : SVD) (D tr : ℕ) (U : Mat ℝ) (s : List ℝ) (W : Mat ℝ) : Prop where
  ur : U.r = A.r
  uc : U.c = D
  wr : W.r = D
  wc : W.c = A.c
  slen : s.length = D
  le : tr ≤ D
  keepU : ∀ i, ∀ k < tr, k < min A.r A.c → U.e i k = d.U.e i k
  keepS : ∀ k < tr, k < min A.r A.c → s.getD k 0 = d.s.getD k 0
  keepW : ∀ j, ∀ k < tr, k < min A.r A.c → W.e k j = d.V.e j k
  zeroU : ∀ i, ∀ k < D, (tr ≤ k ∨ min A.r A.c ≤ k) → U.e i k = 0
  zeroS : ∀ k < D, (tr ≤ k ∨ min A.r A.c ≤ k) → s.getD k 0 = 0
  zeroW : ∀ j, ∀ k < D, (tr ≤ k ∨ min A.r A.c ≤ k) → W.e k j = 0

/-- the singular values after resizing to `max_D` -/
def resizedSvs (maxD : ℕ) (s : List ℝ) : List ℝ :=
  if maxD = 0 then s else if s.length > maxD then s.take maxD else s ++ List.replicate (maxD - s.length) 0

theorem resizeSvd_svs (maxD : ℕ) (U : Mat ℝ) (s : List ℝ) (W : Mat ℝ) :
    (resizeSvd maxD U s W).2.1 = resizedSvs maxD s := by
  unfold resizeSvd resizedSvs
  by_cases h0 : maxD = 0
  · simp [h0]
  · by_cases h1 : s.length > maxD
    · simp [h0, h1]
    · by_cases h2 : s.length < maxD
      · simp [h0, h1, h2]
      · simp [h0, h1, h2]
        omega

theorem resizedSvs_length (maxD : ℕ) (s : List ℝ) :
    (resizedSvs maxD s).length = if maxD = 0 then s.length else maxD := by
  unfold resizedSvs
  by_cases h0 : maxD = 0
  · simp [h0]
  · by_cases h1 : s.length > maxD
    · simp [h0, h1]; omega
    · simp [h0, h1]; omega

theorem factors_of {A : Mat ℝ} {d : SVD} (h : Spec.IsSVD A d) (maxD : ℕ) (cutoff : ℝ) :
    let R := resizeSvd maxD d.U (sortDesc d.s) d.V.transpose
    let tr := truncLen cutoff R.2.1
    let T := truncSvd maxD tr R.1 R.2.1 R.2.2
    Factors A d (if maxD ≠ 0 then maxD else tr) tr T.1 T.2.1 T.2.2 := by
  simp only
  rw [sortDesc_of_sorted h.sorted]
  have hle := truncLen_le cutoff (resizeSvd maxD d.U d.s d.V.transpose).2.1
  rw [resizeSvd_svs, resizedSvs_length] at hle
  rw [resizeSvd_svs]
  set tr := truncLen cutoff (resizedSvs maxD d.s) with htr
  have hl := h.len
  have hur := h.urows
  have huc := h.ucols
  have hvr := h.vrows
  have hvc := h.vcols
  by_cases h0 : maxD = 0
  · simp only [h0, if_true] at hle
    have e : resizeSvd maxD d.U d.s d.V.transpose = (d.U, d.s, d.V.transpose) := by
      simp [resizeSvd, h0]
    have e2 : resizedSvs maxD d.s = d.s := by simp [resizedSvs, h0]
    rw [e, e2]
    simp only [truncSvd, h0, ne_eq, not_true_eq_false, if_false]
    refine ⟨hur, by show min tr d.U.c = tr; omega, by show min tr d.V.c = tr; omega, hvr, by simp; omega, le_refl _, ?_, ?_, ?_, ?_, ?_, ?_⟩
    · intros; rfl
    · intro k hk _; rw [List.getD_eq_getElem?_getD, List.getElem?_take_of_lt hk, ← List.getD_eq_getElem?_getD]
    · intros; rfl
    · intro i k hk hh; omega
    · intro k hk hh; omega
    · intro i k hk hh; omega
  · simp only [h0, if_false] at hle
    have hz : ∀ (s : List ℝ) (m k : ℕ), tr ≤ s.length → tr ≤ k →
        (s.take tr ++ List.replicate m 0).getD k 0 = 0 := by
      intro s m k hts hk
      rw [List.getD_eq_getElem?_getD, List.getElem?_append_right (by simp; omega), List.getElem?_replicate]
      split <;> rfl
    have hkeep : ∀ (s : List ℝ) (m k : ℕ), k < tr → tr ≤ s.length →
        (s.take tr ++ List.replicate m 0).getD k 0 = s.getD k 0 := by
      intro s m k hk hts
      rw [List.getD_eq_getElem?_getD, List.getElem?_append_left (by simp; omega),
        List.getElem?_take_of_lt hk, ← List.getD_eq_getElem?_getD]
    simp only [truncSvd, ne_eq, h0, not_false_eq_true, if_true]
    by_cases h1 : d.s.length > maxD
    · have e : resizeSvd maxD d.U d.s d.V.transpose =
          (⟨d.U.r, min maxD d.U.c, d.U.e⟩, d.s.take maxD, ⟨min maxD d.V.c, d.V.r, d.V.transpose.e⟩) := by
        simp [resizeSvd, h0, h1, Mat.transpose]
      have e2 : resizedSvs maxD d.s = d.s.take maxD := by simp [resizedSvs, h0, h1]
      rw [e, e2]
      have hlt : (d.s.take maxD).length = maxD := by simp; omega
      refine ⟨hur, by simp; omega, by simp; omega, hvr, by simp; omega, hle, ?_, ?_, ?_, ?_, ?_, ?_⟩
      · intro i k hk _; simp [hk]
      · intro k hk _
        rw [hkeep _ _ _ hk (by omega), List.getD_eq_getElem?_getD, List.getElem?_take_of_lt (by omega),
          ← List.getD_eq_getElem?_getD]
      · intro j k hk _; simp [hk, Mat.transpose]
      · intro i k hk hh; simp; omega
      · intro k hk hh; exact hz _ _ _ (by omega) (by omega)
      · intro i k hk hh; simp; omega
    · by_cases h2 : d.s.length < maxD
      · have e : resizeSvd maxD d.U d.s d.V.transpose =
            (⟨d.U.r, maxD, fun i k => if k < d.U.c then d.U.e i k else 0⟩,
              d.s ++ List.replicate (maxD - d.s.length) 0,
              ⟨maxD, d.V.r, fun k j => if k < d.V.c then d.V.e j k else 0⟩) := by
          simp [resizeSvd, h0, h1, h2, Mat.transpose]
          rfl
        have e2 : resizedSvs maxD d.s = d.s ++ List.replicate (maxD - d.s.length) 0 := by
          simp [resizedSvs, h0, h1]
        rw [e, e2]
        have hlt : (d.s ++ List.replicate (maxD - d.s.length) (0 : ℝ)).length = maxD := by simp; omega
        refine ⟨hur, rfl, rfl, hvr, by simp; omega, hle, ?_, ?_, ?_, ?_, ?_, ?_⟩
        · intro i k hk hk2; simp only [hk, if_true]; rw [if_pos (by omega)]
        · intro k hk hk2
          rw [hkeep _ _ _ hk (by omega), List.getD_eq_getElem?_getD, List.getElem?_append_left (by omega),
            ← List.getD_eq_getElem?_getD]
        · intro j k hk hk2; simp only [hk, if_true]; rw [if_pos (by omega)]
        · intro i k hk hh
          simp only
          split
          · rw [if_neg (by omega)]
          · rfl
        · intro k hk hh
          rcases hh with hh | hh
          · exact hz _ _ _ (by omega) hh
          · by_cases hkt : k < tr
            · rw [hkeep _ _ _ hkt (by omega), List.getD_eq_getElem?_getD,
                List.getElem?_append_right (by omega), List.getElem?_replicate]
              split <;> rfl
            · exact hz _ _ _ (by omega) (by omega)
        · intro i k hk hh
          simp only
          split
          · rw [if_neg (by omega)]
          · rfl
      · have e : resizeSvd maxD d.U d.s d.V.transpose = (d.U, d.s, d.V.transpose) := by
          simp [resizeSvd, h0, h1, h2]
        have hlen : d.s.length = maxD := by omega
        have e2 : resizedSvs maxD d.s = d.s := by simp [resizedSvs, h0, hlen]
        rw [e, e2]
        refine ⟨hur, by simp; omega, by simp [Mat.transpose]; omega, hvr, by simp; omega, hle, ?_, ?_, ?_, ?_, ?_, ?_⟩
        · intro i k hk _; simp [hk]
        · intro k hk _; exact hkeep _ _ _ hk (by omega)
        · intro j k hk _; simp [hk, Mat.transpose]
        · intro i k hk hh; simp; omega
        · intro k hk hh; exact hz _ _ _ (by omega) (by omega)
        · intro i k hk hh; simp; omega

/-- The product of the factors is the truncated decomposition. -/
theorem Factors.prod {A : Mat ℝ} {d : SVD} {D tr : ℕ} {U : Mat ℝ} {s : List ℝ} {W : Mat ℝ}
    (h : Factors A d D tr U s W) (i j : ℕ) :
    ∑ k ∈ Finset.range D, U.e i k * s.getD k 0 * W.e k j =
      ∑ k ∈ Finset.range (min tr (min A.r A.c)), d.U.e i k * d.s.getD k 0 * d.V.e j k := by
  symm
  have hle := h.le
  refine Eq.trans (Finset.sum_congr rfl ?_) (Finset.sum_subset
    (f := fun k => U.e i k * s.getD k 0 * W.e k j) ?_ ?_)
  · intro k hk
    have hk := Finset.mem_range.1 hk
    rw [h.keepU i k (by omega) (by omega), h.keepS k (by omega) (by omega), h.keepW j k (by omega) (by omega)]
  · intro k hk
    have hk := Finset.mem_range.1 hk
    exact Finset.mem_range.2 (by omega)
  · intro k hk hk2
    have hk := Finset.mem_range.1 hk
    rw [Finset.mem_range] at hk2
    rw [h.zeroS k hk (by omega)]; ring

/-! ### Tensors -/

theorem filter_map_set (sz : Char → ℕ) (str : List Char) (c : Char) (D : ℕ) (h : c ∉ str) :
    str.map (Env.set sz c D) = str.map sz := by
  refine List.map_congr_left ?_
  intro d hd
  simp only [Env.set]
  rw [if_neg]; rintro rfl; exact h hd

theorem map_take_append (sz : Char → ℕ) (a b : List Char) : ((a ++ b).map sz).take a.length = a.map sz := by
  simp
theorem map_drop_append (sz : Char → ℕ) (a b : List Char) : ((a ++ b).map sz).drop a.length = b.map sz := by
  simp

/-- The matrix handed to `torch.svd`. -/
theorem svdMatrix_reads (sz : Char → ℕ) (t : Tensor ℝ) (ini lp rp : List Char) (f : Env → ℝ)
    (ht : t.Reads sz ini f) (hnd : (lp ++ rp).Nodup) (hsub : ∀ d ∈ lp ++ rp, d ∈ ini) :
    ∃ A, svdMatrix t ini lp rp = .ok (A, lp.map sz, rp.map sz) ∧ A.r = (lp.map sz).prod ∧
      A.c = (rp.map sz).prod ∧ (∃ g, A = Mat.of (lp.map sz).prod (rp.map sz).prod g) ∧
      ∀ env : Env, (∀ d ∈ lp ++ rp, env d < sz d) →
        A.e (ravel (lp.map sz) (lp.map env)) (ravel (rp.map sz) (rp.map env)) =
          sumOver sz (innerLetters [ini] (lp ++ rp)) env f := by
  obtain ⟨t1, e1, e2, e3⟩ := einsum1_reads sz ini (lp ++ rp) t f ht hnd hsub
  have hv : t1.view [(lp.map sz).prod, (rp.map sz).prod] = .ok ⟨[(lp.map sz).prod, (rp.map sz).prod],
      fun idx => t1.get (unravel t1.shape (ravel [(lp.map sz).prod, (rp.map sz).prod] idx))⟩ := by
    unfold Tensor.view
    rw [if_pos]
    rw [e2]; simp
  rw [e2] at hv
  refine ⟨Mat.of (lp.map sz).prod (rp.map sz).prod (fun i j =>
    t1.get (unravel ((lp ++ rp).map sz) (ravel [(lp.map sz).prod, (rp.map sz).prod] [i, j]))), ?_, rfl, rfl,
    ⟨_, rfl⟩, ?_⟩
  · unfold svdMatrix
    rw [e1]
    simp only [bind, Except.bind, e2, map_take_append, map_drop_append]
    rw [hv]
    rfl
  · intro env henv
    have hl : InRange (lp.map env) (lp.map sz) := (inRange_map sz lp env).2 (fun c hc => henv c (by simp [hc]))
    have hr : InRange (rp.map env) (rp.map sz) := (inRange_map sz rp env).2 (fun c hc => henv c (by simp [hc]))
    simp only [Mat.of]
    rw [if_pos ⟨ravel_lt hl, ravel_lt hr⟩]
    refine Eq.trans ?_ (e3 env henv)
    congr 1
    rw [List.map_append, List.map_append]
    have : ravel [(lp.map sz).prod, (rp.map sz).prod]
        [ravel (lp.map sz) (lp.map env), ravel (rp.map sz) (rp.map env)] =
        ravel (lp.map sz) (lp.map env) * (rp.map sz).prod + ravel (rp.map sz) (rp.map env) := by
      simp [ravel]
    rw [this, ← ravel_append hl.length_eq, unravel_ravel (hl.append hr)]

theorem permuteOut_reads (sz : Char → ℕ) (hv wt : List Char) (t : Tensor ℝ) (f : Env → ℝ)
    (ht : t.Reads sz hv f) (hnd : wt.Nodup) (hm : ∀ c, c ∈ wt ↔ c ∈ hv) :
    ∃ t', permuteOut hv wt t = .ok t' ∧ t'.Reads sz wt f := by
  unfold permuteOut
  by_cases h : wt = hv
  · subst h; exact ⟨t, by simp, ht⟩
  · rw [if_pos h]
    obtain ⟨t', e1, e2⟩ := einsum1_reads sz hv wt t f ht hnd (fun c hc => (hm c).1 hc)
    refine ⟨t', e1, ?_⟩
    rw [innerLetters_nil (by simp [hm])] at e2
    exact e2

/-- The output tensors of `svd_flex`. -/
theorem svdOutputs_reads (sz : Char → ℕ) (svRight : Bool) {A : Mat ℝ} {d : SVD} {D tr : ℕ} {U : Mat ℝ}
    {s : List ℝ} {W : Mat ℝ} (h : Factors A d D tr U s W) {ini l r : List Char} {c : Char}
    (hs : Spec.SvdString ini l r c) (hAr : A.r = ((l.filter (· ≠ c)).map sz).prod)
    (hAc : A.c = ((r.filter (· ≠ c)).map sz).prod) :
    ∃ lt rt, svdOutputs svRight D ((l.filter (· ≠ c)).map sz) ((r.filter (· ≠ c)).map sz) l r
        (l.filter (· ≠ c)) (r.filter (· ≠ c)) c U s W = .ok (lt, rt) ∧
      lt.Reads (Env.set sz c D) l (fun env =>
        U.e (ravel ((l.filter (· ≠ c)).map sz) ((l.filter (· ≠ c)).map env)) (env c) *
          (if svRight then 1 else s.getD (env c) 0)) ∧
      rt.Reads (Env.set sz c D) r (fun env =>
        (if svRight then s.getD (env c) 0 else 1) *
          W.e (env c) (ravel ((r.filter (· ≠ c)).map sz) ((r.filter (· ≠ c)).map env))) := by
  set lp := l.filter (· ≠ c) with hlp
  set rp := r.filter (· ≠ c) with hrp
  have hcl : c ∉ lp := by simp [hlp]
  have hcr : c ∉ rp := by simp [hrp]
  set U' : Mat ℝ := if svRight then U else ⟨U.r, U.c, fun i k => U.e i k * s.getD k 0⟩ with hU'
  set W' : Mat ℝ := if svRight then ⟨W.r, W.c, fun k j => s.getD k 0 * W.e k j⟩ else W with hW'
  have hU'r : U'.r = (lp.map sz).prod := by rw [hU']; split <;> rw [← hAr, ← h.ur]
  have hU'c : U'.c = D := by rw [hU']; split <;> rw [← h.uc]
  have hW'r : W'.r = D := by rw [hW']; split <;> rw [← h.wr]
  have hW'c : W'.c = (rp.map sz).prod := by rw [hW']; split <;> rw [← hAc, ← h.wc]
  have hU'e : ∀ i k, U'.e i k = U.e i k * (if svRight then 1 else s.getD k 0) := by
    intro i k; rw [hU']; cases svRight <;> simp
  have hW'e : ∀ k j, W'.e k j = (if svRight then s.getD k 0 else 1) * W.e k j := by
    intro i k; rw [hW']; cases svRight <;> simp
  obtain ⟨lt0, l1, l2⟩ : ∃ lt0, U'.toTensor.view (lp.map sz ++ [D]) = .ok lt0 ∧
      lt0.Reads (Env.set sz c D) (lp ++ [c]) (fun env =>
        U.e (ravel (lp.map sz) (lp.map env)) (env c) * (if svRight then 1 else s.getD (env c) 0)) := by
    unfold Tensor.view
    rw [if_pos (by simp [Mat.toTensor, hU'r, hU'c])]
    refine ⟨_, rfl, ?_, ?_⟩
    · simp only [List.map_append, filter_map_set sz lp c D hcl]; simp [Env.set]
    · intro env henv
      simp only [Mat.toTensor, List.map_append, List.map_cons, List.map_nil]
      rw [hU'r, hU'c]
      have hr1 : InRange (lp.map env) (lp.map sz) := (inRange_map sz lp env).2 (fun x hx => by
        have := henv x (by simp [hx])
        have hxc : x ≠ c := by rintro rfl; exact hcl hx
        simpa [Env.set, hxc] using this)
      have hrc : env c < D := by simpa [Env.set] using henv c (by simp)
      rw [ravel_append hr1.length_eq]
      have : ravel (lp.map sz) (lp.map env) * [D].prod + ravel [D] [env c] =
          ravel [(lp.map sz).prod, D] [ravel (lp.map sz) (lp.map env), env c] := by
        simp [ravel]
      rw [this, unravel_ravel (by simp [ravel_lt hr1, hrc])]
      simp [hU'e]
  obtain ⟨rt0, r1, r2⟩ : ∃ rt0, W'.toTensor.view (D :: rp.map sz) = .ok rt0 ∧
      rt0.Reads (Env.set sz c D) (c :: rp) (fun env =>
        (if svRight then s.getD (env c) 0 else 1) * W.e (env c) (ravel (rp.map sz) (rp.map env))) := by
    unfold Tensor.view
    rw [if_pos (by simp [Mat.toTensor, hW'r, hW'c])]
    refine ⟨_, rfl, ?_, ?_⟩
    · simp only [List.map_cons, filter_map_set sz rp c D hcr]; simp [Env.set]
    · intro env henv
      simp only [Mat.toTensor, List.map_cons]
      rw [hW'r, hW'c]
      have hr1 : InRange (rp.map env) (rp.map sz) := (inRange_map sz rp env).2 (fun x hx => by
        have := henv x (by simp [hx])
        have hxc : x ≠ c := by rintro rfl; exact hcr hx
        simpa [Env.set, hxc] using this)
      have hrc : env c < D := by simpa [Env.set] using henv c (by simp)
      have : ravel (D :: rp.map sz) (env c :: rp.map env) =
          ravel [D, (rp.map sz).prod] [env c, ravel (rp.map sz) (rp.map env)] := by
        simp [ravel]
      rw [this, unravel_ravel (by simp [ravel_lt hr1, hrc])]
      simp [hW'e]
  obtain ⟨lt, l3, l4⟩ := permuteOut_reads _ (lp ++ [c]) l lt0 _ l2 hs.nodupL (by
    intro x
    simp only [hlp, List.mem_append, List.mem_filter, List.mem_singleton, ne_eq, decide_not,
      Bool.not_eq_true', decide_eq_false_iff_not]
    constructor
    · intro hx; by_cases hxc : x = c
      · exact Or.inr hxc
      · exact Or.inl ⟨hx, hxc⟩
    · rintro (hx | rfl)
      · exact hx.1
      · exact hs.left)
  obtain ⟨rt, r3, r4⟩ := permuteOut_reads _ (c :: rp) r rt0 _ r2 hs.nodupR (by
    intro x
    simp only [hrp, List.mem_cons, List.mem_filter, ne_eq, decide_not,
      Bool.not_eq_true', decide_eq_false_iff_not]
    constructor
    · intro hx; by_cases hxc : x = c
      · exact Or.inl hxc
      · exact Or.inr ⟨hx, hxc⟩
    · rintro (rfl | hx)
      · exact hs.right
      · exact hx.1)
  refine ⟨lt, rt, ?_, l4, r4⟩
  unfold svdOutputs
  simp only
  rw [← hU', ← hW', l1]
  simp only [bind, Except.bind]
  rw [r1]
  simp only
  rw [l3]
  simp only
  rw [r3]
  rfl

end TorchMPS
