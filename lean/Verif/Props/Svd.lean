import Verif.Lemmas.SvdFacts
import Verif.Lemmas.SvdExists
import Mathlib.Tactic.Linarith
/-
C39, C40, C41: `svd_flex`.
-/
namespace TorchMPS

/-! ### C39 -/

/-- C39: when every singular value dropped is zero, contracting the outputs with the reversed index
string gives the input tensor. -/
theorem C39_svd_flex_reconstructs (svd : Mat ℝ → SVD) (hsvd : ∀ A, Spec.IsSVD A (svd A))
    (pop : List Char → Char) (hpop : ∀ x xs, pop (x :: xs) ∈ x :: xs)
    (str ini l r : List Char) (c : Char) (hstr : str.filter (· ≠ ' ') = Spec.svdStr ini l r)
    (hs : Spec.SvdString ini l r c) (hcov : Spec.Covers ini l r)
    (t : Tensor ℝ) (ht : t.ndim = ini.length) (maxD : ℕ) (cutoff : ℝ) (svRight : Bool)
    (svVec : Option (Tensor ℝ)) (out : SvdOut)
    (hout : svdFlex svd pop t str maxD cutoff svRight svVec = .ok out)
    (hdrop : ∀ k, out.bondDim ≤ k → (Spec.singularValues svd t ini l r c).getD k 0 = 0) :
    ∃ t', einsum [l, r] ini [out.left, out.right] = .ok t' ∧ t'.Eqv t := by
  obtain ⟨f1, f2⟩ := svdFlex_facts svd hsvd pop hpop str ini l r c hstr hs hcov t ht maxD cutoff svRight svVec
  cases hw : writeSvVec svVec (resizedSvs maxD (svd (Spec.flattening t ini (l.filter (· ≠ c)) (r.filter (· ≠ c)))).s) with
  | error e => rw [f1 e hw] at hout; simp at hout
  | ok sv =>
    obtain ⟨b1, b2⟩ := f2 sv hw
    by_cases htr : truncLen cutoff (resizedSvs maxD (svd (Spec.flattening t ini (l.filter (· ≠ c)) (r.filter (· ≠ c)))).s) = 0
    · rw [b1 htr] at hout; simp at hout
    · obtain ⟨lt, rt, U, s, W, c1, _, _, _, t', e1, e2, e3⟩ := b2 htr
      rw [c1] at hout
      injection hout with hout
      subst hout
      refine ⟨t', e1, e2, ?_⟩
      intro idx hidx
      have hr := (t.reads_self ini hs.nodupIni ht).1
      rw [e2] at hidx
      have hl : idx.length = ini.length := by rw [hidx.length_eq]; exact ht
      have hm : ini.map (Env.ofOut ini idx) = idx := Env.map_ofOut ini hs.nodupIni idx hl
      have hin : ∀ d ∈ ini, Env.ofOut ini idx d < Env.ofOut ini t.shape d := by
        rw [← inRange_map, hm, ← hr]; exact hidx
      obtain ⟨g1, g2, g3, g4⟩ := e3 _ hin
      rw [hm] at g3 g4
      rw [g4, g3, (hsvd _).recon _ g1 _ g2]
      refine Finset.sum_subset ?_ ?_
      · intro k hk
        have := Finset.mem_range.1 hk
        exact Finset.mem_range.2 (by omega)
      · intro k hk hk2
        have hk := Finset.mem_range.1 hk
        rw [Finset.mem_range] at hk2
        have := hdrop k (by simp only; omega)
        unfold Spec.singularValues at this
        rw [this]; ring

/-! ### C40 -/

theorem truncLen_filter (cutoff : ℝ) (s : List ℝ) (h : s.Pairwise (fun a b => b ≤ a)) :
    truncLen cutoff s = (s.filter (fun x => decide (cutoff ≤ x))).length := by
  induction s with
  | nil => rfl
  | cons x s ih =>
    rw [List.pairwise_cons] at h
    simp only [truncLen]
    by_cases hx : x < cutoff
    · rw [if_pos hx]
      symm
      rw [List.length_eq_zero_iff, List.filter_eq_nil_iff]
      intro y hy
      simp only [decide_eq_true_eq, not_le]
      rcases List.mem_cons.1 hy with rfl | hy
      · exact hx
      · exact lt_of_le_of_lt (h.1 y hy) hx
    · rw [if_neg hx, List.filter_cons_of_pos (by simpa using hx), ih h.2]; simp

theorem resizedSvs_sorted (maxD : ℕ) (s : List ℝ) (h : s.Pairwise (fun a b => b ≤ a)) (h0 : ∀ x ∈ s, 0 ≤ x) :
    (resizedSvs maxD s).Pairwise (fun a b => b ≤ a) := by
  unfold resizedSvs
  split
  · exact h
  · split
    · exact h.sublist (List.take_sublist _ _)
    · rw [List.pairwise_append]
      refine ⟨h, ?_, ?_⟩
      · exact List.pairwise_replicate.2 (Or.inr (le_refl _))
      · intro a ha b hb
        rw [List.eq_of_mem_replicate hb]; exact h0 a ha

theorem truncLen_resized (maxD : ℕ) (cutoff : ℝ) (hc : 0 < cutoff) (s : List ℝ)
    (h : s.Pairwise (fun a b => b ≤ a)) (h0 : ∀ x ∈ s, 0 ≤ x) :
    truncLen cutoff (resizedSvs maxD s) =
      ((if maxD = 0 then s else s.take maxD).filter (fun x => decide (cutoff ≤ x))).length := by
  rw [truncLen_filter _ _ (resizedSvs_sorted maxD s h h0)]
  unfold resizedSvs
  by_cases hm : maxD = 0
  · simp [hm]
  · rw [if_neg hm, if_neg hm]
    split
    · rfl
    · rename_i hlt
      rw [List.filter_append, List.take_of_length_le (by omega)]
      have : (List.replicate (maxD - s.length) (0 : ℝ)).filter (fun x => decide (cutoff ≤ x)) = [] := by
        rw [List.filter_eq_nil_iff]
        intro x hx
        rw [List.eq_of_mem_replicate hx]; simpa using hc
      rw [this]; simp

theorem truncLen_nonpos (cutoff : ℝ) (hc : cutoff ≤ 0) (s : List ℝ) (h0 : ∀ x ∈ s, 0 ≤ x) :
    truncLen cutoff s = s.length := by
  induction s with
  | nil => rfl
  | cons x s ih =>
    simp only [truncLen]
    rw [if_neg (by have := h0 x (by simp); linarith), ih (fun y hy => h0 y (by simp [hy]))]; simp

theorem resizedSvs_nonneg (maxD : ℕ) (s : List ℝ) (h0 : ∀ x ∈ s, 0 ≤ x) : ∀ x ∈ resizedSvs maxD s, 0 ≤ x := by
  unfold resizedSvs
  intro x hx
  split at hx
  · exact h0 x hx
  · split at hx
    · exact h0 x (List.mem_of_mem_take hx)
    · rcases List.mem_append.1 hx with hx | hx
      · exact h0 x hx
      · rw [List.eq_of_mem_replicate hx]

/-- the common part of the C40 proofs: the shape of a successful result -/
theorem svdFlex_out (svd : Mat ℝ → SVD) (hsvd : ∀ A, Spec.IsSVD A (svd A))
    (pop : List Char → Char) (hpop : ∀ x xs, pop (x :: xs) ∈ x :: xs)
    (str ini l r : List Char) (c : Char) (hstr : str.filter (· ≠ ' ') = Spec.svdStr ini l r)
    (hs : Spec.SvdString ini l r c) (hcov : Spec.Covers ini l r)
    (t : Tensor ℝ) (ht : t.ndim = ini.length) (maxD : ℕ) (cutoff : ℝ) (svRight : Bool)
    (svVec : Option (Tensor ℝ)) (out : SvdOut)
    (hout : svdFlex svd pop t str maxD cutoff svRight svVec = .ok out) :
    let svs := resizedSvs maxD (Spec.singularValues svd t ini l r c)
    writeSvVec svVec svs = .ok out.svVec ∧ out.bondDim = truncLen cutoff svs ∧ out.bondDim ≠ 0 := by
  intro svs
  obtain ⟨f1, f2⟩ := svdFlex_facts svd hsvd pop hpop str ini l r c hstr hs hcov t ht maxD cutoff svRight svVec
  cases hw : writeSvVec svVec svs with
  | error e => rw [f1 e hw] at hout; simp at hout
  | ok sv =>
    obtain ⟨b1, b2⟩ := f2 sv hw
    by_cases htr : truncLen cutoff svs = 0
    · rw [b1 htr] at hout; simp at hout
    · obtain ⟨lt, rt, U, s, W, c1, _⟩ := b2 htr
      rw [c1] at hout
      injection hout with hout
      subst hout
      exact ⟨rfl, rfl, htr⟩

/-- C40: the new bond dimension is the number of singular values `≥ cutoff` among the first `max_D`
(all of them when `max_D` is not given); it is at least 1 and at most `max_D`. -/
theorem C40_bond_dim (svd : Mat ℝ → SVD) (hsvd : ∀ A, Spec.IsSVD A (svd A))
    (pop : List Char → Char) (hpop : ∀ x xs, pop (x :: xs) ∈ x :: xs)
    (str ini l r : List Char) (c : Char) (hstr : str.filter (· ≠ ' ') = Spec.svdStr ini l r)
    (hs : Spec.SvdString ini l r c) (hcov : Spec.Covers ini l r)
    (t : Tensor ℝ) (ht : t.ndim = ini.length) (maxD : ℕ) (cutoff : ℝ) (hc : 0 < cutoff) (svRight : Bool)
    (svVec : Option (Tensor ℝ)) (out : SvdOut)
    (hout : svdFlex svd pop t str maxD cutoff svRight svVec = .ok out) :
    let svs := Spec.singularValues svd t ini l r c
    out.bondDim = ((if maxD = 0 then svs else svs.take maxD).filter (fun x => decide (cutoff ≤ x))).length ∧
      1 ≤ out.bondDim ∧ (maxD ≠ 0 → out.bondDim ≤ maxD) := by
  intro svs
  obtain ⟨_, h2, h3⟩ := svdFlex_out svd hsvd pop hpop str ini l r c hstr hs hcov t ht maxD cutoff svRight svVec
    out hout
  refine ⟨?_, by omega, ?_⟩
  · rw [h2]; exact truncLen_resized maxD cutoff hc _ (hsvd _).sorted (hsvd _).nonneg
  · intro hm
    have := truncLen_le cutoff (resizedSvs maxD (Spec.singularValues svd t ini l r c))
    rw [resizedSvs_length, if_neg hm] at this
    omega

/-- C40: with a cutoff `≤ 0` nothing is cut off: the bond dimension is `max_D`, or the number of singular
values. -/
theorem C40_no_cutoff (svd : Mat ℝ → SVD) (hsvd : ∀ A, Spec.IsSVD A (svd A))
    (pop : List Char → Char) (hpop : ∀ x xs, pop (x :: xs) ∈ x :: xs)
    (str ini l r : List Char) (c : Char) (hstr : str.filter (· ≠ ' ') = Spec.svdStr ini l r)
    (hs : Spec.SvdString ini l r c) (hcov : Spec.Covers ini l r)
    (t : Tensor ℝ) (ht : t.ndim = ini.length) (maxD : ℕ) (cutoff : ℝ) (hc : cutoff ≤ 0) (svRight : Bool)
    (svVec : Option (Tensor ℝ)) (out : SvdOut)
    (hout : svdFlex svd pop t str maxD cutoff svRight svVec = .ok out) :
    out.bondDim = if maxD = 0 then (Spec.singularValues svd t ini l r c).length else maxD := by
  obtain ⟨_, h2, h3⟩ := svdFlex_out svd hsvd pop hpop str ini l r c hstr hs hcov t ht maxD cutoff svRight svVec
    out hout
  have hnn : ∀ x ∈ Spec.singularValues svd t ini l r c, 0 ≤ x := (hsvd _).nonneg
  rw [h2, truncLen_nonpos _ hc _ (resizedSvs_nonneg _ _ hnn), resizedSvs_length]

/-- C40: with a positive cutoff and no (or a correctly sized) `sv_vec`, RuntimeError is raised exactly when
all singular values are below the cutoff. -/
theorem C40_runtime_error_iff (svd : Mat ℝ → SVD) (hsvd : ∀ A, Spec.IsSVD A (svd A))
    (pop : List Char → Char) (hpop : ∀ x xs, pop (x :: xs) ∈ x :: xs)
    (str ini l r : List Char) (c : Char) (hstr : str.filter (· ≠ ' ') = Spec.svdStr ini l r)
    (hs : Spec.SvdString ini l r c) (hcov : Spec.Covers ini l r)
    (t : Tensor ℝ) (ht : t.ndim = ini.length) (maxD : ℕ) (cutoff : ℝ) (hc : 0 < cutoff) (svRight : Bool)
    (svVec : Option (Tensor ℝ))
    (hsv : ∀ v ∈ svVec, v.shape = [if maxD = 0 then (Spec.singularValues svd t ini l r c).length else maxD]) :
    svdFlex svd pop t str maxD cutoff svRight svVec = .error .runtime ↔
      ∀ x ∈ Spec.singularValues svd t ini l r c, x < cutoff := by
  obtain ⟨f1, f2⟩ := svdFlex_facts svd hsvd pop hpop str ini l r c hstr hs hcov t ht maxD cutoff svRight svVec
  have hw : ∃ sv, writeSvVec svVec (resizedSvs maxD (Spec.singularValues svd t ini l r c)) = .ok sv := by
    cases svVec with
    | none => exact ⟨none, rfl⟩
    | some v =>
      unfold writeSvVec
      simp only
      rw [if_pos (by rw [resizedSvs_length]; exact hsv v rfl)]
      exact ⟨_, rfl⟩
  obtain ⟨sv, hw⟩ := hw
  obtain ⟨b1, b2⟩ := f2 sv hw
  have key : truncLen cutoff (resizedSvs maxD (Spec.singularValues svd t ini l r c)) = 0 ↔
      ∀ x ∈ Spec.singularValues svd t ini l r c, x < cutoff := by
    have hsort : (Spec.singularValues svd t ini l r c).Pairwise (fun a b => b ≤ a) := (hsvd _).sorted
    rw [truncLen_resized maxD cutoff hc _ hsort (hsvd _).nonneg, List.length_eq_zero_iff,
      List.filter_eq_nil_iff]
    constructor
    · intro h x hx
      cases hq : Spec.singularValues svd t ini l r c with
      | nil => rw [hq] at hx; simp at hx
      | cons y ys =>
        rw [hq] at hsort hx h
        have hy : y < cutoff := by
          have := h y (by
            split
            · simp
            · rename_i hm
              obtain ⟨m, rfl⟩ := Nat.exists_eq_succ_of_ne_zero hm
              simp)
          simpa using this
        rcases List.mem_cons.1 hx with rfl | hx
        · exact hy
        · exact lt_of_le_of_lt ((List.pairwise_cons.1 hsort).1 x hx) hy
    · intro h x hx
      have : x ∈ Spec.singularValues svd t ini l r c := by
        split at hx
        · exact hx
        · exact List.mem_of_mem_take hx
      simpa using h x this
  rw [← key]
  constructor
  · intro he
    by_contra htr
    obtain ⟨lt, rt, U, s, W, c1, _⟩ := b2 htr
    rw [c1] at he; simp at he
  · exact b1

/-- C40: the outputs have the letters' sizes, the new bond having size `max_D` (or the bond dimension when
`max_D` is not given), and all entries beyond the bond dimension are zero. -/
theorem C40_shapes_and_zero_padding (svd : Mat ℝ → SVD) (hsvd : ∀ A, Spec.IsSVD A (svd A))
    (pop : List Char → Char) (hpop : ∀ x xs, pop (x :: xs) ∈ x :: xs)
    (str ini l r : List Char) (c : Char) (hstr : str.filter (· ≠ ' ') = Spec.svdStr ini l r)
    (hs : Spec.SvdString ini l r c) (hcov : Spec.Covers ini l r)
    (t : Tensor ℝ) (sz : Char → ℕ) (ht : t.shape = ini.map sz) (maxD : ℕ) (cutoff : ℝ) (svRight : Bool)
    (svVec : Option (Tensor ℝ)) (out : SvdOut)
    (hout : svdFlex svd pop t str maxD cutoff svRight svVec = .ok out) :
    let newSz : Char → ℕ := fun d => if d = c then (if maxD = 0 then out.bondDim else maxD) else sz d
    out.left.shape = l.map newSz ∧ out.right.shape = r.map newSz ∧
      ∀ env : Char → ℕ, (∀ d ∈ ini, env d < sz d) → out.bondDim ≤ env c → env c < newSz c →
        out.left.get (l.map env) = 0 ∧ out.right.get (r.map env) = 0 := by
  intro newSz
  have hlen : t.ndim = ini.length := by unfold Tensor.ndim; rw [ht]; simp
  obtain ⟨f1, f2⟩ := svdFlex_facts svd hsvd pop hpop str ini l r c hstr hs hcov t hlen maxD cutoff svRight svVec
  obtain ⟨g1, g2, g3⟩ := svdFlex_out svd hsvd pop hpop str ini l r c hstr hs hcov t hlen maxD cutoff svRight svVec
    out hout
  obtain ⟨b1, b2⟩ := f2 _ g1
  obtain ⟨lt, rt, U, s, W, c1, hF, hL, hR, _⟩ := b2 (by unfold Spec.singularValues at g2; rw [← g2]; exact g3)
  rw [c1] at hout
  injection hout with hout
  have hbd : truncLen cutoff (resizedSvs maxD (svd (Spec.flattening t ini (l.filter (· ≠ c)) (r.filter (· ≠ c)))).s)
      = out.bondDim := g2.symm
  rw [hbd] at hF hL hR
  have hsz : ∀ d ∈ ini, Env.ofOut ini t.shape d = sz d := by
    intro d hd; rw [ht]; exact Env.ofOut_map ini sz d hd
  have hD : (if maxD ≠ 0 then maxD else out.bondDim) = if maxD = 0 then out.bondDim else maxD := by
    by_cases h : maxD = 0 <;> simp [h]
  have hnew : ∀ d, d = c ∨ d ∈ ini → Env.set (Env.ofOut ini t.shape) c (if maxD ≠ 0 then maxD else out.bondDim) d
      = newSz d := by
    intro d hd
    simp only [Env.set, newSz]
    rw [hD]
    split
    · rfl
    · exact hsz d (hd.resolve_left (by assumption))
  have hl : out.left = lt := by rw [← hout]
  have hr : out.right = rt := by rw [← hout]
  refine ⟨?_, ?_, ?_⟩
  · rw [hl, hL.1]
    exact List.map_congr_left (fun d hd => hnew d (hs.subL d hd))
  · rw [hr, hR.1]
    exact List.map_congr_left (fun d hd => hnew d (hs.subR d hd))
  · intro env henv hge hlt
    have hin : ∀ d, d = c ∨ d ∈ ini → env d < Env.set (Env.ofOut ini t.shape) c
        (if maxD ≠ 0 then maxD else out.bondDim) d := by
      intro d hd
      rw [hnew d hd]
      by_cases hdc : d = c
      · rw [hdc]; exact hlt
      · simp only [newSz, if_neg hdc]; exact henv d (hd.resolve_left hdc)
    have hlt' : env c < if maxD ≠ 0 then maxD else out.bondDim := by
      rw [hD]; simpa [newSz] using hlt
    rw [hl, hr, hL.2 env (fun d hd => hin d (hs.subL d hd)), hR.2 env (fun d hd => hin d (hs.subR d hd))]
    simp only
    rw [hF.zeroU _ _ hlt' (Or.inl hge), hF.zeroW _ _ hlt' (Or.inl hge)]
    simp

/-- C40: `sv_vec` must have `max_D` entries (or one per singular value when `max_D` is not given), otherwise
TypeError; on success it holds the singular values, largest first, padded with zeros. -/
theorem C40_sv_vec (svd : Mat ℝ → SVD) (hsvd : ∀ A, Spec.IsSVD A (svd A))
    (pop : List Char → Char) (hpop : ∀ x xs, pop (x :: xs) ∈ x :: xs)
    (str ini l r : List Char) (c : Char) (hstr : str.filter (· ≠ ' ') = Spec.svdStr ini l r)
    (hs : Spec.SvdString ini l r c) (hcov : Spec.Covers ini l r)
    (t : Tensor ℝ) (ht : t.ndim = ini.length) (maxD : ℕ) (cutoff : ℝ) (svRight : Bool) (v : Tensor ℝ) :
    let svs := Spec.singularValues svd t ini l r c
    let n := if maxD = 0 then svs.length else maxD
    (v.shape ≠ [n] → svdFlex svd pop t str maxD cutoff svRight (some v) = .error .type) ∧
    (∀ out, svdFlex svd pop t str maxD cutoff svRight (some v) = .ok out →
      ∃ v', out.svVec = some v' ∧ v'.shape = [n] ∧ ∀ k < n, v'.get [k] = svs.getD k 0) := by
  intro svs n
  obtain ⟨f1, f2⟩ := svdFlex_facts svd hsvd pop hpop str ini l r c hstr hs hcov t ht maxD cutoff svRight (some v)
  have hn : (resizedSvs maxD svs).length = n := resizedSvs_length _ _
  refine ⟨?_, ?_⟩
  · intro hne
    apply f1
    unfold writeSvVec
    simp only
    rw [if_neg]
    intro h
    exact hne (h.trans (by rw [← hn]; rfl))
  · intro out hout
    obtain ⟨g1, _, _⟩ := svdFlex_out svd hsvd pop hpop str ini l r c hstr hs hcov t ht maxD cutoff svRight (some v)
      out hout
    unfold writeSvVec at g1
    simp only at g1
    split at g1
    · injection g1 with g1
      refine ⟨_, g1.symm, ?_, ?_⟩
      · simp only; rw [← hn]
      · intro k hk
        show (resizedSvs maxD svs).getD k 0 = _
        unfold resizedSvs
        split
        · rfl
        · rename_i hm
          split
          · rw [List.getD_eq_getElem?_getD, List.getElem?_take_of_lt (by simp only [n, if_neg hm] at hk; exact hk),
              ← List.getD_eq_getElem?_getD]
          · by_cases hks : k < svs.length
            · rw [List.getD_eq_getElem?_getD, List.getElem?_append_left hks, ← List.getD_eq_getElem?_getD]
            · rw [List.getD_eq_getElem?_getD, List.getElem?_append_right (by omega), List.getElem?_replicate,
                List.getD_eq_getElem?_getD, List.getElem?_eq_none (by omega)]
              split <;> rfl
    · simp at g1

/-- C40: the squared distance between the input and the product of the outputs is the sum of the
squares of the singular values dropped. -/
theorem C40_squared_error (svd : Mat ℝ → SVD) (hsvd : ∀ A, Spec.IsSVD A (svd A))
    (pop : List Char → Char) (hpop : ∀ x xs, pop (x :: xs) ∈ x :: xs)
    (str ini l r : List Char) (c : Char) (hstr : str.filter (· ≠ ' ') = Spec.svdStr ini l r)
    (hs : Spec.SvdString ini l r c) (hcov : Spec.Covers ini l r)
    (t : Tensor ℝ) (ht : t.ndim = ini.length) (maxD : ℕ) (cutoff : ℝ) (svRight : Bool)
    (svVec : Option (Tensor ℝ)) (out : SvdOut)
    (hout : svdFlex svd pop t str maxD cutoff svRight svVec = .ok out) :
    let svs := Spec.singularValues svd t ini l r c
    ∃ t', einsum [l, r] ini [out.left, out.right] = .ok t' ∧ t'.shape = t.shape ∧
      Spec.sumIdx t.shape (fun idx => (t.get idx - t'.get idx) ^ 2) =
        ∑ k ∈ Finset.Ico out.bondDim svs.length, svs.getD k 0 ^ 2 := by
  intro svs
  obtain ⟨f1, f2⟩ := svdFlex_facts svd hsvd pop hpop str ini l r c hstr hs hcov t ht maxD cutoff svRight svVec
  obtain ⟨g1, g2, g3⟩ := svdFlex_out svd hsvd pop hpop str ini l r c hstr hs hcov t ht maxD cutoff svRight svVec
    out hout
  obtain ⟨b1, b2⟩ := f2 _ g1
  obtain ⟨lt, rt, U, s, W, c1, hF, hL, hR, t', e1, e2, e3⟩ :=
    b2 (by unfold Spec.singularValues at g2; rw [← g2]; exact g3)
  rw [c1] at hout
  injection hout with hout
  have hl : out.left = lt := by rw [← hout]
  have hr : out.right = rt := by rw [← hout]
  refine ⟨t', by rw [hl, hr]; exact e1, e2, ?_⟩
  have hbd : truncLen cutoff (resizedSvs maxD (svd (Spec.flattening t ini (l.filter (· ≠ c)) (r.filter (· ≠ c)))).s)
      = out.bondDim := g2.symm
  rw [hbd] at e3
  set A := Spec.flattening t ini (l.filter (· ≠ c)) (r.filter (· ≠ c)) with hA
  have hsh := (t.reads_self ini hs.nodupIni ht).1
  rw [hsh]
  rw [sumIdx_rows_cols (Env.ofOut ini t.shape) ini (l.filter (· ≠ c)) (r.filter (· ≠ c)) hs.nodupIni
    (hs.perm_parts hcov) _ (fun i j => (A.e i j - ∑ k ∈ Finset.range (min out.bondDim (min A.r A.c)),
      (svd A).U.e i k * (svd A).s.getD k 0 * (svd A).V.e j k) ^ 2) (by
      intro env henv
      obtain ⟨_, _, h3, h4⟩ := e3 env henv
      rw [h3, h4])]
  have hAr : ((l.filter (· ≠ c)).map (Env.ofOut ini t.shape)).prod = A.r := rfl
  have hAc : ((r.filter (· ≠ c)).map (Env.ofOut ini t.shape)).prod = A.c := rfl
  rw [hAr, hAc, svd_sq_error (hsvd A) _ (by omega)]
  have hlen : svs.length = min A.r A.c := (hsvd A).len
  rw [hlen]
  rcases le_total out.bondDim (min A.r A.c) with h | h
  · rw [min_eq_left h]; rfl
  · rw [min_eq_right h, Finset.Ico_self, Finset.Ico_eq_empty (by omega)]; rfl

/-! ### C41 -/

/-- C41: exactly the well-formed strings are accepted (cutoff 0, so that nothing else can fail, and a
tensor with at least one entry): lowercase letters, none repeated inside a group, the two outputs
sharing one new letter and nothing else, all other output letters coming from the input, one input letter per axis. -/
theorem C41_accepted_strings (svd : Mat ℝ → SVD) (hsvd : ∀ A, Spec.IsSVD A (svd A))
    (pop : List Char → Char) (hpop : ∀ x xs, pop (x :: xs) ∈ x :: xs) (str : List Char)
    (t : Tensor ℝ) (ht : ∀ n ∈ t.shape, n ≠ 0) (maxD : ℕ) (svRight : Bool) :
    (∃ out, svdFlex svd pop t str maxD 0 svRight none = .ok out) ↔
      ∃ ini l r c, str.filter (· ≠ ' ') = Spec.svdStr ini l r ∧ Spec.SvdString ini l r c ∧
        t.ndim = ini.length := by
  constructor
  · rintro ⟨out, hout⟩
    unfold svdFlex at hout
    cases hp : parseSvd str with
    | error e => rw [hp] at hout; simp [bind, Except.bind] at hout
    | ok q =>
      obtain ⟨ini, l, r⟩ := q
      rw [hp] at hout
      simp only [bind, Except.bind] at hout
      cases hck : checkSvd ini l r with
      | error e => rw [hck] at hout; simp at hout
      | ok u =>
        rw [hck] at hout
        simp only at hout
        cases hb : bondChar pop l r with
        | error e => rw [hb] at hout; simp at hout
        | ok c =>
          rw [hb] at hout
          simp only at hout
          unfold svdMatrix at hout
          cases he : einsum [ini] (l.filter (· ≠ c) ++ r.filter (· ≠ c)) [t] with
          | error e => rw [he] at hout; simp [bind, Except.bind] at hout
          | ok t1 =>
            unfold einsum at he
            simp only at he
            split at he
            · rename_i hcond
              obtain ⟨_, h2, _, h4, h5⟩ := hcond
              refine ⟨ini, l, r, c, parseSvd_ok hp, svdString_of pop hpop hck hb h4 (by simpa using h5), ?_⟩
              have := h2 (ini, t) (by simp)
              exact this.symm
            · simp at he
  · rintro ⟨ini, l, r, c, hstr, hs, hlen⟩
    have hreads := t.reads_self ini hs.nodupIni hlen
    obtain ⟨A, a1, a2, _, _, _, a6⟩ := svdFlex_reads svd hsvd pop hpop hs hstr _ t _ hreads maxD 0
      svRight none
    obtain ⟨_, b2⟩ := a6 none rfl
    obtain ⟨lt, rt, U, s, W, c1, _⟩ := b2 (by
      rw [truncLen_nonpos _ (le_refl _) _ (resizedSvs_nonneg _ _ (hsvd _).nonneg), resizedSvs_length]
      split
      · rw [(hsvd A).len, a1, a2]
        have hpos : ∀ q : List Char, (∀ d ∈ q, d ∈ ini) → (q.map (Env.ofOut ini t.shape)).prod ≠ 0 := by
          intro q hq h0
          rw [List.prod_eq_zero_iff] at h0
          obtain ⟨d, hd, hd0⟩ := List.mem_map.1 h0
          refine ht 0 ?_ rfl
          rw [hreads.1]
          exact List.mem_map.2 ⟨d, hq d hd, hd0⟩
        have p1 := hpos (l.filter (· ≠ c)) (fun d hd => hs.sub_parts d (by simp at hd ⊢; tauto))
        have p2 := hpos (r.filter (· ≠ c)) (fun d hd => hs.sub_parts d (by simp at hd ⊢; tauto))
        omega
      · assumption)
    exact ⟨_, c1⟩

/-- C41: contrary to the documentation ("form a partition of the characters in init_str"), an input
letter may be missing from both outputs: `"ab->ac,c"` is accepted. -/
theorem C41_partition_not_checked : ¬ (∀ (svd : Mat ℝ → SVD), (∀ A, Spec.IsSVD A (svd A)) →
    ∀ (pop : List Char → Char), (∀ x xs, pop (x :: xs) ∈ x :: xs) → ∀ (str ini l r : List Char),
    str.filter (· ≠ ' ') = Spec.svdStr ini l r →
    ∀ (t : Tensor ℝ) (out : SvdOut), svdFlex svd pop t str 0 0 true none = .ok out →
      Spec.Covers ini l r) := by
  intro h
  have hs : Spec.SvdString ['a', 'b'] ['a', 'c'] ['c'] 'c' := by
    constructor <;> decide
  obtain ⟨out, hout⟩ := (C41_accepted_strings someSvd someSvd_spec popHead popHead_mem
    "ab->ac,c".toList ⟨[2, 3], fun _ => 1⟩ (by simp) 0 true).2
    ⟨['a', 'b'], ['a', 'c'], ['c'], 'c', by decide, hs, rfl⟩
  have := h someSvd someSvd_spec popHead popHead_mem _ ['a', 'b'] ['a', 'c'] ['c'] (by decide) _ out hout
  have := this 'b' (by decide)
  revert this; decide

/-! ### The hypotheses can be met -/

/-- the string used when an input core is unmerged (torchmps/torchmps.py:1005-1006) -/
example : Spec.SvdString "lrio".toList "lui".toList "uro".toList 'u' ∧
    Spec.Covers "lrio".toList "lui".toList "uro".toList := by
  refine ⟨by constructor <;> decide, ?_⟩
  unfold Spec.Covers; decide

/-- and a call that succeeds, with a positive cutoff: by C40 it fails only if all singular values of the tensor
are small. -/
example : ∃ out, svdFlex someSvd popHead ⟨[2, 2], fun idx => if idx = [0, 0] then 3 else 0⟩ "ab->ac,cb".toList 2 1
    true none = .ok out := by
  have hs : Spec.SvdString ['a', 'b'] ['a', 'c'] ['c', 'b'] 'c' := by constructor <;> decide
  have hcov : Spec.Covers ['a', 'b'] ['a', 'c'] ['c', 'b'] := by unfold Spec.Covers; decide
  set t : Tensor ℝ := ⟨[2, 2], fun idx => if idx = [0, 0] then 3 else 0⟩ with ht
  cases hq : svdFlex someSvd popHead t "ab->ac,cb".toList 2 1 true none with
  | ok out => exact ⟨out, rfl⟩
  | error e =>
    exfalso
    obtain ⟨f1, f2⟩ := svdFlex_facts someSvd someSvd_spec popHead popHead_mem "ab->ac,cb".toList _ _ _ _ (by decide) hs
      hcov t rfl 2 1 true none
    obtain ⟨b1, b2⟩ := f2 none rfl
    by_cases h : truncLen 1 (resizedSvs 2 (Spec.singularValues someSvd t ['a', 'b'] ['a', 'c'] ['c', 'b'] 'c')) = 0
    swap
    · obtain ⟨lt, rt, U, s, W, c1, _⟩ := b2 h
      rw [c1] at hq; simp at hq
    · have := (C40_runtime_error_iff someSvd someSvd_spec popHead popHead_mem "ab->ac,cb".toList _ _ _ _ (by decide) hs
        hcov t rfl 2 1 (by norm_num) true none (by simp)).1 (b1 h)
      -- the entry 3 cannot be produced by singular values below 1: compare squares
      set A := Spec.flattening t ['a', 'b'] ['a'] ['b'] with hA
      have hsv : Spec.singularValues someSvd t ['a', 'b'] ['a', 'c'] ['c', 'b'] 'c' = (someSvd A).s := rfl
      rw [hsv] at this
      have e := svd_sq_error (someSvd_spec A) 0 (by omega)
      have hr : A.r = 2 := rfl
      have hc : A.c = 2 := rfl
      have hA00 : A.e 0 0 = 3 := by
        simp [hA, Spec.flattening, Mat.of, ht, Env.ofOut, Env.set, unravel]
      have hA01 : A.e 0 1 = 0 := by
        simp [hA, Spec.flattening, Mat.of, ht, Env.ofOut, Env.set, unravel]
      have hA10 : A.e 1 0 = 0 := by
        simp [hA, Spec.flattening, Mat.of, ht, Env.ofOut, Env.set, unravel]
      have hA11 : A.e 1 1 = 0 := by
        simp [hA, Spec.flattening, Mat.of, ht, Env.ofOut, Env.set, unravel]
      have hlen := (someSvd_spec A).len
      rw [hr, hc] at e hlen
      simp only [Finset.sum_range_succ, Finset.sum_range_zero, hA00, hA01, hA10, hA11, min_self,
        Finset.sum_Ico_eq_sum_range] at e
      have b : ∀ k < 2, (someSvd A).s.getD k 0 < 1 ∧ 0 ≤ (someSvd A).s.getD k 0 := by
        intro k hk
        have hk' : k < (someSvd A).s.length := by rw [hlen]; simpa using hk
        rw [List.getD_eq_getElem?_getD, List.getElem?_eq_getElem hk', Option.getD_some]
        exact ⟨this _ (List.getElem_mem _), (someSvd_spec A).nonneg _ (List.getElem_mem _)⟩
      have b0 := b 0 (by omega)
      have b1 := b 1 (by omega)
      simp only [Nat.add_zero, Nat.zero_add, Nat.sub_zero, Finset.sum_range_succ, Finset.sum_range_zero] at e
      generalize (someSvd A).s.getD 0 0 = x at *
      generalize (someSvd A).s.getD 1 0 = y at *
      norm_num at e
      nlinarith [b0.1, b0.2, b1.1, b1.2]

end TorchMPS
