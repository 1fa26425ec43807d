import Verif.Props.SvdIso
import Verif.Lemmas.EckartYoung
/-
C72: `svd_flex` is optimal among all factorisations with the same new bond dimension.
-/
namespace TorchMPS
open Spec

/-- a pair of factors `l`, `r` whose common axis `c` has size `q`, as a matrix product -/
theorem factors_product {ini l r : List Char} {c : Char} (hs : SvdString ini l r c) (hcov : Covers ini l r)
    (sz : Char → ℕ) (q : ℕ) (lf rf : Tensor ℝ) (hlf : lf.shape = l.map (Env.set sz c q))
    (hrf : rf.shape = r.map (Env.set sz c q)) :
    ∃ (X Y : ℕ → ℕ → ℝ) (t' : Tensor ℝ), einsum [l, r] ini [lf, rf] = .ok t' ∧ t'.shape = ini.map sz ∧
      ∀ env : Env, (∀ d ∈ ini, env d < sz d) → t'.get (ini.map env) =
        ∑ k ∈ Finset.range q, X (ravel ((l.filter (· ≠ c)).map sz) ((l.filter (· ≠ c)).map env)) k *
          Y k (ravel ((r.filter (· ≠ c)).map sz) ((r.filter (· ≠ c)).map env)) := by
  obtain ⟨t', e1, e2, e3⟩ := einsum2_reads (Env.set sz c q) l r ini lf rf (fun env => lf.get (l.map env))
    (fun env => rf.get (r.map env)) ⟨hlf, fun _ _ => rfl⟩ ⟨hrf, fun _ _ => rfl⟩ hs.nodupIni hcov
  have hset : ini.map (Env.set sz c q) = ini.map sz := filter_map_set sz ini c q hs.new
  refine ⟨fun i k => lf.get (l.map (Env.set (Env.ofOut (l.filter (· ≠ c)) (unravel ((l.filter (· ≠ c)).map sz) i)) c k)),
    fun k j => rf.get (r.map (Env.set (Env.ofOut (r.filter (· ≠ c)) (unravel ((r.filter (· ≠ c)).map sz) j)) c k)),
    t', e1, e2.trans hset, ?_⟩
  intro env hin
  have hin' : ∀ d ∈ ini, env d < Env.set sz c q d := by
    rw [← inRange_map, hset, inRange_map]; exact hin
  rw [e3 env hin', innerLetters_singleton c (by simp [hs.left]) hs.new (by
      intro d hd
      simp at hd
      rcases hd with hd | hd
      · exact hs.subL d hd
      · exact hs.subR d hd)]
  simp only [sumOver]
  have hcD : Env.set sz c q c = q := by simp [Env.set]
  rw [hcD]
  have hback : ∀ w : List Char, (∀ d ∈ w, d = c ∨ d ∈ ini) → ∀ k,
      w.map (Env.set (Env.ofOut (w.filter (· ≠ c)) (unravel ((w.filter (· ≠ c)).map sz)
        (ravel ((w.filter (· ≠ c)).map sz) ((w.filter (· ≠ c)).map env)))) c k) = w.map (Env.set env c k) := by
    intro w hw k
    rw [unravel_ravel ((inRange_map _ _ _).2 (fun d hd => by
      simp at hd
      exact hin d ((hw d hd.1).resolve_left hd.2)))]
    refine List.map_congr_left fun d hd => ?_
    by_cases hdc : d = c
    · simp [Env.set, hdc]
    · simp only [Env.set, if_neg hdc]
      exact Env.ofOut_map _ env d (by simp [hd, hdc])
  refine Finset.sum_congr rfl fun k _ => ?_
  rw [hback l hs.subL, hback r hs.subR]

/-- the error of any factorisation with bond dimension `q` is at least the sum of the squared singular values from `q` on -/
theorem factors_error (svd : Mat ℝ → SVD) (hsvd : ∀ A, IsSVD A (svd A)) {ini l r : List Char} {c : Char}
    (hs : SvdString ini l r c) (hcov : Covers ini l r) (t : Tensor ℝ) (sz : Char → ℕ) (ht : t.shape = ini.map sz)
    (q : ℕ) (lf rf t' : Tensor ℝ) (hlf : lf.shape = l.map (Env.set sz c q)) (hrf : rf.shape = r.map (Env.set sz c q))
    (he : einsum [l, r] ini [lf, rf] = .ok t') :
    let svs := singularValues svd t ini l r c
    ∑ k ∈ Finset.Ico q svs.length, svs.getD k 0 ^ 2 ≤ sumIdx t.shape (fun idx => (t.get idx - t'.get idx) ^ 2) := by
  intro svs
  obtain ⟨X, Y, t'', e1, e2, e3⟩ := factors_product hs hcov sz q lf rf hlf hrf
  rw [he] at e1; cases e1
  set A := flattening t ini (l.filter (· ≠ c)) (r.filter (· ≠ c)) with hA
  have hsz : ∀ d ∈ ini, Env.ofOut ini t.shape d = sz d := by
    intro d hd; rw [ht]; exact Env.ofOut_map ini sz d hd
  have hmapL : (l.filter (· ≠ c)).map (Env.ofOut ini t.shape) = (l.filter (· ≠ c)).map sz := by
    refine List.map_congr_left fun d hd => ?_
    simp at hd
    exact hsz d ((hs.subL d hd.1).resolve_left hd.2)
  have hmapR : (r.filter (· ≠ c)).map (Env.ofOut ini t.shape) = (r.filter (· ≠ c)).map sz := by
    refine List.map_congr_left fun d hd => ?_
    simp at hd
    exact hsz d ((hs.subR d hd.1).resolve_left hd.2)
  have hAr : ((l.filter (· ≠ c)).map sz).prod = A.r := by rw [← hmapL]; rfl
  have hAc : ((r.filter (· ≠ c)).map sz).prod = A.c := by rw [← hmapR]; rfl
  have hnd := hs.perm_parts hcov
  rw [ht, sumIdx_rows_cols sz ini (l.filter (· ≠ c)) (r.filter (· ≠ c)) hs.nodupIni
    (hs.perm_parts hcov) _ (fun i j => (A.e i j - ∑ k ∈ Finset.range q, X i k * Y k j) ^ 2) (by
      intro env henv
      rw [e3 env henv]
      congr 2
      have hl : InRange ((l.filter (· ≠ c)).map env) ((l.filter (· ≠ c)).map sz) :=
        (inRange_map _ _ _).2 fun d hd => by
          simp at hd; exact henv d ((hs.subL d hd.1).resolve_left hd.2)
      have hr : InRange ((r.filter (· ≠ c)).map env) ((r.filter (· ≠ c)).map sz) :=
        (inRange_map _ _ _).2 fun d hd => by
          simp at hd; exact henv d ((hs.subR d hd.1).resolve_left hd.2)
      have h1 := ravel_lt hl
      have h2 := ravel_lt hr
      simp only [hA, flattening, Mat.of, hmapL, hmapR]
      rw [unravel_ravel hl, unravel_ravel hr, ← List.map_append, if_pos ⟨h1, h2⟩]
      congr 1
      exact (List.map_congr_left fun d hd => Env.ofOut_map _ env d (hnd.mem_iff.2 hd)).symm)]
  rw [hAr, hAc, show svs.length = min A.r A.c from (hsvd A).len]
  exact eckart_young (hsvd A) q X Y

/-- C72: the product of the two factors returned by `svd_flex` is at least as close to the input as the product of any two
factors with the same index letters whose new bond is not larger than the number of singular values kept. -/
theorem C72_best_approximation (svd : Mat ℝ → SVD) (hsvd : ∀ A, IsSVD A (svd A))
    (pop : List Char → Char) (hpop : ∀ x xs, pop (x :: xs) ∈ x :: xs)
    (str ini l r : List Char) (c : Char) (hstr : str.filter (· ≠ ' ') = svdStr ini l r)
    (hs : SvdString ini l r c) (hcov : Covers ini l r)
    (t : Tensor ℝ) (sz : Char → ℕ) (ht : t.shape = ini.map sz) (maxD : ℕ) (cutoff : ℝ) (svRight : Bool)
    (svVec : Option (Tensor ℝ)) (out : SvdOut)
    (hout : svdFlex svd pop t str maxD cutoff svRight svVec = .ok out) :
    ∃ best, einsum [l, r] ini [out.left, out.right] = .ok best ∧
      ∀ (q : ℕ) (lf rf other : Tensor ℝ), q ≤ out.bondDim →
        lf.shape = l.map (fun d => if d = c then q else sz d) → rf.shape = r.map (fun d => if d = c then q else sz d) →
        einsum [l, r] ini [lf, rf] = .ok other →
        sumIdx t.shape (fun idx => (t.get idx - best.get idx) ^ 2) ≤
          sumIdx t.shape (fun idx => (t.get idx - other.get idx) ^ 2) := by
  have hlen : t.ndim = ini.length := by unfold Tensor.ndim; rw [ht]; simp
  obtain ⟨best, h1, h2, h3⟩ := C40_squared_error svd hsvd pop hpop str ini l r c hstr hs hcov t hlen maxD cutoff svRight
    svVec out hout
  refine ⟨best, h1, fun q lf rf other hq hlf hrf he => ?_⟩
  rw [h3]
  refine le_trans ?_ (factors_error svd hsvd hs hcov t sz ht q lf rf other hlf hrf he)
  exact Finset.sum_le_sum_of_subset_of_nonneg (Finset.Ico_subset_Ico hq le_rfl) fun k _ _ => sq_nonneg _

/-- C72: with a positive cutoff, the number of singular values kept is at most the bond dimension of any exact
factorisation of the input. -/
theorem C72_minimal_bond (svd : Mat ℝ → SVD) (hsvd : ∀ A, IsSVD A (svd A))
    (pop : List Char → Char) (hpop : ∀ x xs, pop (x :: xs) ∈ x :: xs)
    (str ini l r : List Char) (c : Char) (hstr : str.filter (· ≠ ' ') = svdStr ini l r)
    (hs : SvdString ini l r c) (hcov : Covers ini l r)
    (t : Tensor ℝ) (sz : Char → ℕ) (ht : t.shape = ini.map sz) (maxD : ℕ) (cutoff : ℝ) (hc : 0 < cutoff) (svRight : Bool)
    (svVec : Option (Tensor ℝ)) (out : SvdOut)
    (hout : svdFlex svd pop t str maxD cutoff svRight svVec = .ok out)
    (q : ℕ) (lf rf other : Tensor ℝ)
    (hlf : lf.shape = l.map (fun d => if d = c then q else sz d)) (hrf : rf.shape = r.map (fun d => if d = c then q else sz d))
    (he : einsum [l, r] ini [lf, rf] = .ok other) (heq : other.Eqv t) : out.bondDim ≤ q := by
  have hlen : t.ndim = ini.length := by unfold Tensor.ndim; rw [ht]; simp
  obtain ⟨k1, k2, k3⟩ := C70_kept_le svd hsvd pop hpop str ini l r c hstr hs hcov t hlen maxD cutoff hc svRight svVec out hout
  by_contra hq
  have h1 := factors_error svd hsvd hs hcov t sz ht q lf rf other hlf hrf he
  rw [sumIdx_congr _ _ (fun _ => 0) (fun idx hidx => by
    rw [heq.2 idx (by rw [heq.1]; exact hidx)]; ring)] at h1
  have h0 : ∀ sh, sumIdx sh (fun _ => 0) = 0 := by
    intro sh
    induction sh with
    | nil => rfl
    | cons n sh ih => simp [sumIdx, ih]
  rw [h0] at h1
  have hmem : q ∈ Finset.Ico q (singularValues svd t ini l r c).length := Finset.mem_Ico.2 ⟨le_refl _, by omega⟩
  have h2 := Finset.single_le_sum (f := fun k => (singularValues svd t ini l r c).getD k 0 ^ 2)
    (fun k _ => sq_nonneg _) hmem
  have h3 := k3 q (by omega)
  have h4 : 0 < (singularValues svd t ini l r c).getD q 0 ^ 2 := by
    have : 0 < (singularValues svd t ini l r c).getD q 0 := lt_of_lt_of_le hc h3
    positivity
  linarith

/-- Non-vacuity: the identity matrix, split with `max_D = 1`, and a competing pair of factors. -/
example : ∃ out other, svdFlex someSvd popHead ⟨[2, 2], fun idx => if idx.getD 0 0 = idx.getD 1 0 then 1 else 0⟩
      "ab->ac,cb".toList 1 0 true none = .ok out ∧ 1 ≤ out.bondDim ∧
    einsum [['a', 'c'], ['c', 'b']] ['a', 'b'] [(⟨[2, 1], fun _ => 1⟩ : Tensor ℝ), ⟨[1, 2], fun _ => 1⟩] = .ok other ∧
    SvdString ['a', 'b'] ['a', 'c'] ['c', 'b'] 'c' ∧ Covers ['a', 'b'] ['a', 'c'] ['c', 'b'] := by
  have hs : SvdString ['a', 'b'] ['a', 'c'] ['c', 'b'] 'c' := by constructor <;> decide
  have hcov : Covers ['a', 'b'] ['a', 'c'] ['c', 'b'] := by unfold Covers; decide
  obtain ⟨out, hout⟩ := (C41_accepted_strings someSvd someSvd_spec popHead popHead_mem
    "ab->ac,cb".toList ⟨[2, 2], fun idx => if idx.getD 0 0 = idx.getD 1 0 then 1 else 0⟩ (by simp) 1 true).2
    ⟨['a', 'b'], ['a', 'c'], ['c', 'b'], 'c', by decide, hs, rfl⟩
  obtain ⟨X, Y, t', e1, -⟩ := factors_product hs hcov (fun _ => 2) 1 ⟨[2, 1], fun _ => 1⟩ ⟨[1, 2], fun _ => 1⟩
    (by simp [Env.set]) (by simp [Env.set])
  have := C40_no_cutoff someSvd someSvd_spec popHead popHead_mem "ab->ac,cb".toList _ _ _ _ (by decide) hs hcov _ rfl 1 0
    le_rfl true none out hout
  exact ⟨out, t', hout, by simp [this], e1, hs, hcov⟩

end TorchMPS
