import Verif.Lemmas.AdSv
import Verif.Props.SvdOptimal
/-
Splitting one merged core.
-/
namespace TorchMPS
open Spec

/-- Splitting one merged core with `svd_flex`: RuntimeError if no singular value reaches the cutoff, otherwise two tensors with the new bond
padded to `D`, which reproduce the merged core if only zeros were dropped. -/
theorem split_facts (svd : Mat ℝ → SVD) (hsvd : ∀ A, IsSVD A (svd A)) (pop : List Char → Char) (hpop : ∀ x xs, pop (x :: xs) ∈ x :: xs)
    (str ini l r : List Char) (hstr : str.filter (· ≠ ' ') = svdStr ini l r) (hs : SvdString ini l r 'u') (hcov : Covers ini l r)
    (t : Tensor ℝ) (sz : Char → ℕ) (ht : t.shape = ini.map sz) (D : ℕ) (hD : 1 ≤ D) (hu : sz 'u' = D) (cutoff : ℝ) :
    (svdFlex svd pop t str D cutoff true (some (emptyVec D)) = .error .runtime ∧
      ∀ k < D, (singularValues svd t ini l r 'u').getD k 0 < cutoff) ∨
    ∃ out, svdFlex svd pop t str D cutoff true (some (emptyVec D)) = .ok out ∧ out.left.shape = l.map sz ∧ out.right.shape = r.map sz ∧
      BondOk D cutoff (some (singularValues svd t ini l r 'u')) (bondEntry out) ∧
      (0 < cutoff → normT out.left ≠ 0 ∧ normT out.right ≠ 0) ∧
      (∀ env : Char → ℕ, (∀ d ∈ ini, env d < sz d) → kept D cutoff (singularValues svd t ini l r 'u') ≤ env 'u' → env 'u' < D →
        out.left.get (l.map env) = 0 ∧ out.right.get (r.map env) = 0) ∧
      (∃ t', einsum [l, r] ini [out.left, out.right] = .ok t' ∧ t'.shape = t.shape ∧
        sumIdx t.shape (fun idx => (t.get idx - t'.get idx) ^ 2) =
          ∑ k ∈ Finset.Ico (kept D cutoff (singularValues svd t ini l r 'u')) (singularValues svd t ini l r 'u').length,
            (singularValues svd t ini l r 'u').getD k 0 ^ 2 ∧
        ∀ (q : ℕ) (lf rf other : Tensor ℝ), q ≤ kept D cutoff (singularValues svd t ini l r 'u') →
          lf.shape = l.map (fun d => if d = 'u' then q else sz d) → rf.shape = r.map (fun d => if d = 'u' then q else sz d) →
          einsum [l, r] ini [lf, rf] = .ok other →
          sumIdx t.shape (fun idx => (t.get idx - t'.get idx) ^ 2) ≤ sumIdx t.shape (fun idx => (t.get idx - other.get idx) ^ 2)) ∧
      ((∀ k, (k < D ∧ cutoff ≤ (singularValues svd t ini l r 'u').getD k 0) ∨ (singularValues svd t ini l r 'u').getD k 0 = 0) →
        ∃ t', einsum [l, r] ini [out.left, out.right] = .ok t' ∧ t'.Eqv t) := by
  have hlen : t.ndim = ini.length := by unfold Tensor.ndim; rw [ht]; simp
  have hsort : (singularValues svd t ini l r 'u').Pairwise (fun a b => b ≤ a) := (hsvd _).sorted
  have hnn : ∀ x ∈ singularValues svd t ini l r 'u', 0 ≤ x := (hsvd _).nonneg
  obtain ⟨f1, f2⟩ := svdFlex_facts svd hsvd pop hpop str ini l r 'u' hstr hs hcov t hlen D cutoff true (some (emptyVec D))
  have hw : ∃ sv, writeSvVec (some (emptyVec D)) (resizedSvs D (singularValues svd t ini l r 'u')) = .ok sv := by
    unfold writeSvVec
    simp only
    rw [if_pos (by rw [resizedSvs_length, if_neg (by omega)]; rfl)]
    exact ⟨_, rfl⟩
  obtain ⟨sv, hw⟩ := hw
  obtain ⟨b1, b2⟩ := f2 sv hw
  by_cases htr : truncLen cutoff (resizedSvs D (singularValues svd t ini l r 'u')) = 0
  · left
    refine ⟨b1 htr, ?_⟩
    intro k hk
    by_contra hx
    have := kept_iff D cutoff _ hsort hnn k hk (not_lt.1 hx)
    rw [truncLen_kept D hD cutoff _ hsort hnn] at htr
    omega
  · right
    obtain ⟨out, c1, hbd⟩ : ∃ out, svdFlex svd pop t str D cutoff true (some (emptyVec D)) = .ok out ∧
        out.bondDim = kept D cutoff (singularValues svd t ini l r 'u') := by
      obtain ⟨lt, rt, U, s, W, c1, _⟩ := b2 htr
      exact ⟨_, c1, truncLen_kept D hD cutoff _ hsort hnn⟩
    rw [truncLen_kept D hD cutoff _ hsort hnn] at htr
    clear b1 b2 f1 f2 hw
    refine ⟨out, c1, ?_⟩
    obtain ⟨g1, g2, gz⟩ := C40_shapes_and_zero_padding svd hsvd pop hpop str ini l r 'u' hstr hs hcov t sz ht D cutoff true _ _ c1
    have hnew : ∀ bd : ℕ, (fun d => if d = 'u' then (if D = 0 then bd else D) else sz d) = sz := by
      intro bd
      funext d
      by_cases hd : d = 'u'
      · rw [if_pos hd, if_neg (by omega), hd, hu]
      · rw [if_neg hd]
    rw [hnew] at g1 g2
    obtain ⟨_, v2⟩ := C40_sv_vec svd hsvd pop hpop str ini l r 'u' hstr hs hcov t hlen D cutoff true (emptyVec D)
    obtain ⟨v, w1, w2, w3⟩ := v2 _ c1
    rw [if_neg (by omega)] at w2 w3
    refine ⟨g1, g2, ?_, ?_, ?_, ?_, ?_⟩
    · have : bondEntry out = some (out.bondDim, v) := by unfold bondEntry; rw [w1]; rfl
      rw [this]
      exact ⟨hbd, Nat.one_le_iff_ne_zero.2 (hbd ▸ htr), w2, w3⟩
    · intro hcut
      obtain ⟨q1, q2, q3⟩ := C70_kept_le svd hsvd pop hpop str ini l r 'u' hstr hs hcov t hlen D cutoff hcut true _ _ c1
      obtain ⟨o1, o2⟩ := C70_orthogonal_factors svd hsvd pop hpop str ini l r 'u' hstr hs hcov t sz ht D cutoff true _ _ c1 0 q1 (by omega) 0 q1 (by omega)
      have hs0 := q3 0 q1
      refine ⟨normT_ne_zero _ l sz 'u' g1 (by omega) ?_, normT_ne_zero _ r sz 'u' g2 (by omega) ?_⟩
      · refine ne_of_eq_of_ne o1 ?_
        simp
      · refine ne_of_eq_of_ne o2 ?_
        rw [if_pos rfl, if_pos rfl]
        have : 0 < (singularValues svd t ini l r 'u').getD 0 0 := by linarith
        positivity
    · intro env h1 h2 h3
      refine gz env h1 (by rw [hbd]; exact h2) ?_
      show env 'u' < if 'u' = 'u' then _ else _
      rw [if_pos rfl, if_neg (by omega)]
      exact h3
    · obtain ⟨t', k1, k2, k3⟩ := C40_squared_error svd hsvd pop hpop str ini l r 'u' hstr hs hcov t hlen D cutoff true _ _ c1
      obtain ⟨t2, j1, j2⟩ := C72_best_approximation svd hsvd pop hpop str ini l r 'u' hstr hs hcov t sz ht D cutoff true _ _ c1
      rw [k1] at j1
      cases j1
      rw [hbd] at k3 j2
      exact ⟨t', k1, k2, k3, j2⟩
    · intro hl
      refine C39_svd_flex_reconstructs svd hsvd pop hpop str ini l r 'u' hstr hs hcov t hlen D cutoff true _ _ c1 ?_
      intro k hk
      rw [hbd] at hk
      rcases hl k with ⟨h1, h2⟩ | h
      · have := kept_iff D cutoff _ hsort hnn k h1 h2
        omega
      · exact h

theorem dist4_congr (n0 n1 n2 n3 : ℕ) (T T' T'' : ℕ → ℕ → ℕ → ℕ → ℝ)
    (h : ∀ i < n0, ∀ j < n1, ∀ k < n2, ∀ m < n3, T' i j k m = T'' i j k m) : dist4 n0 n1 n2 n3 T T' = dist4 n0 n1 n2 n3 T T'' := by
  unfold dist4
  refine Finset.sum_congr rfl fun i hi => Finset.sum_congr rfl fun j hj => Finset.sum_congr rfl fun k hk => Finset.sum_congr rfl fun m hm => ?_
  rw [h i (Finset.mem_range.1 hi) j (Finset.mem_range.1 hj) k (Finset.mem_range.1 hk) m (Finset.mem_range.1 hm)]

theorem einsum_pair (D F q : ℕ) (lf rf : Tensor ℝ) (hl : lf.shape = [D, q, F]) (hr : rf.shape = [q, D, F]) :
    ∃ t', einsum [['l', 'u', 'i'], ['u', 'r', 'j']] ['l', 'r', 'i', 'j'] [lf, rf] = .ok t' ∧ t'.shape = [D, D, F, F] ∧
      ∀ l < D, ∀ r < D, ∀ f < F, ∀ f' < F, t'.get [l, r, f, f'] = pairProd q (fun x_l x_u x_i => lf.get [x_l, x_u, x_i]) (fun x_u x_r x_j => rf.get [x_u, x_r, x_j]) l r f f' := by
  let sz : Char → ℕ := fun c => if c = 'u' then q else if c = 'i' ∨ c = 'j' then F else D
  obtain ⟨t'', k1, k2, k3⟩ := einsum_ok (K := ℝ) sz [['l', 'u', 'i'], ['u', 'r', 'j']] ['l', 'r', 'i', 'j'] [lf, rf] rfl
    (by
      intro p hp
      simp only [List.zip_cons_cons, List.zip_nil_right, List.mem_cons, List.not_mem_nil, or_false] at hp
      rcases hp with rfl | rfl
      · exact hl
      · exact hr) (by decide) (by decide)
  refine ⟨t'', k1, k2, ?_⟩
  intro l h_l r h_r f h_f f' h_f'
  rw [k3 [l, r, f, f'] (by simp [sz, h_l, h_r, h_f, h_f'])]
  have h3 : ([['l', 'u', 'i'], ['u', 'r', 'j']].flatten.dedup).filter (fun c => c ∉ ['l', 'r', 'i', 'j']) = ['u'] := by decide
  rw [h3]
  simp only [sumOver, pairProd]
  refine Finset.sum_congr (by simp [sz]) ?_
  intro u hu
  simp [Env.ofOut, Env.set]

theorem split_pair (svd : Mat ℝ → SVD) (hsvd : ∀ A, IsSVD A (svd A)) (pop : List Char → Char) (hpop : ∀ x xs, pop (x :: xs) ∈ x :: xs)
    (D F : ℕ) (hD : 1 ≤ D) (t : Tensor ℝ) (ht : t.shape = [D, D, F, F]) (cutoff : ℝ) :
    (svdFlex svd pop t strPair D cutoff true (some (emptyVec D)) = .error .runtime ∧ ∀ k < D, (pairSvs svd t).getD k 0 < cutoff) ∨
    ∃ out, svdFlex svd pop t strPair D cutoff true (some (emptyVec D)) = .ok out ∧ out.left.shape = [D, D, F] ∧ out.right.shape = [D, D, F] ∧
      BondOk D cutoff (some (pairSvs svd t)) (bondEntry out) ∧ (0 < cutoff → normT out.left ≠ 0 ∧ normT out.right ≠ 0) ∧
      CutDown D cutoff (pairSvs svd t) D D F F pairProd (fun l r f f' => t.get [l, r, f, f'])
        (pairProd D (fun x_l x_u x_i => out.left.get [x_l, x_u, x_i]) (fun x_u x_r x_j => out.right.get [x_u, x_r, x_j])) ∧
      (LosslessSv D cutoff (pairSvs svd t) → ∀ l < D, ∀ r < D, ∀ f < F, ∀ f' < F,
        t.get [l, r, f, f'] = pairProd D (fun x_l x_u x_i => out.left.get [x_l, x_u, x_i]) (fun x_u x_r x_j => out.right.get [x_u, x_r, x_j]) l r f f') := by
  have hs : SvdString ['l', 'r', 'i', 'j'] ['l', 'u', 'i'] ['u', 'r', 'j'] 'u' := by constructor <;> decide
  have hcov : Covers ['l', 'r', 'i', 'j'] ['l', 'u', 'i'] ['u', 'r', 'j'] := by unfold Covers; decide
  let sz : Char → ℕ := fun c => if c = 'i' ∨ c = 'j' then F else D
  rcases split_facts svd hsvd pop hpop strPair _ _ _ (by decide) hs hcov t sz (by rw [ht]; rfl) D hD rfl cutoff with h | ⟨out, o1, o2, o3, o4, o6, oz, oe, o5⟩
  · exact Or.inl h
  · refine Or.inr ⟨out, o1, o2, o3, o4, o6, ?_, ?_⟩
    · obtain ⟨t', e1, e2, e3, e4⟩ := oe
      obtain ⟨t'', k1, k2, k3⟩ := einsum_pair D F D out.left out.right o2 o3
      rw [e1] at k1
      cases k1
      have hd : ∀ T' : Tensor ℝ, sumIdx t.shape (fun idx => (t.get idx - T'.get idx) ^ 2) =
          dist4 D D F F (fun l r f f' => t.get [l, r, f, f']) (fun l r f f' => T'.get [l, r, f, f']) := by
        intro T'
        rw [ht]
        rfl
      have hc : dist4 D D F F (fun l r f f' => t.get [l, r, f, f']) (fun l r f f' => t'.get [l, r, f, f']) =
          dist4 D D F F (fun l r f f' => t.get [l, r, f, f']) (pairProd D (fun x_l x_u x_i => out.left.get [x_l, x_u, x_i]) (fun x_u x_r x_j => out.right.get [x_u, x_r, x_j])) :=
        dist4_congr _ _ _ _ _ _ _ k3
      rw [hd, hc] at e3 e4
      refine ⟨⟨(fun x_l x_u x_i => out.left.get [x_l, x_u, x_i]), (fun x_u x_r x_j => out.right.get [x_u, x_r, x_j]), ?_⟩, e3, ?_⟩
      · intro l h_l r h_r f h_f f' h_f'
        simp only [pairProd]
        symm
        refine Finset.sum_subset (Finset.range_subset_range.2 (kept_le _ _ _)) ?_
        intro u hu hu'
        have hz := oz (fun c => if c = 'l' then l else if c = 'r' then r else if c = 'i' then f else if c = 'j' then f' else u)
          (by intro d hd; simp only [List.mem_cons, List.not_mem_nil, or_false] at hd; rcases hd with rfl | rfl | rfl | rfl <;> simp [sz, h_l, h_r, h_f, h_f'])
          (not_lt.1 (fun hlt => hu' (Finset.mem_range.2 hlt))) (by simpa using hu)
        have hz := hz.1
        simp at hz
        simp [hz]
      · intro q hq A B
        let lf : Tensor ℝ := ⟨[D, q, F], fun idx => A (idx.getD 0 0) (idx.getD 1 0) (idx.getD 2 0)⟩
        let rf : Tensor ℝ := ⟨[q, D, F], fun idx => B (idx.getD 0 0) (idx.getD 1 0) (idx.getD 2 0)⟩
        obtain ⟨t2, j1, j2, j3⟩ := einsum_pair D F q lf rf rfl rfl
        have := e4 q lf rf t2 hq rfl rfl j1
        rw [hd] at this
        refine this.trans_eq (dist4_congr _ _ _ _ _ _ _ j3)
    · intro hl l h_l r h_r f h_f f' h_f'
      obtain ⟨t', e1, e2, e3⟩ := o5 hl
      obtain ⟨t'', k1, k2, k3⟩ := einsum_pair D F D out.left out.right o2 o3
      rw [e1] at k1
      cases k1
      rw [← e3 [l, r, f, f'] (by rw [e2, ht]; simp [h_l, h_r, h_f, h_f'])]
      exact k3 l h_l r h_r f h_f f' h_f'

theorem einsum_outLeft (D F O q : ℕ) (lf rf : Tensor ℝ) (hl : lf.shape = [O, D, q]) (hr : rf.shape = [q, D, F]) :
    ∃ t', einsum [['o', 'l', 'u'], ['u', 'r', 'i']] ['o', 'l', 'r', 'i'] [lf, rf] = .ok t' ∧ t'.shape = [O, D, D, F] ∧
      ∀ o < O, ∀ l < D, ∀ r < D, ∀ f < F, t'.get [o, l, r, f] = outLeftProd q (fun x_o x_l x_u => lf.get [x_o, x_l, x_u]) (fun x_u x_r x_i => rf.get [x_u, x_r, x_i]) o l r f := by
  let sz : Char → ℕ := fun c => if c = 'u' then q else if c = 'i' then F else if c = 'o' then O else D
  obtain ⟨t'', k1, k2, k3⟩ := einsum_ok (K := ℝ) sz [['o', 'l', 'u'], ['u', 'r', 'i']] ['o', 'l', 'r', 'i'] [lf, rf] rfl
    (by
      intro p hp
      simp only [List.zip_cons_cons, List.zip_nil_right, List.mem_cons, List.not_mem_nil, or_false] at hp
      rcases hp with rfl | rfl
      · exact hl
      · exact hr) (by decide) (by decide)
  refine ⟨t'', k1, k2, ?_⟩
  intro o h_o l h_l r h_r f h_f
  rw [k3 [o, l, r, f] (by simp [sz, h_o, h_l, h_r, h_f])]
  have h3 : ([['o', 'l', 'u'], ['u', 'r', 'i']].flatten.dedup).filter (fun c => c ∉ ['o', 'l', 'r', 'i']) = ['u'] := by decide
  rw [h3]
  simp only [sumOver, outLeftProd]
  refine Finset.sum_congr (by simp [sz]) ?_
  intro u hu
  simp [Env.ofOut, Env.set]

theorem split_outLeft (svd : Mat ℝ → SVD) (hsvd : ∀ A, IsSVD A (svd A)) (pop : List Char → Char) (hpop : ∀ x xs, pop (x :: xs) ∈ x :: xs)
    (D F O : ℕ) (hD : 1 ≤ D) (t : Tensor ℝ) (ht : t.shape = [O, D, D, F]) (cutoff : ℝ) :
    (svdFlex svd pop t strOutLeft D cutoff true (some (emptyVec D)) = .error .runtime ∧ ∀ k < D, (outLeftSvs svd t).getD k 0 < cutoff) ∨
    ∃ out, svdFlex svd pop t strOutLeft D cutoff true (some (emptyVec D)) = .ok out ∧ out.left.shape = [O, D, D] ∧ out.right.shape = [D, D, F] ∧
      BondOk D cutoff (some (outLeftSvs svd t)) (bondEntry out) ∧ (0 < cutoff → normT out.left ≠ 0 ∧ normT out.right ≠ 0) ∧
      CutDown D cutoff (outLeftSvs svd t) O D D F outLeftProd (fun o l r f => t.get [o, l, r, f])
        (outLeftProd D (fun x_o x_l x_u => out.left.get [x_o, x_l, x_u]) (fun x_u x_r x_i => out.right.get [x_u, x_r, x_i])) ∧
      (LosslessSv D cutoff (outLeftSvs svd t) → ∀ o < O, ∀ l < D, ∀ r < D, ∀ f < F,
        t.get [o, l, r, f] = outLeftProd D (fun x_o x_l x_u => out.left.get [x_o, x_l, x_u]) (fun x_u x_r x_i => out.right.get [x_u, x_r, x_i]) o l r f) := by
  have hs : SvdString ['o', 'l', 'r', 'i'] ['o', 'l', 'u'] ['u', 'r', 'i'] 'u' := by constructor <;> decide
  have hcov : Covers ['o', 'l', 'r', 'i'] ['o', 'l', 'u'] ['u', 'r', 'i'] := by unfold Covers; decide
  let sz : Char → ℕ := fun c => if c = 'i' then F else if c = 'o' then O else D
  rcases split_facts svd hsvd pop hpop strOutLeft _ _ _ (by decide) hs hcov t sz (by rw [ht]; rfl) D hD rfl cutoff with h | ⟨out, o1, o2, o3, o4, o6, oz, oe, o5⟩
  · exact Or.inl h
  · refine Or.inr ⟨out, o1, o2, o3, o4, o6, ?_, ?_⟩
    · obtain ⟨t', e1, e2, e3, e4⟩ := oe
      obtain ⟨t'', k1, k2, k3⟩ := einsum_outLeft D F O D out.left out.right o2 o3
      rw [e1] at k1
      cases k1
      have hd : ∀ T' : Tensor ℝ, sumIdx t.shape (fun idx => (t.get idx - T'.get idx) ^ 2) =
          dist4 O D D F (fun o l r f => t.get [o, l, r, f]) (fun o l r f => T'.get [o, l, r, f]) := by
        intro T'
        rw [ht]
        rfl
      have hc : dist4 O D D F (fun o l r f => t.get [o, l, r, f]) (fun o l r f => t'.get [o, l, r, f]) =
          dist4 O D D F (fun o l r f => t.get [o, l, r, f]) (outLeftProd D (fun x_o x_l x_u => out.left.get [x_o, x_l, x_u]) (fun x_u x_r x_i => out.right.get [x_u, x_r, x_i])) :=
        dist4_congr _ _ _ _ _ _ _ k3
      rw [hd, hc] at e3 e4
      refine ⟨⟨(fun x_o x_l x_u => out.left.get [x_o, x_l, x_u]), (fun x_u x_r x_i => out.right.get [x_u, x_r, x_i]), ?_⟩, e3, ?_⟩
      · intro o h_o l h_l r h_r f h_f
        simp only [outLeftProd]
        symm
        refine Finset.sum_subset (Finset.range_subset_range.2 (kept_le _ _ _)) ?_
        intro u hu hu'
        have hz := oz (fun c => if c = 'o' then o else if c = 'l' then l else if c = 'r' then r else if c = 'i' then f else u)
          (by intro d hd; simp only [List.mem_cons, List.not_mem_nil, or_false] at hd; rcases hd with rfl | rfl | rfl | rfl <;> simp [sz, h_o, h_l, h_r, h_f])
          (not_lt.1 (fun hlt => hu' (Finset.mem_range.2 hlt))) (by simpa using hu)
        have hz := hz.1
        simp at hz
        simp [hz]
      · intro q hq A B
        let lf : Tensor ℝ := ⟨[O, D, q], fun idx => A (idx.getD 0 0) (idx.getD 1 0) (idx.getD 2 0)⟩
        let rf : Tensor ℝ := ⟨[q, D, F], fun idx => B (idx.getD 0 0) (idx.getD 1 0) (idx.getD 2 0)⟩
        obtain ⟨t2, j1, j2, j3⟩ := einsum_outLeft D F O q lf rf rfl rfl
        have := e4 q lf rf t2 hq rfl rfl j1
        rw [hd] at this
        refine this.trans_eq (dist4_congr _ _ _ _ _ _ _ j3)
    · intro hl o h_o l h_l r h_r f h_f
      obtain ⟨t', e1, e2, e3⟩ := o5 hl
      obtain ⟨t'', k1, k2, k3⟩ := einsum_outLeft D F O D out.left out.right o2 o3
      rw [e1] at k1
      cases k1
      rw [← e3 [o, l, r, f] (by rw [e2, ht]; simp [h_o, h_l, h_r, h_f])]
      exact k3 o h_o l h_l r h_r f h_f

theorem einsum_outRight (D F O q : ℕ) (lf rf : Tensor ℝ) (hl : lf.shape = [O, q, D]) (hr : rf.shape = [D, q, F]) :
    ∃ t', einsum [['o', 'u', 'r'], ['l', 'u', 'i']] ['o', 'l', 'r', 'i'] [lf, rf] = .ok t' ∧ t'.shape = [O, D, D, F] ∧
      ∀ o < O, ∀ l < D, ∀ r < D, ∀ f < F, t'.get [o, l, r, f] = outRightProd q (fun x_o x_u x_r => lf.get [x_o, x_u, x_r]) (fun x_l x_u x_i => rf.get [x_l, x_u, x_i]) o l r f := by
  let sz : Char → ℕ := fun c => if c = 'u' then q else if c = 'i' then F else if c = 'o' then O else D
  obtain ⟨t'', k1, k2, k3⟩ := einsum_ok (K := ℝ) sz [['o', 'u', 'r'], ['l', 'u', 'i']] ['o', 'l', 'r', 'i'] [lf, rf] rfl
    (by
      intro p hp
      simp only [List.zip_cons_cons, List.zip_nil_right, List.mem_cons, List.not_mem_nil, or_false] at hp
      rcases hp with rfl | rfl
      · exact hl
      · exact hr) (by decide) (by decide)
  refine ⟨t'', k1, k2, ?_⟩
  intro o h_o l h_l r h_r f h_f
  rw [k3 [o, l, r, f] (by simp [sz, h_o, h_l, h_r, h_f])]
  have h3 : ([['o', 'u', 'r'], ['l', 'u', 'i']].flatten.dedup).filter (fun c => c ∉ ['o', 'l', 'r', 'i']) = ['u'] := by decide
  rw [h3]
  simp only [sumOver, outRightProd]
  refine Finset.sum_congr (by simp [sz]) ?_
  intro u hu
  simp [Env.ofOut, Env.set, mul_comm]

theorem split_outRight (svd : Mat ℝ → SVD) (hsvd : ∀ A, IsSVD A (svd A)) (pop : List Char → Char) (hpop : ∀ x xs, pop (x :: xs) ∈ x :: xs)
    (D F O : ℕ) (hD : 1 ≤ D) (t : Tensor ℝ) (ht : t.shape = [O, D, D, F]) (cutoff : ℝ) :
    (svdFlex svd pop t strOutRight D cutoff true (some (emptyVec D)) = .error .runtime ∧ ∀ k < D, (outRightSvs svd t).getD k 0 < cutoff) ∨
    ∃ out, svdFlex svd pop t strOutRight D cutoff true (some (emptyVec D)) = .ok out ∧ out.left.shape = [O, D, D] ∧ out.right.shape = [D, D, F] ∧
      BondOk D cutoff (some (outRightSvs svd t)) (bondEntry out) ∧ (0 < cutoff → normT out.left ≠ 0 ∧ normT out.right ≠ 0) ∧
      CutDown D cutoff (outRightSvs svd t) O D D F outRightProd (fun o l r f => t.get [o, l, r, f])
        (outRightProd D (fun x_o x_u x_r => out.left.get [x_o, x_u, x_r]) (fun x_l x_u x_i => out.right.get [x_l, x_u, x_i])) ∧
      (LosslessSv D cutoff (outRightSvs svd t) → ∀ o < O, ∀ l < D, ∀ r < D, ∀ f < F,
        t.get [o, l, r, f] = outRightProd D (fun x_o x_u x_r => out.left.get [x_o, x_u, x_r]) (fun x_l x_u x_i => out.right.get [x_l, x_u, x_i]) o l r f) := by
  have hs : SvdString ['o', 'l', 'r', 'i'] ['o', 'u', 'r'] ['l', 'u', 'i'] 'u' := by constructor <;> decide
  have hcov : Covers ['o', 'l', 'r', 'i'] ['o', 'u', 'r'] ['l', 'u', 'i'] := by unfold Covers; decide
  let sz : Char → ℕ := fun c => if c = 'i' then F else if c = 'o' then O else D
  rcases split_facts svd hsvd pop hpop strOutRight _ _ _ (by decide) hs hcov t sz (by rw [ht]; rfl) D hD rfl cutoff with h | ⟨out, o1, o2, o3, o4, o6, oz, oe, o5⟩
  · exact Or.inl h
  · refine Or.inr ⟨out, o1, o2, o3, o4, o6, ?_, ?_⟩
    · obtain ⟨t', e1, e2, e3, e4⟩ := oe
      obtain ⟨t'', k1, k2, k3⟩ := einsum_outRight D F O D out.left out.right o2 o3
      rw [e1] at k1
      cases k1
      have hd : ∀ T' : Tensor ℝ, sumIdx t.shape (fun idx => (t.get idx - T'.get idx) ^ 2) =
          dist4 O D D F (fun o l r f => t.get [o, l, r, f]) (fun o l r f => T'.get [o, l, r, f]) := by
        intro T'
        rw [ht]
        rfl
      have hc : dist4 O D D F (fun o l r f => t.get [o, l, r, f]) (fun o l r f => t'.get [o, l, r, f]) =
          dist4 O D D F (fun o l r f => t.get [o, l, r, f]) (outRightProd D (fun x_o x_u x_r => out.left.get [x_o, x_u, x_r]) (fun x_l x_u x_i => out.right.get [x_l, x_u, x_i])) :=
        dist4_congr _ _ _ _ _ _ _ k3
      rw [hd, hc] at e3 e4
      refine ⟨⟨(fun x_o x_u x_r => out.left.get [x_o, x_u, x_r]), (fun x_l x_u x_i => out.right.get [x_l, x_u, x_i]), ?_⟩, e3, ?_⟩
      · intro o h_o l h_l r h_r f h_f
        simp only [outRightProd]
        symm
        refine Finset.sum_subset (Finset.range_subset_range.2 (kept_le _ _ _)) ?_
        intro u hu hu'
        have hz := oz (fun c => if c = 'o' then o else if c = 'l' then l else if c = 'r' then r else if c = 'i' then f else u)
          (by intro d hd; simp only [List.mem_cons, List.not_mem_nil, or_false] at hd; rcases hd with rfl | rfl | rfl | rfl <;> simp [sz, h_o, h_l, h_r, h_f])
          (not_lt.1 (fun hlt => hu' (Finset.mem_range.2 hlt))) (by simpa using hu)
        have hz := hz.1
        simp at hz
        simp [hz]
      · intro q hq A B
        let lf : Tensor ℝ := ⟨[O, q, D], fun idx => A (idx.getD 0 0) (idx.getD 1 0) (idx.getD 2 0)⟩
        let rf : Tensor ℝ := ⟨[D, q, F], fun idx => B (idx.getD 0 0) (idx.getD 1 0) (idx.getD 2 0)⟩
        obtain ⟨t2, j1, j2, j3⟩ := einsum_outRight D F O q lf rf rfl rfl
        have := e4 q lf rf t2 hq rfl rfl j1
        rw [hd] at this
        refine this.trans_eq (dist4_congr _ _ _ _ _ _ _ j3)
    · intro hl o h_o l h_l r h_r f h_f
      obtain ⟨t', e1, e2, e3⟩ := o5 hl
      obtain ⟨t'', k1, k2, k3⟩ := einsum_outRight D F O D out.left out.right o2 o3
      rw [e1] at k1
      cases k1
      rw [← e3 [o, l, r, f] (by rw [e2, ht]; simp [h_o, h_l, h_r, h_f])]
      exact k3 o h_o l h_l r h_r f h_f

end TorchMPS
