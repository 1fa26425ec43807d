import Verif.Lemmas.Svd
import Mathlib.Algebra.BigOperators.Ring.Finset
import Mathlib.Algebra.BigOperators.Intervals
/-
`svd_flex` as a whole.
-/
namespace TorchMPS

/-- everything there is to know about a call with a well-formed index string -/
theorem svdFlex_reads (svd : Mat ℝ → SVD) (hsvd : ∀ A, Spec.IsSVD A (svd A)) (pop : List Char → Char)
    (hpop : ∀ x xs, pop (x :: xs) ∈ x :: xs) {ini l r str : List Char} {c : Char}
    (hs : Spec.SvdString ini l r c) (hstr : str.filter (· ≠ ' ') = Spec.svdStr ini l r)
    (sz : Char → ℕ) (t : Tensor ℝ) (f : Env → ℝ) (ht : t.Reads sz ini f)
    (maxD : ℕ) (cutoff : ℝ) (svRight : Bool) (svVec : Option (Tensor ℝ)) :
    ∃ A, A.r = ((l.filter (· ≠ c)).map sz).prod ∧ A.c = ((r.filter (· ≠ c)).map sz).prod ∧
      (∃ g, A = Mat.of ((l.filter (· ≠ c)).map sz).prod ((r.filter (· ≠ c)).map sz).prod g) ∧
      (∀ env : Env, (∀ d ∈ l.filter (· ≠ c) ++ r.filter (· ≠ c), env d < sz d) →
        A.e (ravel ((l.filter (· ≠ c)).map sz) ((l.filter (· ≠ c)).map env))
            (ravel ((r.filter (· ≠ c)).map sz) ((r.filter (· ≠ c)).map env)) =
          sumOver sz (innerLetters [ini] (l.filter (· ≠ c) ++ r.filter (· ≠ c))) env f) ∧
      (∀ e, writeSvVec svVec (resizedSvs maxD (svd A).s) = .error e →
        svdFlex svd pop t str maxD cutoff svRight svVec = .error e) ∧
      (∀ sv, writeSvVec svVec (resizedSvs maxD (svd A).s) = .ok sv →
        (truncLen cutoff (resizedSvs maxD (svd A).s) = 0 →
          svdFlex svd pop t str maxD cutoff svRight svVec = .error .runtime) ∧
        (truncLen cutoff (resizedSvs maxD (svd A).s) ≠ 0 →
          ∃ lt rt U s W, svdFlex svd pop t str maxD cutoff svRight svVec =
              .ok ⟨lt, rt, truncLen cutoff (resizedSvs maxD (svd A).s), sv⟩ ∧
            Factors A (svd A) (if maxD ≠ 0 then maxD else truncLen cutoff (resizedSvs maxD (svd A).s))
              (truncLen cutoff (resizedSvs maxD (svd A).s)) U s W ∧
            lt.Reads (Env.set sz c (if maxD ≠ 0 then maxD else truncLen cutoff (resizedSvs maxD (svd A).s))) l
              (fun env => U.e (ravel ((l.filter (· ≠ c)).map sz) ((l.filter (· ≠ c)).map env)) (env c) *
                (if svRight then 1 else s.getD (env c) 0)) ∧
            rt.Reads (Env.set sz c (if maxD ≠ 0 then maxD else truncLen cutoff (resizedSvs maxD (svd A).s))) r
              (fun env => (if svRight then s.getD (env c) 0 else 1) *
                W.e (env c) (ravel ((r.filter (· ≠ c)).map sz) ((r.filter (· ≠ c)).map env))))) := by
  have hparse := parseSvd_of hs.lower hstr
  have hb := hs.bond pop hpop
  have hnd : (l.filter (· ≠ c) ++ r.filter (· ≠ c)).Nodup := by
    rw [List.nodup_append]
    refine ⟨hs.nodupL.filter _, hs.nodupR.filter _, ?_⟩
    intro a ha b hb hab
    subst hab
    simp at ha hb
    exact ha.2 (hs.disjoint a ha.1 hb.1)
  have hsub : ∀ d ∈ l.filter (· ≠ c) ++ r.filter (· ≠ c), d ∈ ini := by
    intro d hd
    simp at hd
    rcases hd with hd | hd
    · exact (hs.subL d hd.1).resolve_left hd.2
    · exact (hs.subR d hd.1).resolve_left hd.2
  obtain ⟨A, a1, a2, a3, a4, a5⟩ := svdMatrix_reads sz t ini _ _ f ht hnd hsub
  refine ⟨A, a2, a3, a4, a5, ?_, ?_⟩
  · intro e he
    unfold svdFlex
    rw [hparse]
    simp only [bind, Except.bind]
    rw [hs.check]
    simp only
    rw [hb]
    simp only
    rw [a1]
    simp only
    rw [resizeSvd_svs, sortDesc_of_sorted (hsvd A).sorted, he]
  · intro sv hsv
    refine ⟨?_, ?_⟩
    · intro htr
      unfold svdFlex
      rw [hparse]
      simp only [bind, Except.bind]
      rw [hs.check]
      simp only
      rw [hb]
      simp only
      rw [a1]
      simp only
      rw [resizeSvd_svs, sortDesc_of_sorted (hsvd A).sorted, hsv]
      simp only
      rw [if_pos htr]
    · intro htr
      have hF := factors_of (hsvd A) maxD cutoff
      simp only at hF
      obtain ⟨lt, rt, o1, o2, o3⟩ := svdOutputs_reads sz svRight hF hs a2 a3
      rw [resizeSvd_svs, sortDesc_of_sorted (hsvd A).sorted] at *
      refine ⟨lt, rt, _, _, _, ?_, hF, o2, o3⟩
      unfold svdFlex
      rw [hparse]
      simp only [bind, Except.bind]
      rw [hs.check]
      simp only
      rw [hb]
      simp only
      rw [a1]
      simp only
      rw [resizeSvd_svs, sortDesc_of_sorted (hsvd A).sorted, hsv]
      simp only
      rw [if_neg htr, o1]
      rfl

/-! ### Sums over all entries -/

theorem Env.set_comm (env : Env) {c d : Char} (h : c ≠ d) (i j : ℕ) :
    (env.set c i).set d j = (env.set d j).set c i := by
  funext x
  simp only [Env.set]
  by_cases h1 : x = d
  · by_cases h2 : x = c
    · exact absurd (h2.symm.trans h1) h
    · simp [h1, Ne.symm h]
  · by_cases h2 : x = c
    · simp [h1, h2, h]
    · simp [h1, h2]

theorem sumOver_perm {K : Type} [AddCommMonoid K] (sz : Char → ℕ) {a b : List Char} (h : a.Perm b) (hnd : a.Nodup)
    (env : Env) (F : Env → K) : sumOver sz a env F = sumOver sz b env F := by
  induction h generalizing env with
  | nil => rfl
  | cons x _ ih =>
    simp only [sumOver]
    exact Finset.sum_congr rfl (fun i _ => ih (List.nodup_cons.1 hnd).2 _)
  | swap x y l =>
    simp only [sumOver]
    rw [Finset.sum_comm]
    have hxy : y ≠ x := by
      intro h; subst h; simp at hnd
    refine Finset.sum_congr rfl (fun i _ => Finset.sum_congr rfl (fun j _ => ?_))
    rw [Env.set_comm _ hxy]
  | trans h1 _ ih1 ih2 => rw [ih1 hnd, ih2 (h1.nodup_iff.1 hnd)]

theorem sumOver_append {K : Type} [AddCommMonoid K] (sz : Char → ℕ) (a b : List Char) (env : Env) (F : Env → K) :
    sumOver sz (a ++ b) env F = sumOver sz a env (fun e => sumOver sz b e F) := by
  induction a generalizing env with
  | nil => rfl
  | cons c a ih =>
    simp only [List.cons_append, sumOver]
    exact Finset.sum_congr rfl (fun i _ => ih _)

theorem sumIdx_eq_sumOver (sz : Char → ℕ) (str : List Char) (hnd : str.Nodup) (env : Env) (g : List ℕ → ℝ) :
    Spec.sumIdx (str.map sz) g = sumOver sz str env (fun e => g (str.map e)) := by
  induction str generalizing env g with
  | nil => rfl
  | cons c str ih =>
    simp only [List.map_cons, Spec.sumIdx, sumOver]
    refine Finset.sum_congr rfl ?_
    intro i _
    rw [List.nodup_cons] at hnd
    rw [ih hnd.2 (env.set c i)]
    refine sumOver_env sz _ _ _ _ _ Set.univ (fun _ _ _ => rfl) ?_
    intro a b hab _ hout
    have : a = b := funext (fun x => hab x trivial)
    subst this
    rw [hout c hnd.1]
    simp [Env.set]

theorem sumIdx_ravel (sh : Shape) (G : ℕ → ℝ) :
    Spec.sumIdx sh (fun idx => G (ravel sh idx)) = ∑ i ∈ Finset.range sh.prod, G i := by
  induction sh generalizing G with
  | nil => simp [Spec.sumIdx, ravel]
  | cons n sh ih =>
    simp only [Spec.sumIdx, ravel, List.prod_cons]
    have : ∀ m, ∑ i ∈ Finset.range m, Spec.sumIdx sh (fun idx => G (i * sh.prod + ravel sh idx)) =
        ∑ i ∈ Finset.range (m * sh.prod), G i := by
      intro m
      induction m with
      | zero => simp
      | succ m ihm =>
        rw [Finset.sum_range_succ, ihm, ih (fun k => G (m * sh.prod + k)), Nat.succ_mul, Finset.sum_range_add]
    exact this n

theorem sumIdx_congr (sh : Shape) (g h : List ℕ → ℝ) (H : ∀ idx, InRange idx sh → g idx = h idx) :
    Spec.sumIdx sh g = Spec.sumIdx sh h := by
  induction sh generalizing g h with
  | nil => exact H [] (by simp)
  | cons n sh ih =>
    simp only [Spec.sumIdx]
    refine Finset.sum_congr rfl (fun i hi => ih _ _ (fun idx hidx => H _ ?_))
    simp [Finset.mem_range.1 hi, hidx]

/-- A sum over the entries of a tensor, as a sum over rows and columns. -/
theorem sumIdx_rows_cols (sz : Char → ℕ) (ini lp rp : List Char) (hini : ini.Nodup) (hp : (lp ++ rp).Perm ini)
    (g : List ℕ → ℝ) (H : ℕ → ℕ → ℝ)
    (h : ∀ env : Env, (∀ d ∈ ini, env d < sz d) →
      g (ini.map env) = H (ravel (lp.map sz) (lp.map env)) (ravel (rp.map sz) (rp.map env))) :
    Spec.sumIdx (ini.map sz) g =
      ∑ i ∈ Finset.range (lp.map sz).prod, ∑ j ∈ Finset.range (rp.map sz).prod, H i j := by
  have hnd : (lp ++ rp).Nodup := hp.nodup_iff.2 hini
  have hlp : lp.Nodup := (List.nodup_append.1 hnd).1
  have hrp : rp.Nodup := (List.nodup_append.1 hnd).2.1
  have e0 : Env := fun _ => 0
  rw [sumIdx_eq_sumOver sz ini hini e0, ← sumOver_perm sz hp hnd]
  have : sumOver sz (lp ++ rp) e0 (fun e => g (ini.map e)) = sumOver sz (lp ++ rp) e0
      (fun e => H (ravel (lp.map sz) (lp.map e)) (ravel (rp.map sz) (rp.map e))) := by
    refine sumOver_env sz _ _ _ _ _ Set.univ (fun _ _ _ => rfl) ?_
    intro a b hab hlt _
    have : a = b := funext (fun x => hab x trivial)
    subst this
    exact h a (fun d hd => hlt d (hp.mem_iff.2 hd))
  rw [this, sumOver_append, ← sumIdx_ravel, sumIdx_eq_sumOver sz lp hlp e0]
  refine sumOver_env sz _ _ _ _ _ Set.univ (fun _ _ _ => rfl) ?_
  intro a b hab _ _
  have : a = b := funext (fun x => hab x trivial)
  subst this
  rw [← sumIdx_ravel, sumIdx_eq_sumOver sz rp hrp a]
  refine sumOver_env sz _ _ _ _ _ Set.univ (fun _ _ _ => rfl) ?_
  intro x y hxy _ hout
  have : x = y := funext (fun c => hxy c trivial)
  subst this
  have : lp.map x = lp.map a := by
    refine List.map_congr_left (fun c hc => hout c ?_)
    intro hcr
    exact (List.nodup_append.1 hnd).2.2 c hc c hcr rfl
  rw [this]

/-- The squared error of a truncated SVD. -/
theorem svd_sq_error {A : Mat ℝ} {d : SVD} (h : Spec.IsSVD A d) (T : ℕ) (hT : T ≤ min A.r A.c) :
    ∑ i ∈ Finset.range A.r, ∑ j ∈ Finset.range A.c,
      (A.e i j - ∑ k ∈ Finset.range T, d.U.e i k * d.s.getD k 0 * d.V.e j k) ^ 2 =
    ∑ k ∈ Finset.Ico T (min A.r A.c), d.s.getD k 0 ^ 2 := by
  have h1 : ∀ i ∈ Finset.range A.r, ∀ j ∈ Finset.range A.c,
      (A.e i j - ∑ k ∈ Finset.range T, d.U.e i k * d.s.getD k 0 * d.V.e j k) ^ 2 =
      ∑ k ∈ Finset.Ico T (min A.r A.c), ∑ k' ∈ Finset.Ico T (min A.r A.c),
        (d.s.getD k 0 * d.s.getD k' 0) * ((d.U.e i k * d.U.e i k') * (d.V.e j k * d.V.e j k')) := by
    intro i hi j hj
    rw [h.recon i (Finset.mem_range.1 hi) j (Finset.mem_range.1 hj), ← Finset.sum_range_add_sum_Ico _ hT,
      add_sub_cancel_left, sq, Finset.sum_mul_sum]
    refine Finset.sum_congr rfl (fun k _ => Finset.sum_congr rfl (fun k' _ => ?_))
    ring
  rw [Finset.sum_congr rfl (fun i hi => Finset.sum_congr rfl (fun j hj => h1 i hi j hj))]
  have h2 : ∀ i ∈ Finset.range A.r, ∑ j ∈ Finset.range A.c, ∑ k ∈ Finset.Ico T (min A.r A.c),
      ∑ k' ∈ Finset.Ico T (min A.r A.c),
        (d.s.getD k 0 * d.s.getD k' 0) * ((d.U.e i k * d.U.e i k') * (d.V.e j k * d.V.e j k')) =
      ∑ k ∈ Finset.Ico T (min A.r A.c), d.s.getD k 0 ^ 2 * (d.U.e i k * d.U.e i k) := by
    intro i _
    rw [Finset.sum_comm]
    refine Finset.sum_congr rfl (fun k hk => ?_)
    rw [Finset.sum_comm]
    have hk := Finset.mem_Ico.1 hk
    rw [Finset.sum_eq_single_of_mem k (Finset.mem_Ico.2 hk)]
    · have := h.orthV k hk.2 k hk.2
      rw [if_pos rfl] at this
      rw [← Finset.mul_sum, ← Finset.mul_sum, this]
      ring
    · intro k' hk' hne
      have hk' := Finset.mem_Ico.1 hk'
      have := h.orthV k hk.2 k' hk'.2
      rw [if_neg (Ne.symm hne)] at this
      rw [← Finset.mul_sum, ← Finset.mul_sum, this]
      ring
  rw [Finset.sum_congr rfl h2, Finset.sum_comm]
  refine Finset.sum_congr rfl (fun k hk => ?_)
  have hk := Finset.mem_Ico.1 hk
  have := h.orthU k hk.2 k hk.2
  rw [if_pos rfl] at this
  rw [← Finset.mul_sum, this, mul_one]

end TorchMPS
