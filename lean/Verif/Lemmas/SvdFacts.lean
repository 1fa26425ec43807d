import Verif.Lemmas.SvdFlex
/-
The result of `svd_flex` on a tensor whose letters are partitioned.
-/
namespace TorchMPS

/-- a choice function for `set.pop` -/
def popHead : List Char → Char
  | c :: _ => c
  | [] => 'a'

theorem popHead_mem : ∀ x xs, popHead (x :: xs) ∈ x :: xs := by intro x xs; simp [popHead]

theorem Spec.SvdString.nodup_parts {ini l r : List Char} {c : Char} (hs : Spec.SvdString ini l r c) :
    (l.filter (· ≠ c) ++ r.filter (· ≠ c)).Nodup := by
  rw [List.nodup_append]
  refine ⟨hs.nodupL.filter _, hs.nodupR.filter _, ?_⟩
  intro a ha b hb hab
  subst hab
  simp at ha hb
  exact ha.2 (hs.disjoint a ha.1 hb.1)

theorem Spec.SvdString.sub_parts {ini l r : List Char} {c : Char} (hs : Spec.SvdString ini l r c) :
    ∀ d ∈ l.filter (· ≠ c) ++ r.filter (· ≠ c), d ∈ ini := by
  intro d hd
  simp at hd
  rcases hd with hd | hd
  · exact (hs.subL d hd.1).resolve_left hd.2
  · exact (hs.subR d hd.1).resolve_left hd.2

theorem Spec.SvdString.perm_parts {ini l r : List Char} {c : Char} (hs : Spec.SvdString ini l r c)
    (hcov : Spec.Covers ini l r) : (l.filter (· ≠ c) ++ r.filter (· ≠ c)).Perm ini := by
  rw [List.perm_ext_iff_of_nodup hs.nodup_parts hs.nodupIni]
  intro d
  refine ⟨hs.sub_parts d, ?_⟩
  intro hd
  have hne : d ≠ c := by rintro rfl; exact hs.new hd
  rcases hcov d hd with h | h <;> simp [h, hne]

theorem eq_flattening {t : Tensor ℝ} {ini l r : List Char} {c : Char} (hs : Spec.SvdString ini l r c)
    {A : Mat ℝ} {g : ℕ → ℕ → ℝ}
    (hA : A = Mat.of ((l.filter (· ≠ c)).map (Env.ofOut ini t.shape)).prod
      ((r.filter (· ≠ c)).map (Env.ofOut ini t.shape)).prod g)
    (h : ∀ env : Env, (∀ d ∈ l.filter (· ≠ c) ++ r.filter (· ≠ c), env d < (Env.ofOut ini t.shape) d) →
        A.e (ravel ((l.filter (· ≠ c)).map (Env.ofOut ini t.shape)) ((l.filter (· ≠ c)).map env))
            (ravel ((r.filter (· ≠ c)).map (Env.ofOut ini t.shape)) ((r.filter (· ≠ c)).map env)) =
          t.get (ini.map env)) :
    A = Spec.flattening t ini (l.filter (· ≠ c)) (r.filter (· ≠ c)) := by
  set sz : Char → ℕ := Env.ofOut ini t.shape with hsz
  set lp := l.filter (· ≠ c) with hlp
  set rp := r.filter (· ≠ c) with hrp
  rw [hA] at h ⊢
  unfold Spec.flattening
  simp only
  rw [← hsz]
  simp only [Mat.of, Mat.mk.injEq, true_and]
  funext i j
  split
  · rename_i hij
    have h1 := unravel_inRange hij.1
    have h2 := unravel_inRange hij.2
    set env := Env.ofOut (lp ++ rp) (unravel (lp.map sz) i ++ unravel (rp.map sz) j) with henv
    have hm : (lp ++ rp).map env = unravel (lp.map sz) i ++ unravel (rp.map sz) j := by
      rw [henv]
      exact Env.map_ofOut (lp ++ rp) hs.nodup_parts _ (by simp [unravel_length])
    rw [List.map_append] at hm
    obtain ⟨hm1, hm2⟩ := List.append_inj hm (by simp [unravel_length])
    have hr : ∀ d ∈ lp ++ rp, env d < sz d := by
      rw [← inRange_map, List.map_append, List.map_append, hm1, hm2]
      exact h1.append h2
    have := h env hr
    rw [hm1, hm2, ravel_unravel hij.1, ravel_unravel hij.2] at this
    simp only [Mat.of, hij, and_self, if_true] at this
    exact this
  · rfl

/-- All facts about a successful call on a tensor whose letters are partitioned by the outputs. -/
theorem svdFlex_facts (svd : Mat ℝ → SVD) (hsvd : ∀ A, Spec.IsSVD A (svd A))
    (pop : List Char → Char) (hpop : ∀ x xs, pop (x :: xs) ∈ x :: xs)
    (str ini l r : List Char) (c : Char) (hstr : str.filter (· ≠ ' ') = Spec.svdStr ini l r)
    (hs : Spec.SvdString ini l r c) (hcov : Spec.Covers ini l r)
    (t : Tensor ℝ) (ht : t.ndim = ini.length) (maxD : ℕ) (cutoff : ℝ) (svRight : Bool)
    (svVec : Option (Tensor ℝ)) :
    let A := Spec.flattening t ini (l.filter (· ≠ c)) (r.filter (· ≠ c))
    let svs := resizedSvs maxD (svd A).s
    let tr := truncLen cutoff svs
    let D := if maxD ≠ 0 then maxD else tr
    let sz : Char → ℕ := Env.ofOut ini t.shape
    (∀ e, writeSvVec svVec svs = .error e →
        svdFlex svd pop t str maxD cutoff svRight svVec = .error e) ∧
      (∀ sv, writeSvVec svVec svs = .ok sv →
        (tr = 0 → svdFlex svd pop t str maxD cutoff svRight svVec = .error .runtime) ∧
        (tr ≠ 0 → ∃ lt rt U s W, svdFlex svd pop t str maxD cutoff svRight svVec = .ok ⟨lt, rt, tr, sv⟩ ∧
            Factors A (svd A) D tr U s W ∧
            lt.Reads (Env.set sz c D) l
              (fun env => U.e (ravel ((l.filter (· ≠ c)).map sz) ((l.filter (· ≠ c)).map env)) (env c) *
                (if svRight then 1 else s.getD (env c) 0)) ∧
            rt.Reads (Env.set sz c D) r
              (fun env => (if svRight then s.getD (env c) 0 else 1) *
                W.e (env c) (ravel ((r.filter (· ≠ c)).map sz) ((r.filter (· ≠ c)).map env))) ∧
            ∃ t', einsum [l, r] ini [lt, rt] = .ok t' ∧ t'.shape = t.shape ∧
              ∀ env : Env, (∀ d ∈ ini, env d < sz d) →
                ravel ((l.filter (· ≠ c)).map sz) ((l.filter (· ≠ c)).map env) < A.r ∧
                ravel ((r.filter (· ≠ c)).map sz) ((r.filter (· ≠ c)).map env) < A.c ∧
                t.get (ini.map env) = A.e (ravel ((l.filter (· ≠ c)).map sz) ((l.filter (· ≠ c)).map env))
                  (ravel ((r.filter (· ≠ c)).map sz) ((r.filter (· ≠ c)).map env)) ∧
                t'.get (ini.map env) = ∑ k ∈ Finset.range (min tr (min A.r A.c)),
                  (svd A).U.e (ravel ((l.filter (· ≠ c)).map sz) ((l.filter (· ≠ c)).map env)) k *
                    (svd A).s.getD k 0 *
                    (svd A).V.e (ravel ((r.filter (· ≠ c)).map sz) ((r.filter (· ≠ c)).map env)) k)) := by
  intro A svs tr D sz
  have hreads := t.reads_self ini hs.nodupIni ht
  have hrange : t.shape = ini.map sz := hreads.1
  obtain ⟨A', a1, a2, ⟨g, a3⟩, a4, a5, a6⟩ := svdFlex_reads svd hsvd pop hpop hs hstr sz t _ hreads maxD cutoff
    svRight svVec
  have hinner : innerLetters [ini] (l.filter (· ≠ c) ++ r.filter (· ≠ c)) = [] := by
    apply innerLetters_nil
    intro d hd
    exact (hs.perm_parts hcov).mem_iff.2 (by simpa using hd)
  rw [hinner] at a4
  have hA : A' = A := eq_flattening hs a3 a4
  subst hA
  refine ⟨a5, ?_⟩
  intro sv hw
  obtain ⟨b1, b2⟩ := a6 sv hw
  refine ⟨b1, ?_⟩
  intro htr
  obtain ⟨lt, rt, U, s, W, c1, c2, c3, c4⟩ := b2 htr
  refine ⟨lt, rt, U, s, W, c1, c2, c3, c4, ?_⟩
  obtain ⟨t', e1, e2, e3⟩ := einsum2_reads (Env.set sz c D) l r ini lt rt _ _ c3 c4 hs.nodupIni hcov
  have hset : ini.map (Env.set sz c D) = ini.map sz := filter_map_set sz ini c D hs.new
  refine ⟨t', e1, ?_, ?_⟩
  · rw [e2, hset, ← hrange]
  · intro env hin
    have hin' : ∀ d ∈ ini, env d < Env.set sz c D d := by
      rw [← inRange_map, hset, inRange_map]; exact hin
    refine ⟨?_, ?_, (a4 env (fun d hd => hin d (hs.sub_parts d hd))).symm, ?_⟩
    · rw [a1]; exact ravel_lt ((inRange_map _ _ _).2 (fun d hd => hin d (hs.sub_parts d (by simp at hd ⊢; tauto))))
    · rw [a2]; exact ravel_lt ((inRange_map _ _ _).2 (fun d hd => hin d (hs.sub_parts d (by simp at hd ⊢; tauto))))
    · rw [e3 env hin', innerLetters_singleton c (by simp [hs.left]) hs.new (by
          intro d hd
          simp at hd
          rcases hd with hd | hd
          · exact hs.subL d hd
          · exact hs.subR d hd)]
      simp only [sumOver]
      have hcD : Env.set sz c D c = D := by simp [Env.set]
      rw [hcD, ← c2.prod]
      refine Finset.sum_congr rfl (fun k _ => ?_)
      have f1 : (l.filter (· ≠ c)).map (env.set c k) = (l.filter (· ≠ c)).map env :=
        filter_map_set env _ c k (by simp)
      have f2 : (r.filter (· ≠ c)).map (env.set c k) = (r.filter (· ≠ c)).map env :=
        filter_map_set env _ c k (by simp)
      have f3 : env.set c k c = k := by simp [Env.set]
      rw [f1, f2, f3]
      cases svRight <;> simp only [if_true, Bool.false_eq_true, if_false] <;> ring

end TorchMPS
