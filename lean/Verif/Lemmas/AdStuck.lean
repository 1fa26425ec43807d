import Verif.Lemmas.AdSweep
/-
A chain with two lone pixel cores on one side cannot be merged back into the list it came from.
-/
namespace TorchMPS
open Spec
variable {K : Type}

theorem sweeps_merge [CommSemiring K] (p : ℕ) (l l' : List (Module K)) (h : sweepRest true p 0 l = .ok l') (h2 : 2 ≤ l'.length)
    (h3 : l'.length = l.length → l' = l) (h4 : l'.length ≠ l.length → ∀ m ∈ l', m.isOutSite = false) :
    sweeps true p (l.length + 1) l = .ok l' := by
  by_cases hlen : l'.length = l.length
  · have : l' = l := h3 hlen
    subst this
    simp only [sweeps, sweep]
    rw [if_neg (by omega), h]
    simp only [bind_ok_except]
    rfl
  · have hl2 : 2 ≤ l.length := by
      by_contra hx
      have : l' = l := by
        match l, hx with
        | [], _ => simp [sweepRest] at h; exact (Except.ok.inj h).symm
        | [x], _ => simp [sweepRest] at h; exact (Except.ok.inj h).symm
        | _ :: _ :: _, hx => simp at hx
      exact hlen (by rw [this])
    obtain ⟨f, hf⟩ : ∃ f, l.length + 1 = f + 1 + 1 := ⟨l.length - 1, by omega⟩
    rw [hf]
    simp only [sweeps, sweep]
    rw [if_neg (by omega), h]
    simp only [bind_ok_except]
    rw [if_neg hlen, if_neg (by omega), sweepRest_noOut p l' (h4 hlen)]
    simp only [bind_ok_except]
    rfl

theorem site_fit [CommSemiring K] (D F O : ℕ) (a : Cores K) (i : ℕ) (m : Module K) (h : IsSite D F a i m) : Fit D F O a (.site i) m := by
  obtain ⟨t, rfl, h2, h3⟩ := h
  exact ⟨h2, h3⟩

theorem internalMerge_site [CommSemiring K] (D F : ℕ) (a : Cores K) (i s : ℕ) (m : Module K) (h : IsSite D F a i m) (rest : List (Module K)) :
    internalMerge s (m :: rest) = (internalMerge (s + 1) rest).map (m :: ·) := by
  obtain ⟨t, rfl, _⟩ := h
  simp only [internalMerge, Module.coreLen]
  cases internalMerge (s + 1) rest <;> rfl

theorem internalMerge_out [CommSemiring K] (D O : ℕ) (a : Cores K) (s : ℕ) (m : Module K) (h : IsOut D O a m) (rest : List (Module K)) :
    internalMerge s (m :: rest) = (internalMerge (s + 1) rest).map (m :: ·) := by
  obtain ⟨t, rfl, _⟩ := h
  simp only [internalMerge, Module.coreLen]
  cases internalMerge (s + 1) rest <;> rfl

theorem isSite_core (D F : ℕ) (a : Cores K) (i : ℕ) (m : Module K) (h : IsSite D F a i m) : m.coreLen = 1 ∧ m.isOutSite = false := by
  obtain ⟨t, rfl, _⟩ := h
  exact ⟨rfl, rfl⟩

theorem stuck_left [CommSemiring K] (D F O n : ℕ) (hn : 2 ≤ n) (a : Cores K) (L R : List (Module K)) (x : Module K)
    (hL : TwoSites D F a 0 L) (hx : IsOut D O a x) (hR : Part D F a 2 (n - 2) R) :
    ∃ l, mergeList 0 (L ++ x :: R) = .ok l ∧ l.length = (layout 0 2 n).length + 1 := by
  obtain ⟨m, m', rfl, hm, hm'⟩ := hL
  obtain ⟨Rk, r1, r2⟩ := internalMerge_part D F O a 2 (n - 2) 3 R [] hR
  rw [List.append_nil] at r2
  have hi : internalMerge 0 ([m, m'] ++ x :: R) = .ok (m :: m' :: x :: Rk) := by
    rw [List.cons_append, internalMerge_site D F a 0 0 m hm, List.cons_append, List.nil_append, internalMerge_site D F a 1 (0 + 1) m' hm',
      internalMerge_out D O a _ x hx, show (0 + 1 + 1 + 1) = 3 from rfl, r2]
    simp [internalMerge, Except.map, pure, Except.pure]
  have hxf : Fit D F O a .out x := by
    obtain ⟨t, rfl, h2, h3⟩ := hx
    exact ⟨h2, h3⟩
  obtain ⟨c1, c2⟩ := isSite_core D F a 0 m hm
  obtain ⟨c3, c4⟩ := isSite_core D F a 1 m' hm'
  obtain ⟨cc, e1, _⟩ := combine_out_right D F O a 1 m' x (site_fit D F O a 1 m' hm') hxf
  have hpre := sweepRest_pre 0 0 [m, m'] x Rk (by simp [c2, c4]) (by
    intro y hy
    simp at hy
    subst hy
    refine ⟨some cc, e1, Or.inr ?_⟩
    simp [coresLen, c1, c3])
  have hc : coresLen [m, m'] = 2 := by simp [coresLen, c1, c3]
  rw [hc] at hpre
  unfold mergeList
  rw [assert_true _ (by omega), bind_ok_except, hi, bind_ok_except]
  by_cases hkn : 2 < n
  · rw [partKinds_one _ _ (by omega)] at r1
    cases r1 with
    | @cons κ y ks R' g1 g2 =>
      obtain ⟨mo, e3, e2⟩ := combine_out_left D F O a 2 x y hxf g1
      have hRn := fits_noOut D F O a _ _ g2 (rightKinds_in _ _)
      have hsw : sweepRest true 0 0 (m :: m' :: x :: y :: R') = .ok (m :: m' :: mo :: R') := by
        have hpre : sweepRest true 0 0 (m :: m' :: x :: y :: R') = _ := hpre
        rw [hpre]
        simp only [sweepRest]
        rw [e3]
        simp only [bind_ok_except]
        rw [if_neg (by omega), assert_true _ (by
          right
          rw [(shaped_len D F O _ _ e2.1).2, (shaped_len D F O _ _ hxf.1).2, (shaped_len D F O _ _ g1.1).2]
          rfl)]
        simp only [bind_ok_except]
        rw [sweepRest_noOut 0 R' hRn]
        rfl
      refine ⟨_, sweeps_merge 0 _ _ hsw (by simp) (by simp) ?_, ?_⟩
      · intro _ z hz
        simp only [List.mem_cons] at hz
        rcases hz with rfl | rfl | rfl | hz
        · exact c2
        · exact c4
        · exact fit_noOut D F O a _ _ e2 (by simp)
        · exact hRn z hz
      · have hlen := g2.length_eq
        have hlay : layout 0 2 n = leftKinds 0 2 ++ (.mout 2 true :: rightKinds 3 (n - 2 - 1)) := by
          unfold layout
          rw [if_pos (by omega), if_pos hkn]
        rw [hlay]
        simp [leftKinds, hlen]
  · have : n = 2 := by omega
    subst this
    cases r1
    have hsw : sweepRest true 0 0 [m, m', x] = .ok [m, m', x] := by
      have hpre : sweepRest true 0 0 [m, m', x] = _ := hpre
      rw [hpre]
      rfl
    exact ⟨_, sweeps_merge 0 _ _ hsw (by simp) (by simp) (by simp), by simp [layout, leftKinds]⟩

theorem stuck_right [CommSemiring K] (D F O p k n : ℕ) (hp : p ≤ 1) (hk : k % 2 ≠ p) (hn : n = k + 2) (a : Cores K) (L R : List (Module K)) (x : Module K)
    (hL : Part D F a 0 k L) (hx : IsOut D O a x) (hR : TwoSites D F a k R) :
    ∃ l, mergeList p (L ++ x :: R) = .ok l ∧ l.length = (layout p k n).length + 1 := by
  obtain ⟨m, m', rfl, hm, hm'⟩ := hR
  obtain ⟨Lk, r1, r2⟩ := internalMerge_part D F O a 0 k p L (x :: [m, m']) hL
  have hi : internalMerge p (L ++ x :: [m, m']) = .ok (Lk ++ [x, m, m']) := by
    rw [r2, internalMerge_out D O a _ x hx, internalMerge_site D F a k _ m hm, internalMerge_site D F a (k + 1) _ m' hm']
    simp [internalMerge, Except.map, pure, Except.pure]
  have hxf : Fit D F O a .out x := by
    obtain ⟨t, rfl, h2, h3⟩ := hx
    exact ⟨h2, h3⟩
  obtain ⟨c1, c2⟩ := isSite_core D F a k m hm
  obtain ⟨c3, c4⟩ := isSite_core D F a (k + 1) m' hm'
  unfold mergeList
  rw [assert_true _ (by omega), bind_ok_except, hi, bind_ok_except]
  rw [show p % 2 = p by omega] at r1
  by_cases hk0 : k = 0
  · subst hk0
    simp only [partKinds, if_pos] at r1
    cases r1
    obtain ⟨mo, e3, e2⟩ := combine_out_left D F O a 0 x m hxf (site_fit D F O a 0 m hm)
    have hsw : sweepRest true p 0 [x, m, m'] = .ok [x, m, m'] := by
      simp only [sweepRest]
      rw [e3]
      simp only [bind_ok_except]
      rw [if_pos ⟨trivial, by omega⟩]
      rw [combine_none_right m m' c2 c4]
      rfl
    refine ⟨_, sweeps_merge p _ _ hsw (by simp) (by simp) (by simp), ?_⟩
    subst hn
    unfold layout
    rw [if_neg hk, if_pos rfl]
    simp [rightKinds]
  · rw [partKinds_odd p k hp hk0 hk] at r1
    obtain ⟨L0, L1, g0, g1, rfl⟩ := forall2_split r1
    cases g1 with
    | @cons κ y ks R' g1 g2 =>
      cases g2
      have hcL : coresLen L0 = k - 1 := by rw [fits_cores D F O a _ _ g0, leftKinds_cores p (k - 1) hp (by omega)]
      have hLn := fits_noOut D F O a _ _ g0 (leftKinds_in p (k - 1))
      obtain ⟨mo, e1, e2⟩ := combine_out_right D F O a (k - 1) y x g1 hxf
      have hsw : sweepRest true p 0 (L0 ++ y :: [x, m, m']) = .ok (L0 ++ mo :: [m, m']) := by
        rw [sweepRest_pre p 0 L0 y [x, m, m'] hLn (by
          intro z hz
          exact ⟨none, combine_none_right _ _ (hLn z (List.mem_of_mem_getLast? hz)) (fit_noOut D F O a _ _ g1 (by simp)), Or.inl rfl⟩)]
        rw [hcL, zero_add]
        simp only [sweepRest]
        rw [e1]
        simp only [bind_ok_except]
        rw [if_neg (by omega), assert_true _ (by
          right
          rw [(shaped_len D F O _ _ e2.1).2, (shaped_len D F O _ _ hxf.1).2, (shaped_len D F O _ _ g1.1).2]
          rfl)]
        simp only [bind_ok_except]
        rw [combine_none_right m m' c2 c4]
        rfl
      have e : (L0 ++ [y]) ++ [x, m, m'] = L0 ++ y :: [x, m, m'] := by simp
      rw [e]
      refine ⟨_, sweeps_merge p _ _ hsw (by simp) (by simp) ?_, ?_⟩
      · intro _ z hz
        simp only [List.mem_append, List.mem_cons, List.not_mem_nil, or_false] at hz
        rcases hz with hz | rfl | rfl | rfl
        · exact hLn z hz
        · exact fit_noOut D F O a _ _ e2 (by simp)
        · exact c2
        · exact c4
      · have hlen := g0.length_eq
        have hlay : layout p k n = leftKinds p (k - 1) ++ (.mout (k - 1) false :: rightKinds k (n - k)) := by
          unfold layout
          rw [if_neg hk, if_neg hk0]
        rw [hlay]
        subst hn
        simp [rightKinds, hlen]

end TorchMPS
