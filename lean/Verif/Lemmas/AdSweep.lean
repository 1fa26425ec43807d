import Verif.Lemmas.AdUnmergeAll
/-
The passes joining single cores to regions when unmerging.
-/
namespace TorchMPS
open Spec
variable {K : Type}

theorem sweepRest_irrel [CommSemiring K] (o s s' : ℕ) (l : List (Module K)) : sweepRest false o s l = sweepRest false o s' l := by
  obtain ⟨N, hN⟩ : ∃ N, l.length ≤ N := ⟨_, le_rfl⟩
  induction N generalizing l s s' with
  | zero =>
    cases l with
    | nil => rfl
    | cons _ _ => simp at hN
  | succ N ih =>
    match l, hN with
    | [], _ => rfl
    | [_], _ => rfl
    | a :: b :: rest, hN =>
      simp only [sweepRest]
      cases combineCores false a b with
      | error e => rfl
      | ok c =>
        simp only [bind_ok_except]
        cases c with
        | none =>
          simp only
          rw [ih (s + a.coreLen) (s' + a.coreLen) (b :: rest) (by simpa using hN)]
        | some c =>
          simp only
          rw [if_neg (by simp), if_neg (by simp), ih (s + c.coreLen) (s' + c.coreLen) rest (by simp at hN ⊢; omega)]

/-- What a pass makes of a stretch of modules, followed by the output core or nothing. -/
def Pass [CommSemiring K] (P P' : List (Module K)) : Prop := ∀ o s T, (∀ m ∈ T.head?, m.isOutSite = true) →
  sweepRest false o s (P ++ T) = (sweepRest false o s T).map (P' ++ ·)

theorem pass_nil [CommSemiring K] : Pass (K := K) [] [] := by
  intro o s T _
  simp only [List.nil_append]
  cases sweepRest false o s T <;> rfl

theorem combine_before_out [CommSemiring K] (m x : Module K) (hx : x.isOutSite = true) : combineCores false m x = .ok none := by
  cases m <;> cases x <;> first | rfl | simp [Module.isOutSite] at hx

theorem combine_after_out [CommSemiring K] (m x : Module K) (hx : x.isOutSite = true) : combineCores false x m = .ok none := by
  cases m <;> cases x <;> first | rfl | simp [Module.isOutSite] at hx

theorem pass_one [CommSemiring K] (m : Module K) : Pass [m] [m] := by
  intro o s T hT
  cases T with
  | nil => rfl
  | cons x T =>
    simp only [List.cons_append, List.nil_append, sweepRest]
    rw [combine_before_out m x (hT x (by simp))]
    simp only [bind_ok_except]
    rw [sweepRest_irrel o (s + m.coreLen) s]
    cases sweepRest false o s (x :: T) <;> rfl

theorem pass_skip [CommSemiring K] (m m' : Module K) (P P' : List (Module K)) (h : Pass (m' :: P) P') (hc : combineCores false m m' = .ok none) :
    Pass (m :: m' :: P) (m :: P') := by
  intro o s T hT
  simp only [List.cons_append, sweepRest]
  rw [hc]
  simp only [bind_ok_except]
  have := h o (s + m.coreLen) T hT
  rw [List.cons_append] at this
  rw [this, sweepRest_irrel o (s + m.coreLen) s]
  cases sweepRest false o s T <;> rfl

theorem pass_join [CommSemiring K] (m m' c : Module K) (P P' : List (Module K)) (h : Pass P P') (hc : combineCores false m m' = .ok (some c)) :
    Pass (m :: m' :: P) (c :: P') := by
  intro o s T hT
  simp only [List.cons_append, sweepRest]
  rw [hc]
  simp only [bind_ok_except]
  rw [if_neg (by simp), assert_true _ (Or.inl trivial)]
  simp only [bind_ok_except]
  rw [h o (s + c.coreLen) T hT, sweepRest_irrel o (s + c.coreLen) s]
  cases sweepRest false o s T <;> rfl

/-- What repeated passes make of a stretch of modules. -/
inductive Reduces [CommSemiring K] : List (Module K) → ℕ → List (Module K) → Prop
  | done {P} : Pass P P → Reduces P 0 P
  | step {P P' j Q} : Pass P P' → P'.length + 1 = P.length → Reduces P' j Q → Reduces P (j + 1) Q

theorem pass_both [CommSemiring K] (L L' R R' : List (Module K)) (x : Module K) (hx : x.isOutSite = true) (hL : Pass L L') (hR : Pass R R') (s : ℕ) :
    sweepRest false 0 s (L ++ x :: R) = .ok (L' ++ x :: R') := by
  rw [hL 0 s (x :: R) (by simp [hx])]
  have : sweepRest false 0 s (x :: R) = .ok (x :: R') := by
    cases R with
    | nil =>
      have := hR 0 s [] (by simp)
      simp only [sweepRest, List.append_nil, Except.map, pure, Except.pure] at this
      rw [Except.ok.inj this.symm]
      rfl
    | cons y R =>
      simp only [sweepRest]
      rw [combine_after_out y x hx]
      simp only [bind_ok_except]
      have := hR 0 (s + x.coreLen) [] (by simp)
      rw [List.append_nil] at this
      rw [this]
      simp [sweepRest, Except.map, pure, Except.pure]
      rfl
  rw [this]
  rfl

theorem reduces_pass [CommSemiring K] {P Q : List (Module K)} {j : ℕ} (h : Reduces P j Q) :
    ∃ P', Pass P P' ∧ Reduces P' (j - 1) Q ∧ P'.length + min j 1 = P.length ∧ (j = 0 → P' = P ∧ Q = P) := by
  cases h with
  | done h => exact ⟨P, h, .done h, by simp, fun _ => ⟨rfl, rfl⟩⟩
  | @step _ P' j _ h1 h2 h3 => exact ⟨P', h1, by simpa using h3, by omega, fun h => by omega⟩

theorem reduces_len [CommSemiring K] {P Q : List (Module K)} {j : ℕ} (h : Reduces P j Q) : Q.length + j = P.length := by
  induction h with
  | done => rfl
  | step _ h2 _ ih => omega

theorem sweeps_reduce [CommSemiring K] (x : Module K) (hx : x.isOutSite = true) (L' R' : List (Module K)) (hne : L' ≠ [] ∨ R' ≠ []) (fuel : ℕ)
    (L R : List (Module K)) (j j' : ℕ) (hL : Reduces L j L') (hR : Reduces R j' R') (hf : max j j' < fuel) :
    sweeps false 0 fuel (L ++ x :: R) = .ok (L' ++ x :: R') := by
  induction fuel generalizing L R j j' with
  | zero => omega
  | succ fuel ih =>
    obtain ⟨P, p1, p2, p3, p4⟩ := reduces_pass hL
    obtain ⟨Q, q1, q2, q3, q4⟩ := reduces_pass hR
    have hlen : 2 ≤ (L ++ x :: R).length := by
      have e1 := reduces_len hL
      have e2 := reduces_len hR
      simp only [List.length_append, List.length_cons]
      rcases hne with h | h
      · have := List.length_pos_iff.2 h; omega
      · have := List.length_pos_iff.2 h; omega
    simp only [sweeps, sweep]
    rw [if_neg (by omega), pass_both L P R Q x hx p1 q1]
    simp only [bind_ok_except]
    by_cases h0 : j = 0 ∧ j' = 0
    · obtain ⟨rfl, rfl⟩ := h0
      obtain ⟨rfl, rfl⟩ := p4 rfl
      obtain ⟨rfl, rfl⟩ := q4 rfl
      rw [if_pos rfl]
      rfl
    · rw [if_neg (by simp only [List.length_append, List.length_cons]; omega)]
      exact ih P Q (j - 1) (j' - 1) p2 q2 (by omega)

/-! ### what the stretches are -/

theorem mkRegion_default [CommSemiring K] (len D F : ℕ) (t : Tensor K) (h : t.shape = [len, D, D, F]) :
    mkInputRegion t true none = .ok (.inputRegion t (some ((eyeMat D).unsqueeze 0))) := by
  unfold mkInputRegion
  rw [assert_true _ (by simp [Tensor.ndim, h]), assert_true _ (by simp [h])]
  simp only [bind_ok_except, if_true, h, List.getD_cons_zero, List.getD_cons_succ]
  have : regionBias (K := K) D none = .ok ((eyeMat D).unsqueeze 0) := by
    unfold regionBias
    simp [Tensor.ndim, Tensor.unsqueeze, eyeMat]
  rw [this]
  rfl

theorem join_site_region [CommSemiring K] (D F : ℕ) (a : Cores K) (i len : ℕ) (m m' : Module K) (h : IsSite D F a i m) (h' : IsRegion D F a (i + 1) len m') :
    ∃ c, combineCores false m m' = .ok (some c) ∧ IsRegion D F a i (len + 1) c := by
  obtain ⟨x, rfl, hx, vx⟩ := h
  obtain ⟨hl, y, b, rfl, hy, vy⟩ := h'
  have hcat : ∃ T, (x.unsqueeze 0).cat y 0 = .ok T ∧ T.shape = [len + 1, D, D, F] ∧ (∀ l r f, T.get [0, l, r, f] = x.get [l, r, f]) ∧
      ∀ s l r f, T.get [s + 1, l, r, f] = y.get [s, l, r, f] := by
    unfold Tensor.cat
    rw [if_pos (by simp [Tensor.unsqueeze, hx, hy])]
    refine ⟨_, rfl, ?_, ?_, ?_⟩
    · simp [Tensor.unsqueeze, hx, hy]; omega
    · intro l r f
      simp [Tensor.unsqueeze]
    · intro s l r f
      simp [Tensor.unsqueeze]
  obtain ⟨T, T1, T2, T3, T4⟩ := hcat
  refine ⟨.inputRegion T (some ((eyeMat D).unsqueeze 0)), ?_, by omega, T, _, rfl, T2, ?_⟩
  · simp only [combineCores]
    rw [assert_true _ (by simp [Tensor.unsqueeze, hx, hy])]
    simp only [bind_ok_except]
    rw [T1]
    simp only [bind_ok_except]
    rw [mkRegion_default (len + 1) D F T T2]
    rfl
  · intro s hs l hl' r hr f hf
    cases s with
    | zero => rw [T3, vx l hl' r hr f hf, add_zero]
    | succ s => rw [T4, vy s (by omega) l hl' r hr f hf, add_assoc, add_comm 1 s]

theorem join_region_site [CommSemiring K] (D F : ℕ) (a : Cores K) (i len : ℕ) (m m' : Module K) (h : IsRegion D F a i len m) (h' : IsSite D F a (i + len) m') :
    ∃ c, combineCores false m m' = .ok (some c) ∧ IsRegion D F a i (len + 1) c := by
  obtain ⟨x, rfl, hx, vx⟩ := h'
  obtain ⟨hl, y, b, rfl, hy, vy⟩ := h
  have hcat : ∃ T, y.cat (x.unsqueeze 0) 0 = .ok T ∧ T.shape = [len + 1, D, D, F] ∧ (∀ l r f, T.get [len, l, r, f] = x.get [l, r, f]) ∧
      ∀ s < len, ∀ l r f, T.get [s, l, r, f] = y.get [s, l, r, f] := by
    unfold Tensor.cat
    rw [if_pos (by simp [Tensor.unsqueeze, hx, hy])]
    refine ⟨_, rfl, ?_, ?_, ?_⟩
    · simp [Tensor.unsqueeze, hx, hy]
    · intro l r f
      simp [Tensor.unsqueeze, hy]
    · intro s hs l r f
      simp [hy, hs]
  obtain ⟨T, T1, T2, T3, T4⟩ := hcat
  refine ⟨.inputRegion T (some ((eyeMat D).unsqueeze 0)), ?_, by omega, T, _, rfl, T2, ?_⟩
  · simp only [combineCores]
    rw [assert_true _ (by simp [Tensor.unsqueeze, hx, hy])]
    simp only [bind_ok_except]
    rw [T1]
    simp only [bind_ok_except]
    rw [mkRegion_default (len + 1) D F T T2]
    rfl
  · intro s hs l hl' r hr f hf
    by_cases h1 : s < len
    · rw [T4 s h1, vy s h1 l hl' r hr f hf]
    · have : s = len := by omega
      subst this
      rw [T3, vx l hl' r hr f hf]

theorem reduces_part [CommSemiring K] (D F : ℕ) (a : Cores K) (i len : ℕ) (P : List (Module K)) (h : Part D F a i len P) : Reduces P 0 P := by
  cases h with
  | none => exact .done pass_nil
  | site => exact .done (pass_one _)
  | region => exact .done (pass_one _)

theorem combine_sites [CommSemiring K] (D F : ℕ) (a : Cores K) (i j : ℕ) (m m' : Module K) (h : IsSite D F a i m) (h' : IsSite D F a j m') :
    combineCores false m m' = .ok none := by
  obtain ⟨x, rfl, _⟩ := h
  obtain ⟨y, rfl, _⟩ := h'
  rfl

/-- two lone pixel cores stay as they are -/
theorem reduces_stuck [CommSemiring K] (D F : ℕ) (a : Cores K) (i j : ℕ) (m m' : Module K) (h : IsSite D F a i m) (h' : IsSite D F a j m') :
    Reduces [m, m'] 0 [m, m'] :=
  .done (pass_skip m m' [] [m'] (pass_one m') (combine_sites D F a i j m m' h h'))

theorem reduces_sr [CommSemiring K] (D F : ℕ) (a : Cores K) (i len : ℕ) (m m' : Module K) (h : IsSite D F a i m) (h' : IsRegion D F a (i + 1) len m') :
    ∃ Q, Reduces [m, m'] 1 Q ∧ Part D F a i (len + 1) Q := by
  obtain ⟨c, h1, h2⟩ := join_site_region D F a i len m m' h h'
  exact ⟨[c], .step (pass_join m m' c [] [] pass_nil h1) rfl (.done (pass_one c)), .region h2⟩

theorem reduces_rs [CommSemiring K] (D F : ℕ) (a : Cores K) (i len : ℕ) (m m' : Module K) (h : IsRegion D F a i len m) (h' : IsSite D F a (i + len) m') :
    ∃ Q, Reduces [m, m'] 1 Q ∧ Part D F a i (len + 1) Q := by
  obtain ⟨c, h1, h2⟩ := join_region_site D F a i len m m' h h'
  exact ⟨[c], .step (pass_join m m' c [] [] pass_nil h1) rfl (.done (pass_one c)), .region h2⟩

theorem reduces_srs [CommSemiring K] (D F : ℕ) (a : Cores K) (i len : ℕ) (m m' m'' : Module K) (h : IsSite D F a i m)
    (h' : IsRegion D F a (i + 1) len m') (h'' : IsSite D F a (i + 1 + len) m'') :
    ∃ Q, Reduces [m, m', m''] 2 Q ∧ Part D F a i (len + 2) Q := by
  obtain ⟨c, h1, h2⟩ := join_site_region D F a i len m m' h h'
  obtain ⟨Q, q1, q2⟩ := reduces_rs D F a i (len + 1) c m'' h2 (by rw [show i + (len + 1) = i + 1 + len by ring]; exact h'')
  exact ⟨Q, .step (pass_join m m' c [m''] [m''] (pass_one m'') h1) rfl q1, q2⟩

/-- Two lone pixel cores next to each other. -/
def TwoSites (D F : ℕ) (a : Cores K) (i : ℕ) (P : List (Module K)) : Prop := ∃ m m', P = [m, m'] ∧ IsSite D F a i m ∧ IsSite D F a (i + 1) m'

/-- The passes join everything to at most one module. -/
def Joins [CommSemiring K] (D F : ℕ) (a : Cores K) (i len : ℕ) (P : List (Module K)) : Prop := ∃ j Q, Reduces P j Q ∧ Part D F a i len Q

theorem left_even (D F O p k : ℕ) (hp : p ≤ 1) (hk : k % 2 = p) (a : Cores ℝ) (cs : List (List (Module ℝ)))
    (h : List.Forall₂ (Pieces D F O a) (leftKinds p k) cs) : Joins D F a 0 k cs.flatten := by
  have h01 : p = 0 ∨ p = 1 := by omega
  unfold leftKinds at h
  rcases h01 with rfl | rfl
  · rw [if_neg (by decide), List.nil_append] at h
    split at h
    · cases h with
      | cons h1 h2 =>
        cases h2
        obtain ⟨m, rfl, h1⟩ := h1
        simp only [List.flatten_cons, List.flatten_nil, List.append_nil]
        refine ⟨0, [m], .done (pass_one m), .region ?_⟩
        rwa [show 2 * ((k - 0) / 2) = k by omega] at h1
    · cases h
      have : k = 0 := by omega
      subst this
      exact ⟨0, [], .done pass_nil, .none⟩
  · rw [if_pos rfl, List.cons_append, List.nil_append] at h
    cases h with
    | cons h1 h2 =>
      obtain ⟨m, rfl, h1⟩ := h1
      split at h2
      · cases h2 with
        | cons h3 h4 =>
          cases h4
          obtain ⟨m', rfl, h3⟩ := h3
          simp only [List.flatten_cons, List.flatten_nil, List.append_nil, List.cons_append, List.nil_append]
          obtain ⟨Q, q1, q2⟩ := reduces_sr D F a 0 _ m m' h1 h3
          refine ⟨1, Q, q1, ?_⟩
          rwa [show 2 * ((k - 1) / 2) + 1 = k by omega] at q2
      · cases h2
        have : k = 1 := by omega
        subst this
        exact ⟨0, [m], .done (pass_one m), .site h1⟩

theorem left_odd (D F O p k : ℕ) (hp : p ≤ 1) (hk : k % 2 ≠ p) (hk0 : k ≠ 0) (a : Cores ℝ) (cs : List (List (Module ℝ))) (m : Module ℝ)
    (h : List.Forall₂ (Pieces D F O a) (leftKinds p (k - 1)) cs) (hm : IsSite D F a (k - 1) m) :
    (¬ (p = 1 ∧ k = 2) → Joins D F a 0 k (cs.flatten ++ [m])) ∧ (p = 1 ∧ k = 2 → TwoSites D F a 0 (cs.flatten ++ [m])) := by
  have h01 : p = 0 ∨ p = 1 := by omega
  unfold leftKinds at h
  rcases h01 with rfl | rfl
  · refine ⟨?_, by omega⟩
    intro _
    rw [if_neg (by decide), List.nil_append] at h
    split at h
    · cases h with
      | cons h1 h2 =>
        cases h2
        obtain ⟨m', rfl, h1⟩ := h1
        simp only [List.flatten_cons, List.flatten_nil, List.append_nil, List.cons_append, List.nil_append]
        obtain ⟨Q, q1, q2⟩ := reduces_rs D F a 0 _ m' m h1 (by rw [show 0 + 2 * ((k - 1 - 0) / 2) = k - 1 by omega]; exact hm)
        refine ⟨1, Q, q1, ?_⟩
        rwa [show 2 * ((k - 1 - 0) / 2) + 1 = k by omega] at q2
    · cases h
      have : k = 1 := by omega
      subst this
      exact ⟨0, [m], .done (pass_one m), .site hm⟩
  · rw [if_pos rfl, List.cons_append, List.nil_append] at h
    cases h with
    | cons h1 h2 =>
      obtain ⟨m', rfl, h1⟩ := h1
      split at h2
      · refine ⟨?_, by omega⟩
        intro _
        cases h2 with
        | cons h3 h4 =>
          cases h4
          obtain ⟨m'', rfl, h3⟩ := h3
          simp only [List.flatten_cons, List.flatten_nil, List.append_nil, List.cons_append, List.nil_append]
          obtain ⟨Q, q1, q2⟩ := reduces_srs D F a 0 _ m' m'' m h1 h3 (by rw [show 0 + 1 + 2 * ((k - 1 - 1) / 2) = k - 1 by omega]; exact hm)
          refine ⟨2, Q, q1, ?_⟩
          rwa [show 2 * ((k - 1 - 1) / 2) + 2 = k by omega] at q2
      · cases h2
        have : k = 2 := by omega
        subst this
        refine ⟨fun h => absurd ⟨rfl, rfl⟩ h, fun _ => ?_⟩
        exact ⟨m', m, rfl, h1, hm⟩

theorem right_plain (D F O i q : ℕ) (a : Cores ℝ) (cs : List (List (Module ℝ)))
    (h : List.Forall₂ (Pieces D F O a) (rightKinds i q) cs) : Joins D F a i q cs.flatten := by
  unfold rightKinds at h
  obtain ⟨l1, l2, h1, h2, rfl⟩ := forall2_split h
  rw [List.flatten_append]
  have e1 : (2 ≤ q ∧ ∃ m, l1.flatten = [m] ∧ IsRegion D F a i (2 * (q / 2)) m) ∨ (q < 2 ∧ l1.flatten = []) := by
    split at h1
    · rename_i hq
      cases h1 with
      | cons g1 g2 =>
        cases g2
        obtain ⟨m, rfl, g1⟩ := g1
        exact Or.inl ⟨hq, m, by simp, g1⟩
    · rename_i hq
      cases h1
      exact Or.inr ⟨by omega, rfl⟩
  have e2 : (q % 2 = 1 ∧ ∃ m, l2.flatten = [m] ∧ IsSite D F a (i + q - 1) m) ∨ (q % 2 = 0 ∧ l2.flatten = []) := by
    split at h2
    · rename_i hq
      cases h2 with
      | cons g1 g2 =>
        cases g2
        obtain ⟨m, rfl, g1⟩ := g1
        exact Or.inl ⟨hq, m, by simp, g1⟩
    · rename_i hq
      cases h2
      exact Or.inr ⟨by omega, rfl⟩
  rcases e1 with ⟨e1, m, e3, e4⟩ | ⟨e1, e3⟩ <;> rcases e2 with ⟨e2, m', e5, e6⟩ | ⟨e2, e5⟩ <;> rw [e3, e5]
  · obtain ⟨Q, q1, q2⟩ := reduces_rs D F a i _ m m' e4 (by rw [show i + 2 * (q / 2) = i + q - 1 by omega]; exact e6)
    refine ⟨1, Q, q1, ?_⟩
    rwa [show 2 * (q / 2) + 1 = q by omega] at q2
  · refine ⟨0, [m], .done (pass_one m), .region ?_⟩
    rwa [show 2 * (q / 2) = q by omega] at e4
  · have : q = 1 := by omega
    subst this
    exact ⟨0, [m'], .done (pass_one m'), .site (by simpa using e6)⟩
  · have : q = 0 := by omega
    subst this
    exact ⟨0, [], .done pass_nil, .none⟩

theorem right_after (D F O i q : ℕ) (a : Cores ℝ) (hq : 1 ≤ q) (cs : List (List (Module ℝ))) (m : Module ℝ)
    (h : List.Forall₂ (Pieces D F O a) (rightKinds (i + 1) (q - 1)) cs) (hm : IsSite D F a i m) :
    (q ≠ 2 → Joins D F a i q (m :: cs.flatten)) ∧ (q = 2 → TwoSites D F a i (m :: cs.flatten)) := by
  unfold rightKinds at h
  obtain ⟨l1, l2, h1, h2, rfl⟩ := forall2_split h
  rw [List.flatten_append]
  have e1 : (3 ≤ q ∧ ∃ m, l1.flatten = [m] ∧ IsRegion D F a (i + 1) (2 * ((q - 1) / 2)) m) ∨ (q < 3 ∧ l1.flatten = []) := by
    split at h1
    · rename_i hq
      cases h1 with
      | cons g1 g2 =>
        cases g2
        obtain ⟨m, rfl, g1⟩ := g1
        exact Or.inl ⟨by omega, m, by simp, g1⟩
    · rename_i hq
      cases h1
      exact Or.inr ⟨by omega, rfl⟩
  have e2 : (q % 2 = 0 ∧ ∃ m, l2.flatten = [m] ∧ IsSite D F a (i + q - 1) m) ∨ (q % 2 = 1 ∧ l2.flatten = []) := by
    split at h2
    · rename_i hq
      cases h2 with
      | cons g1 g2 =>
        cases g2
        obtain ⟨m, rfl, g1⟩ := g1
        refine Or.inl ⟨by omega, m, by simp, ?_⟩
        rwa [show i + 1 + (q - 1) - 1 = i + q - 1 by omega] at g1
    · rename_i hq
      cases h2
      exact Or.inr ⟨by omega, rfl⟩
  rcases e1 with ⟨e1, m1, e3, e4⟩ | ⟨e1, e3⟩ <;> rcases e2 with ⟨e2, m', e5, e6⟩ | ⟨e2, e5⟩ <;> rw [e3, e5]
  · refine ⟨fun _ => ?_, by omega⟩
    obtain ⟨Q, q1, q2⟩ := reduces_srs D F a i _ m m1 m' hm e4 (by rw [show i + 1 + 2 * ((q - 1) / 2) = i + q - 1 by omega]; exact e6)
    refine ⟨2, Q, q1, ?_⟩
    rwa [show 2 * ((q - 1) / 2) + 2 = q by omega] at q2
  · refine ⟨fun _ => ?_, by omega⟩
    obtain ⟨Q, q1, q2⟩ := reduces_sr D F a i _ m m1 hm e4
    refine ⟨1, Q, q1, ?_⟩
    rwa [show 2 * ((q - 1) / 2) + 1 = q by omega] at q2
  · have : q = 2 := by omega
    subst this
    refine ⟨fun h => absurd rfl h, fun _ => ⟨m, m', rfl, hm, ?_⟩⟩
    simpa using e6
  · have : q = 1 := by omega
    subst this
    exact ⟨fun _ => ⟨0, [m], .done (pass_one m), .site hm⟩, by omega⟩

/-- The pieces of a chain: joined to at most one module on either side of the output core, except for two pixel cores next to a side
which were both alone. -/
theorem chunks_split (D F O p k n : ℕ) (hp : p ≤ 1) (hk : k ≤ n) (a : Cores ℝ) (cs : List (List (Module ℝ)))
    (h : List.Forall₂ (Pieces D F O a) (layout p k n) cs) :
    ∃ L x R, cs.flatten = L ++ x :: R ∧ IsOut D O a x ∧
      (¬ (p = 1 ∧ k = 2) → Joins D F a 0 k L) ∧ (p = 1 ∧ k = 2 → TwoSites D F a 0 L) ∧
      (¬ (k % 2 = p ∧ n - k = 2) → Joins D F a k (n - k) R) ∧ (k % 2 = p ∧ n - k = 2 → TwoSites D F a k R) := by
  unfold layout at h
  split at h
  · rename_i hpar
    obtain ⟨l1, l2, h1, h2, rfl⟩ := forall2_split h
    rw [List.flatten_append]
    have hL := left_even D F O p k hp hpar a l1 h1
    split at h2
    · rename_i hkn
      cases h2 with
      | cons g1 g2 =>
        obtain ⟨x, m, rfl, gx, gm⟩ := g1
        obtain ⟨r1, r2⟩ := right_after D F O k (n - k) a (by omega) _ m g2 gm
        refine ⟨_, x, _, by simp, gx, fun _ => hL, by omega, fun hx => r1 (by omega), fun hx => r2 hx.2⟩
    · rename_i hkn
      cases h2 with
      | cons g1 g2 =>
        cases g2
        obtain ⟨x, rfl, gx⟩ := g1
        have hkn : n - k = 0 := by omega
        refine ⟨_, x, [], by simp, gx, fun _ => hL, by omega, fun _ => ?_, by omega⟩
        rw [hkn]
        exact ⟨0, [], .done pass_nil, .none⟩
  · rename_i hpar
    split at h
    · rename_i hk0
      subst hk0
      cases h with
      | cons g1 g2 =>
        obtain ⟨x, rfl, gx⟩ := g1
        exact ⟨[], x, _, by simp, gx, fun _ => ⟨0, [], .done pass_nil, .none⟩, by omega,
          fun _ => right_plain D F O 0 n a _ g2, fun hx => absurd hx.1 hpar⟩
    · rename_i hk0
      obtain ⟨l1, l2, h1, h2, rfl⟩ := forall2_split h
      rw [List.flatten_append]
      cases h2 with
      | cons g1 g2 =>
        obtain ⟨m, x, rfl, gm, gx⟩ := g1
        obtain ⟨r1, r2⟩ := left_odd D F O p k hp hpar hk0 a l1 m h1 gm
        exact ⟨l1.flatten ++ [m], x, _, by simp, gx, r1, r2, fun _ => right_plain D F O k (n - k) a _ g2, fun hx => absurd hx.1 hpar⟩

theorem part_nonempty (D F : ℕ) (a : Cores K) (i len : ℕ) (P : List (Module K)) (h : Part D F a i len P) (hl : 1 ≤ len) : P ≠ [] := by
  cases h with
  | none => omega
  | site => simp
  | region => simp

theorem isOut_isOutSite (D O : ℕ) (a : Cores K) (x : Module K) (h : IsOut D O a x) : x.isOutSite = true := by
  obtain ⟨t, rfl, _⟩ := h
  rfl

/-- the pieces are joined to an unmerged chain -/
theorem sweeps_unmerged (D F O p k n : ℕ) (hp : p ≤ 1) (hk : k ≤ n) (hn : 1 ≤ n) (a : Cores ℝ) (cs : List (List (Module ℝ)))
    (h : List.Forall₂ (Pieces D F O a) (layout p k n) cs) (h1 : ¬ (p = 1 ∧ k = 2)) (h2 : ¬ (k % 2 = p ∧ n - k = 2)) :
    ∃ ms, sweeps false 0 (cs.flatten.length + 1) cs.flatten = .ok ms ∧ Unmerged D F O k n a ms := by
  obtain ⟨L, x, R, e, ex, l1, _, r1, _⟩ := chunks_split D F O p k n hp hk a cs h
  obtain ⟨j, L', l2, l3⟩ := l1 h1
  obtain ⟨j', R', r2, r3⟩ := r1 h2
  rw [e]
  refine ⟨L' ++ x :: R', ?_, L', x, R', rfl, l3, ex, r3⟩
  refine sweeps_reduce x (isOut_isOutSite D O a x ex) L' R' ?_ _ L R j j' l2 r2 ?_
  · by_cases hk0 : 1 ≤ k
    · exact Or.inl (part_nonempty D F a 0 k L' l3 hk0)
    · exact Or.inr (part_nonempty D F a k (n - k) R' r3 (by omega))
  · have e1 := reduces_len l2
    have e2 := reduces_len r2
    simp only [List.length_append, List.length_cons]
    omega

end TorchMPS
