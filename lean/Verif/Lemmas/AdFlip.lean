import Verif.Lemmas.AdRescale
import Verif.Lemmas.AdForward
/-
The flip of the merge state.
-/
namespace TorchMPS
open Spec

theorem layout_pairwise (p k n : ℕ) : (layout p k n).Pairwise (fun a b => ¬ (a.isOut = true ∧ b.isOut = true)) := by
  obtain ⟨as, κ, bs, h, h1, h2, h3⟩ := layout_split p k n
  rw [h, List.pairwise_append]
  refine ⟨?_, ?_, ?_⟩
  · refine List.Pairwise.imp_of_mem (R := fun _ _ => True) ?_ (List.pairwise_of_forall (fun _ _ => trivial))
    intro a b ha _ _
    simp [h1 a ha]
  · rw [List.pairwise_cons]
    refine ⟨fun b hb => by simp [h3 b hb], ?_⟩
    refine List.Pairwise.imp_of_mem (R := fun _ _ => True) ?_ (List.pairwise_of_forall (fun _ _ => trivial))
    intro a b ha _ _
    simp [h3 a ha]
  · intro a ha b _
    simp [h1 a ha]

theorem layout_out (p k n : ℕ) : ∃ κ ∈ layout p k n, κ.isOut = true := by
  obtain ⟨as, κ, bs, h, h1, h2, h3⟩ := layout_split p k n
  exact ⟨κ, by rw [h]; simp, h2⟩

/-! ### norms of the pieces -/

theorem pieces_norms (D F O i : ℕ) (a : Cores ℝ) (κ : Kind) (hat : Kind.At i κ) (us : List (Module ℝ)) (h : Pieces D F O a κ us) (x : ℝ) :
    (∃ u ∈ us, x ∈ u.norms) ↔ (∃ q, i ≤ q ∧ q < i + κ.len ∧ x = coreNorm D F (a.A q)) ∨ (κ.isOut = true ∧ x = outNorm D O a.C) := by
  have hone : ∀ y, (∃ q, i ≤ q ∧ q < i + 1 ∧ y = coreNorm D F (a.A q)) ↔ y = coreNorm D F (a.A i) := by
    intro y
    constructor
    · rintro ⟨q, h1, h2, rfl⟩
      rw [show q = i by omega]
    · intro h
      exact ⟨i, le_rfl, by omega, h⟩
  cases κ with
  | site j =>
    have hat : j = i := hat
    subst hat
    obtain ⟨m, rfl, h⟩ := h
    simp only [List.mem_singleton, exists_eq_left, site_norms D F a j m h, Kind.len, Kind.isOut, hone, Bool.false_eq_true, false_and, or_false]
  | out =>
    obtain ⟨m, rfl, h⟩ := h
    simp [out_norms D O a m h, Kind.len, Kind.isOut]
    intro q h1 h2
    omega
  | pairs j c =>
    obtain ⟨rfl, _⟩ := hat
    obtain ⟨m, rfl, h⟩ := h
    simp only [List.mem_singleton, exists_eq_left, region_norms D F a j _ m h, Kind.len, Kind.isOut, Bool.false_eq_true, false_and, or_false,
      List.mem_map, List.mem_range'_1]
    constructor
    · rintro ⟨q, ⟨h1, h2⟩, rfl⟩
      exact ⟨q, h1, h2, rfl⟩
    · rintro ⟨q, h1, h2, rfl⟩
      exact ⟨q, ⟨h1, h2⟩, rfl⟩
  | mout j b =>
    have hat : j = i := hat
    subst hat
    cases b with
    | true =>
      obtain ⟨m, m', rfl, h, h'⟩ := h
      simp only [List.mem_cons, List.not_mem_nil, or_false, exists_eq_or_imp, exists_eq_left, Kind.len, Kind.isOut, true_and, hone,
        out_norms D O a m h, site_norms D F a j m' h', List.mem_singleton]
      exact or_comm
    | false =>
      obtain ⟨m, m', rfl, h, h'⟩ := h
      simp only [List.mem_cons, List.not_mem_nil, or_false, exists_eq_or_imp, exists_eq_left, Kind.len, Kind.isOut, true_and, hone,
        out_norms D O a m' h', site_norms D F a j m h, List.mem_singleton]

theorem chunks_norms (D F O i : ℕ) (a : Cores ℝ) (ks : List Kind) (hst : Starts i ks) (cs : List (List (Module ℝ)))
    (h : List.Forall₂ (Pieces D F O a) ks cs) (x : ℝ) :
    (∃ u ∈ cs.flatten, x ∈ u.norms) ↔ (∃ q, i ≤ q ∧ q < i + (ks.map Kind.len).sum ∧ x = coreNorm D F (a.A q)) ∨
      ((∃ κ ∈ ks, κ.isOut = true) ∧ x = outNorm D O a.C) := by
  induction h generalizing i with
  | nil =>
    simp
    intro q h1 h2
    omega
  | @cons κ us ks cs h1 h2 ih =>
    have e1 := pieces_norms D F O i a κ hst.1 us h1 x
    have e2 := ih (i + κ.len) hst.2
    have e3 : (∃ u ∈ (us :: cs).flatten, x ∈ u.norms) ↔ (∃ u ∈ us, x ∈ u.norms) ∨ ∃ u ∈ cs.flatten, x ∈ u.norms := by
      simp only [List.flatten_cons, List.mem_append]
      constructor
      · rintro ⟨u, hu | hu, hx⟩
        · exact Or.inl ⟨u, hu, hx⟩
        · exact Or.inr ⟨u, hu, hx⟩
      · rintro (⟨u, hu, hx⟩ | ⟨u, hu, hx⟩)
        · exact ⟨u, Or.inl hu, hx⟩
        · exact ⟨u, Or.inr hu, hx⟩
    rw [e3, e1, e2]
    simp only [List.map_cons, List.sum_cons, List.mem_cons, exists_eq_or_imp]
    constructor
    · rintro ((⟨q, a1, a2, a3⟩ | ⟨a1, a2⟩) | (⟨q, a1, a2, a3⟩ | ⟨a1, a2⟩))
      · exact Or.inl ⟨q, by omega, by omega, a3⟩
      · exact Or.inr ⟨Or.inl a1, a2⟩
      · exact Or.inl ⟨q, by omega, by omega, a3⟩
      · exact Or.inr ⟨Or.inr a1, a2⟩
    · rintro (⟨q, a1, a2, a3⟩ | ⟨a1 | a1, a2⟩)
      · by_cases hq : q < i + κ.len
        · exact Or.inl (Or.inl ⟨q, a1, hq, a3⟩)
        · exact Or.inr (Or.inl ⟨q, by omega, by omega, a3⟩)
      · exact Or.inl (Or.inr ⟨a1, a2⟩)
      · exact Or.inr (Or.inr ⟨a1, a2⟩)

theorem layout_norms (D F O p k n : ℕ) (hp : p ≤ 1) (hk : k ≤ n) (a : Cores ℝ) (cs : List (List (Module ℝ)))
    (h : List.Forall₂ (Pieces D F O a) (layout p k n) cs) :
    (∃ u ∈ cs.flatten, (0 : ℝ) ∈ u.norms) ↔ (outNorm D O a.C = 0 ∨ ∃ q < n, coreNorm D F (a.A q) = 0) := by
  rw [chunks_norms D F O 0 a _ (starts_layout p k n hp hk) cs h 0, layout_len p k n hp hk]
  constructor
  · rintro (⟨q, _, h1, h2⟩ | ⟨_, h1⟩)
    · exact Or.inr ⟨q, by omega, h2.symm⟩
    · exact Or.inl h1.symm
  · rintro (h1 | ⟨q, h1, h2⟩)
    · exact Or.inr ⟨layout_out p k n, h1.symm⟩
    · exact Or.inl ⟨q, by omega, by omega, h2.symm⟩

theorem loneZero_norm (m : Module ℝ) (h : LoneZero m) : (0 : ℝ) ∈ m.norms := by
  cases m <;> first | exact h.elim | skip
  · simp only [Module.norms, List.mem_singleton]
    exact (normT_of_zero _ h).symm
  · simp only [Module.norms, List.mem_singleton]
    exact (normT_of_zero _ h).symm

theorem lone_kept (svd : Mat ℝ → SVD) (pop : List Char → Char) (cutoff : ℝ) (ms l : List (Module ℝ)) (bs : List BondEntry)
    (h : unmergeAll svd pop cutoff ms = .ok (l, bs)) : ∀ m ∈ ms, LoneZero m → m ∈ l := by
  induction ms generalizing l bs with
  | nil => simp
  | cons x ms ih =>
    simp only [unmergeAll] at h
    obtain ⟨⟨a, b⟩, h1, h2⟩ := bind_ok_inv h
    simp only at h2
    obtain ⟨⟨r, c⟩, h3, h4⟩ := bind_ok_inv h2
    simp only [pure, Except.pure, Except.ok.injEq, Prod.mk.injEq] at h4
    obtain ⟨rfl, rfl⟩ := h4
    intro m hm hz
    rcases List.mem_cons.1 hm with rfl | hm
    · cases m <;> first | exact hz.elim | skip
      all_goals
        simp only [unmergeModule, Except.ok.injEq, Prod.mk.injEq] at h1
        rw [← h1.1]
        simp
    · exact List.mem_append_right _ (ih r c h3 m hm hz)

theorem not_vanishing (svd : Mat ℝ → SVD) (D : ℕ) (cutoff : ℝ) (ms : List (Module ℝ)) (bs : List BondEntry)
    (h : List.Forall₂ (BondOk D cutoff) (ms.flatMap (bondPlan svd)) bs) : ¬ Vanishing svd D cutoff ms := by
  rintro ⟨m, hm, sv, hsv, hlt⟩
  obtain ⟨b, _, hb⟩ : ∃ b ∈ bs, BondOk D cutoff (some sv) b := by
    have : some sv ∈ ms.flatMap (bondPlan svd) := List.mem_flatMap.2 ⟨m, hm, hsv⟩
    revert this
    generalize ms.flatMap (bondPlan svd) = pl at h
    induction h with
    | nil => simp
    | cons h1 h2 ih =>
      intro hx
      rcases List.mem_cons.1 hx with rfl | hx
      · exact ⟨_, by simp, h1⟩
      · obtain ⟨b, q1, q2⟩ := ih hx
        exact ⟨b, by simp [q1], q2⟩
  match b, hb with
  | some (b, v), ⟨h1, h2, _⟩ =>
    rw [h1] at h2
    unfold kept at h2
    have : (List.range D).filter (fun k => @decide (cutoff ≤ sv.getD k 0) (Classical.propDecidable _)) = [] := by
      rw [List.filter_eq_nil_iff]
      intro k hk
      have := hlt k (List.mem_range.1 hk)
      simp
      simpa using this
    rw [this] at h2
    simp at h2
  | none, hb => exact hb.elim

/-! ### the update -/

theorem shaped_update (D F O : ℕ) (κ : Kind) (m m' : Module ℝ) (h : κ.Shaped D F O m) (h' : κ.Shaped D F O m') :
    m.tensor.shape = m'.tensor.shape ∧ m.setTensor m'.tensor = m' := by
  cases κ <;> cases m <;> first | exact h.elim | skip
  all_goals cases m' <;> first | exact h'.elim | skip
  all_goals simp only [Kind.Shaped] at h h'
  · exact ⟨h.trans h'.symm, rfl⟩
  · exact ⟨h.trans h'.symm, rfl⟩
  · exact ⟨h.trans h'.symm, rfl⟩
  · obtain ⟨rfl, h⟩ := h
    obtain ⟨rfl, h'⟩ := h'
    exact ⟨h.trans h'.symm, rfl⟩

theorem update_ok (D F O : ℕ) (ks : List Kind) (old new : List (Module ℝ)) (h : List.Forall₂ (fun κ m => κ.Shaped D F O m) ks old)
    (h' : List.Forall₂ (fun κ m => κ.Shaped D F O m) ks new) : updateList old new = (.ok (), new) := by
  unfold updateList
  rw [if_pos (by rw [← h.length_eq, ← h'.length_eq])]
  induction h generalizing new with
  | nil =>
    cases h'
    rfl
  | @cons κ m ks old h1 h2 ih =>
    cases h' with
    | @cons _ m' _ new h3 h4 =>
      obtain ⟨e1, e2⟩ := shaped_update D F O κ m m' h1 h3
      simp only [overwrite]
      rw [if_pos e1, ih new h4, e2]

/-- The factors by which the cores are multiplied at a flip. -/
theorem scales_one (D F O k n : ℕ) (hk : k ≤ n) (per : Bool) (a : Cores ℝ) (ms : List (Module ℝ)) (h : Unmerged D F O k n a ms) (e : Tensor ℝ) (b o : ℕ) :
    chainValue D F k n per (a.scale (fun q => Real.exp (logScale ms - Real.log (coreNorm D F (a.A q))))
        (Real.exp (logScale ms - Real.log (outNorm D O a.C)))) e b o = chainValue D F k n per a e b o := by
  rw [chainValue_scale D F k n hk, scale_prod n (Real.log (outNorm D O a.C)) (fun q => Real.log (coreNorm D F (a.A q))) (logScale ms)
    (logScale_eq D F O k n hk a ms h), one_mul]

theorem scales_balanced (D F O n : ℕ) (a : Cores ℝ) (ls : ℝ) (h0 : outNorm D O a.C ≠ 0) (h : ∀ q < n, coreNorm D F (a.A q) ≠ 0) :
    outNorm D O (a.scale (fun q => Real.exp (ls - Real.log (coreNorm D F (a.A q)))) (Real.exp (ls - Real.log (outNorm D O a.C)))).C = Real.exp ls ∧
    ∀ q < n, coreNorm D F ((a.scale (fun q => Real.exp (ls - Real.log (coreNorm D F (a.A q)))) (Real.exp (ls - Real.log (outNorm D O a.C)))).A q) =
      Real.exp ls := by
  have key : ∀ x : ℝ, 0 ≤ x → x ≠ 0 → x * Real.exp (ls - Real.log x) = Real.exp ls := by
    intro x h1 h2
    rw [Real.exp_sub, Real.exp_log (lt_of_le_of_ne h1 h2.symm)]
    field_simp
  refine ⟨?_, ?_⟩
  · simp only [Cores.scale]
    rw [outNorm_scale _ _ _ _ (Real.exp_nonneg _)]
    exact key _ (outNorm_nonneg _ _ _) h0
  · intro q hq
    simp only [Cores.scale]
    rw [coreNorm_scale _ _ _ _ (Real.exp_nonneg _)]
    exact key _ (coreNorm_nonneg _ _ _) (h q hq)

/-- Unmerging, if no side consists of two lone pixel cores. -/
theorem unmergeList_ok (svd : Mat ℝ → SVD) (hsvd : ∀ A, IsSVD A (svd A)) (pop : List Char → Char) (hpop : ∀ x xs, pop (x :: xs) ∈ x :: xs)
    (D F O p k n : ℕ) (hD : 1 ≤ D) (hp : p ≤ 1) (hk : k ≤ n) (hn : 1 ≤ n) (hstuck : ¬ Stuck p k n) (cutoff : ℝ)
    (ms : List (Module ℝ)) (h : MergedShape D F O p k n ms) :
    (unmergeList svd pop cutoff ms = .error .runtime ∧ Vanishing svd D cutoff ms) ∨
    (unmergeList svd pop cutoff ms = .error .nan ∧ ¬ Vanishing svd D cutoff ms ∧ (0 < cutoff → ∃ m ∈ ms, LoneZero m)) ∨
    ∃ us bs a, unmergeList svd pop cutoff ms = .ok (us, none :: bs) ∧ Unmerged D F O k n a us ∧ Balanced D F O n a ∧
      ¬ Vanishing svd D cutoff ms ∧ (∀ m ∈ ms, ¬ LoneZero m) ∧
      List.Forall₂ (BondOk D cutoff) (ms.flatMap (bondPlan svd)) bs ∧
      ((Lossless svd D cutoff ms → ∃ a0, MergedChain D F O p k n a0 ms ∧
          ∀ per e b o, chainValue D F k n per a e b o = chainValue D F k n per a0 e b o) ∧
        ∃ ms' a0, List.Forall₂ (Truncated svd D F O cutoff) ms ms' ∧ MergedChain D F O p k n a0 ms' ∧
          ∀ per e b o, chainValue D F k n per a e b o = chainValue D F k n per a0 e b o) := by
  unfold unmergeList
  rcases unmerge_all svd hsvd pop hpop D F O 0 hD cutoff _ (starts_layout p k n hp hk) (layout_pairwise p k n) ms h with
    ⟨g1, g2⟩ | ⟨chunks, bs, a, g1, g2, g3, g4, g5⟩
  · left
    rw [g1]
    exact ⟨rfl, g2⟩
  · right
    rw [g1]
    simp only [bind_ok_except]
    unfold Stuck at hstuck
    push Not at hstuck
    obtain ⟨us, f1, f2⟩ := sweeps_unmerged D F O p k n hp hk hn a chunks g2 (by tauto) (by tauto)
    rw [f1]
    simp only [bind_ok_except]
    have hnv := not_vanishing svd D cutoff ms bs g3
    have hnorm := layout_norms D F O p k n hp hk a chunks g2
    rcases rescale_unmerged D F O k n hk a us f2 with ⟨r1, r2⟩ | ⟨us', r1, r2, r3, r4⟩
    · left
      rw [r1]
      refine ⟨rfl, hnv, ?_⟩
      intro hc
      obtain ⟨u, u1, u2⟩ := hnorm.2 r2
      exact g4 hc u u1 u2
    · right
      rw [r1]
      obtain ⟨b1, b2⟩ := scales_balanced D F O n a (logScale us) r2 r3
      refine ⟨us', bs, _, rfl, r4, ⟨_, Real.exp_pos _, b1, b2⟩, hnv, ?_, g3, ?_⟩
      · intro m hm hz
        have := hnorm.1 ⟨m, lone_kept svd pop cutoff ms _ _ g1 m hm hz, loneZero_norm m hz⟩
        rcases this with h0 | ⟨q, q1, q2⟩
        · exact r2 h0
        · exact r3 q q1 q2
      · obtain ⟨g5, ms', h5, h6⟩ := g5
        exact ⟨fun hl => ⟨a, g5 hl, fun per e b o => scales_one D F O k n hk per a us f2 e b o⟩,
          ms', a, h6, h5, fun per e b o => scales_one D F O k n hk per a us f2 e b o⟩

/-- The flip, if no side consists of two lone pixel cores. -/
theorem flip_cases (svd : Mat ℝ → SVD) (hsvd : ∀ A, IsSVD A (svd A)) (pop : List Char → Char) (hpop : ∀ x xs, pop (x :: xs) ∈ x :: xs)
    (D F O k n : ℕ) (hD : 1 ≤ D) (hk : k ≤ n) (hn : 2 ≤ n) (r : AdRegion) (hp : r.offset ≤ 1) (hstuck : ¬ Stuck r.offset k n)
    (h : MergedShape D F O r.offset k n (r.listAt r.offset)) (h' : MergedShape D F O (1 - r.offset) k n (r.listAt (1 - r.offset))) :
    (r.flip svd pop = (.error .runtime, r) ∧ Vanishing svd D r.cutoff (r.listAt r.offset)) ∨
    (r.flip svd pop = (.error .nan, r) ∧ ¬ Vanishing svd D r.cutoff (r.listAt r.offset) ∧
      (0 < r.cutoff → ∃ m ∈ r.listAt r.offset, LoneZero m)) ∨
    ∃ l bs a, r.flip svd pop = (.ok (none :: bs),
        { r.setList (1 - r.offset) l with offset := 1 - r.offset, stray := none, counter := r.counter - r.threshold }) ∧
      MergedChain D F O (1 - r.offset) k n a l ∧ Balanced D F O n a ∧
      ¬ Vanishing svd D r.cutoff (r.listAt r.offset) ∧ (∀ m ∈ r.listAt r.offset, ¬ LoneZero m) ∧
      List.Forall₂ (BondOk D r.cutoff) ((r.listAt r.offset).flatMap (bondPlan svd)) bs ∧
      ((Lossless svd D r.cutoff (r.listAt r.offset) → ∃ a0, MergedChain D F O r.offset k n a0 (r.listAt r.offset) ∧
          ∀ per e b o, chainValue D F k n per a e b o = chainValue D F k n per a0 e b o) ∧
        ∃ ms' a0, List.Forall₂ (Truncated svd D F O r.cutoff) (r.listAt r.offset) ms' ∧ MergedChain D F O r.offset k n a0 ms' ∧
          ∀ per e b o, chainValue D F k n per a e b o = chainValue D F k n per a0 e b o) := by
  unfold AdRegion.flip
  rcases unmergeList_ok svd hsvd pop hpop D F O r.offset k n hD hp hk (by omega) hstuck r.cutoff _ h with
    ⟨g1, g2⟩ | ⟨g1, g2, g3⟩ | ⟨us, bs, a, g1, g2, gb, g3, g4, g5, g6⟩
  · left
    rw [g1]
    exact ⟨rfl, g2⟩
  · right; left
    rw [g1]
    exact ⟨rfl, g2, g3⟩
  · right; right
    rw [g1]
    obtain ⟨l, l1, l2⟩ := mergeList_ok D F O (1 - r.offset) k n (by omega) hk hn a us g2
    have ho : (r.offset + 1) % 2 = 1 - r.offset := by omega
    simp only [ho]
    rw [l1]
    simp only
    have hl : AdRegion.listAt { r with stray := some us, offset := 1 - r.offset } (1 - r.offset) = r.listAt (1 - r.offset) := rfl
    rw [hl, update_ok D F O _ _ l h' (merged_shape l2)]
    refine ⟨l, bs, a, ?_, l2, gb, g3, g4, g5, g6⟩
    simp only [AdRegion.setList]
    split <;> rfl

/-! ### two lone pixel cores -/

theorem site_rescale (D F : ℕ) (a a' : Cores ℝ) (g : ℝ → ℝ) (ha : ∀ q l r f, a'.A q l r f = a.A q l r f * g (coreNorm D F (a.A q))) (i : ℕ)
    (m : Module ℝ) (h : IsSite D F a i m) : IsSite D F a' i (m.rescale (m.norms.map g)) := by
  have hn := site_norms D F a i _ h
  obtain ⟨t, rfl, h1, h2⟩ := h
  refine ⟨scaleAll t (g (coreNorm D F (a.A i))), ?_, h1, ?_⟩
  · rw [hn]; rfl
  · intro l hl r hr f hf
    rw [ha]
    simp only [scaleAll]
    rw [h2 l hl r hr f hf]

theorem out_rescale (D F O : ℕ) (a : Cores ℝ) (g : ℝ → ℝ) (m : Module ℝ) (h : IsOut D O a m) :
    IsOut D O (a.scale (fun q => g (coreNorm D F (a.A q))) (g (outNorm D O a.C))) (m.rescale (m.norms.map g)) := by
  have hn := out_norms D O a _ h
  obtain ⟨t, rfl, h1, h2⟩ := h
  refine ⟨scaleAll t (g (outNorm D O a.C)), ?_, h1, ?_⟩
  · rw [hn]; rfl
  · intro l hl r hr f hf
    simp only [scaleAll, Cores.scale]
    rw [h2 l hl r hr f hf]

theorem rescale_any (ms : List (Module ℝ)) (h : (ms.flatMap Module.norms).length ≠ 0) :
    (rescaleCores ms = .error .nan ∧ ∃ m ∈ ms, (0 : ℝ) ∈ m.norms) ∨
    rescaleCores ms = .ok (ms.map (fun m => m.rescale (m.norms.map (fun x => Real.exp (logScale ms - Real.log x))))) := by
  unfold rescaleCores
  rw [if_neg (by rw [norms_lengths]; exact h)]
  by_cases hz : ∃ m ∈ ms, (0 : ℝ) ∈ m.norms
  · left
    rw [if_pos hz]
    exact ⟨rfl, hz⟩
  · right
    rw [if_neg hz]

theorem twoSites_rescale (D F O : ℕ) (a : Cores ℝ) (g : ℝ → ℝ) (i : ℕ) (P : List (Module ℝ)) (h : TwoSites D F a i P) :
    TwoSites D F (a.scale (fun q => g (coreNorm D F (a.A q))) (g (outNorm D O a.C))) i (P.map (fun m => m.rescale (m.norms.map g))) := by
  obtain ⟨m, m', rfl, h1, h2⟩ := h
  exact ⟨_, _, rfl, site_rescale D F a _ g (fun _ _ _ _ => rfl) i m h1, site_rescale D F a _ g (fun _ _ _ _ => rfl) (i + 1) m' h2⟩

theorem twoSites_norms (D F : ℕ) (a : Cores ℝ) (i : ℕ) (P : List (Module ℝ)) (h : TwoSites D F a i P) (x : ℝ) (m : Module ℝ) (hm : m ∈ P) (hx : x ∈ m.norms) :
    ∃ q, i ≤ q ∧ q < i + 2 ∧ x = coreNorm D F (a.A q) := by
  obtain ⟨m1, m2, rfl, h1, h2⟩ := h
  simp only [List.mem_cons, List.not_mem_nil, or_false] at hm
  rcases hm with rfl | rfl
  · rw [site_norms D F a i _ h1, List.mem_singleton] at hx
    exact ⟨i, by omega, by omega, hx⟩
  · rw [site_norms D F a (i + 1) _ h2, List.mem_singleton] at hx
    exact ⟨i + 1, by omega, by omega, hx⟩

theorem part_norm_mem (D F : ℕ) (a : Cores ℝ) (i len : ℕ) (P : List (Module ℝ)) (h : Part D F a i len P) (x : ℝ) (m : Module ℝ) (hm : m ∈ P) (hx : x ∈ m.norms) :
    ∃ q, i ≤ q ∧ q < i + len ∧ x = coreNorm D F (a.A q) := by
  have : x ∈ P.flatMap Module.norms := List.mem_flatMap.2 ⟨m, hm, hx⟩
  rw [part_norms D F a i len P h] at this
  obtain ⟨q, q1, q2⟩ := List.mem_map.1 this
  rw [List.mem_range'_1] at q1
  exact ⟨q, q1.1, q1.2, q2.symm⟩

/-- The flip fails if one side consists of two lone pixel cores. -/
theorem flip_stuck (svd : Mat ℝ → SVD) (hsvd : ∀ A, IsSVD A (svd A)) (pop : List Char → Char) (hpop : ∀ x xs, pop (x :: xs) ∈ x :: xs)
    (D F O k n : ℕ) (hD : 1 ≤ D) (hk : k ≤ n) (r : AdRegion) (hp : r.offset ≤ 1) (hstuck : Stuck r.offset k n)
    (h : MergedShape D F O r.offset k n (r.listAt r.offset)) (h' : MergedShape D F O (1 - r.offset) k n (r.listAt (1 - r.offset))) :
    (r.flip svd pop = (.error .runtime, r) ∧ Vanishing svd D r.cutoff (r.listAt r.offset)) ∨
    (r.flip svd pop = (.error .nan, r) ∧ (0 < r.cutoff → ∃ m ∈ r.listAt r.offset, LoneZero m)) ∨
    ∃ us, r.flip svd pop = (.error .assertion, { r with offset := 1 - r.offset, stray := some us }) := by
  unfold AdRegion.flip unmergeList
  rcases unmerge_all svd hsvd pop hpop D F O 0 hD r.cutoff _ (starts_layout r.offset k n hp hk) (layout_pairwise r.offset k n) _ h with
    ⟨g1, g2⟩ | ⟨chunks, bs, a, g1, g2, g3, g4, g5⟩
  · left
    rw [g1]
    exact ⟨rfl, g2⟩
  · right
    rw [g1]
    simp only [bind_ok_except]
    obtain ⟨L, x, R, e, ex, l1, l2, r1, r2⟩ := chunks_split D F O r.offset k n hp hk a chunks g2
    have hnorm := layout_norms D F O r.offset k n hp hk a chunks g2
    -- the passes
    obtain ⟨L', R', w1, w2⟩ : ∃ L' R', sweeps false 0 (chunks.flatten.length + 1) chunks.flatten = .ok (L' ++ x :: R') ∧
        ((r.offset = 1 ∧ k = 2 ∧ TwoSites D F a 0 L' ∧ Part D F a k (n - k) R') ∨
         (k % 2 = r.offset ∧ n - k = 2 ∧ Part D F a 0 k L' ∧ TwoSites D F a k R')) := by
      rcases hstuck with ⟨s1, s2⟩ | ⟨s1, s2⟩
      · have hL := l2 ⟨s1, s2⟩
        obtain ⟨m, m', eL, t1, t2⟩ := hL
        obtain ⟨j, R', q1, q2⟩ := r1 (by omega)
        have hLr := reduces_stuck D F a 0 1 m m' t1 t2
        rw [← eL] at hLr
        refine ⟨L, R', ?_, Or.inl ⟨s1, s2, l2 ⟨s1, s2⟩, q2⟩⟩
        rw [e]
        refine sweeps_reduce x (isOut_isOutSite D O a x ex) L R' (Or.inl (by rw [eL]; simp)) _ L R 0 j hLr q1 ?_
        have := reduces_len q1
        simp only [List.length_append, List.length_cons]
        omega
      · have hR := r2 ⟨s1, s2⟩
        obtain ⟨m, m', eR, t1, t2⟩ := hR
        obtain ⟨j, L', q1, q2⟩ := l1 (by omega)
        have hRr := reduces_stuck D F a k (k + 1) m m' t1 t2
        rw [← eR] at hRr
        refine ⟨L', R, ?_, Or.inr ⟨s1, s2, q2, r2 ⟨s1, s2⟩⟩⟩
        rw [e]
        refine sweeps_reduce x (isOut_isOutSite D O a x ex) L' R (Or.inr (by rw [eR]; simp)) _ L R j 0 q1 hRr ?_
        have := reduces_len q1
        simp only [List.length_append, List.length_cons]
        omega
    rw [w1]
    simp only [bind_ok_except]
    rcases rescale_any (L' ++ x :: R') (by rw [List.flatMap_append, List.flatMap_cons, out_norms D O a x ex]; simp) with ⟨z1, m, z2, z3⟩ | z1
    · left
      rw [z1]
      refine ⟨rfl, ?_⟩
      intro hc
      have : outNorm D O a.C = 0 ∨ ∃ q < n, coreNorm D F (a.A q) = 0 := by
        rcases List.mem_append.1 z2 with hm | hm
        · rcases w2 with ⟨s1, s2, s3, s4⟩ | ⟨s1, s2, s3, s4⟩
          · obtain ⟨q, q1, q2, q3⟩ := twoSites_norms D F a 0 L' s3 0 m hm z3
            exact Or.inr ⟨q, by omega, q3.symm⟩
          · obtain ⟨q, q1, q2, q3⟩ := part_norm_mem D F a 0 k L' s3 0 m hm z3
            exact Or.inr ⟨q, by omega, q3.symm⟩
        · rcases List.mem_cons.1 hm with rfl | hm
          · rw [out_norms D O a m ex, List.mem_singleton] at z3
            exact Or.inl z3.symm
          · rcases w2 with ⟨s1, s2, s3, s4⟩ | ⟨s1, s2, s3, s4⟩
            · obtain ⟨q, q1, q2, q3⟩ := part_norm_mem D F a k (n - k) R' s4 0 m hm z3
              exact Or.inr ⟨q, by omega, q3.symm⟩
            · obtain ⟨q, q1, q2, q3⟩ := twoSites_norms D F a k R' s4 0 m hm z3
              exact Or.inr ⟨q, by omega, q3.symm⟩
      obtain ⟨u, u1, u2⟩ := hnorm.2 this
      exact g4 hc u u1 u2
    · right
      rw [z1]
      simp only [pure, Except.pure, bind, Except.bind]
      generalize logScale (L' ++ x :: R') = ls
      have ho : (r.offset + 1) % 2 = 1 - r.offset := by omega
      simp only [ho]
      generalize hM : List.map (fun m => Module.rescale (List.map (fun x => Real.exp (ls - Real.log x)) m.norms) m) (L' ++ x :: R') = M
      obtain ⟨l, v1, v2⟩ : ∃ l, mergeList (1 - r.offset) M = .ok l ∧ l.length = (layout (1 - r.offset) k n).length + 1 := by
        rw [← hM, List.map_append, List.map_cons]
        have hx' := out_rescale D F O a (fun x => Real.exp (ls - Real.log x)) x ex
        rcases w2 with ⟨s1, s2, s3, s4⟩ | ⟨s1, s2, s3, s4⟩
        · rw [s1, s2]
          rw [s2] at s4
          exact stuck_left D F O n (by omega) _ _ _ _ (twoSites_rescale D F O a (fun x => Real.exp (ls - Real.log x)) 0 L' s3) hx'
            (part_rescale D F a _ _ (fun _ _ _ _ => rfl) 2 (n - 2) R' s4)
        · exact stuck_right D F O (1 - r.offset) k n (by omega) (by omega) (by omega) _ _ _ _
            (part_rescale D F a _ (fun x => Real.exp (ls - Real.log x)) (fun _ _ _ _ => rfl) 0 k L' s3) hx'
            (twoSites_rescale D F O a (fun x => Real.exp (ls - Real.log x)) k R' s4)
      rw [v1]
      simp only
      have hl : AdRegion.listAt { r with stray := some M, offset := 1 - r.offset } (1 - r.offset) = r.listAt (1 - r.offset) := rfl
      rw [hl]
      have hlen := h'.length_eq
      have hup : updateList (r.listAt (1 - r.offset)) l = (.error .assertion, r.listAt (1 - r.offset)) := by
        unfold updateList
        rw [if_neg (by omega)]
      rw [hup]
      refine ⟨M, ?_⟩
      simp only [AdRegion.setList, AdRegion.listAt]
      split <;> rfl

end TorchMPS
