import Verif.Lemmas.AdMerge
/-
Evaluation of merged chains.
-/
namespace TorchMPS
open Spec
variable {K : Type}

theorem fits_of_shaped (D F O i : ℕ) (κ : Kind) (m : Module K) (h : κ.Shaped D F O m) (hat : Kind.At i κ) :
    Fits D F O m ∧ ¬ ShortRegion m ∧ (HasOutput m ↔ κ.isOut = true) ∧ (IsOutputSite m ↔ κ = .out) := by
  cases κ <;> cases m <;> first | exact h.elim | skip
  · exact ⟨h, id, by simp [HasOutput, Kind.isOut], by simp [IsOutputSite]⟩
  · exact ⟨⟨_, hat.2, h⟩, id, by simp [HasOutput, Kind.isOut], by simp [IsOutputSite]⟩
  · exact ⟨h, id, by simp [HasOutput, Kind.isOut], by simp [IsOutputSite]⟩
  · exact ⟨h.2, id, by simp [HasOutput, Kind.isOut], by simp [IsOutputSite]⟩

theorem leftKinds_isOut (p q : ℕ) : ∀ κ ∈ leftKinds p q, κ.isOut = false := by
  unfold leftKinds
  split_ifs <;> simp [Kind.isOut]

theorem rightKinds_isOut (i q : ℕ) : ∀ κ ∈ rightKinds i q, κ.isOut = false := by
  unfold rightKinds
  split_ifs <;> simp [Kind.isOut]

theorem layout_split (p k n : ℕ) : ∃ as κ bs, layout p k n = as ++ κ :: bs ∧ (∀ a ∈ as, a.isOut = false) ∧ κ.isOut = true ∧
    ∀ a ∈ bs, a.isOut = false := by
  unfold layout
  split_ifs with h1 h2 h3
  · exact ⟨_, _, _, rfl, leftKinds_isOut _ _, rfl, rightKinds_isOut _ _⟩
  · exact ⟨_, _, _, rfl, leftKinds_isOut _ _, rfl, by simp⟩
  · exact ⟨[], _, _, rfl, by simp, rfl, rightKinds_isOut _ _⟩
  · exact ⟨_, _, _, rfl, leftKinds_isOut _ _, rfl, rightKinds_isOut _ _⟩

theorem starts_mem (i : ℕ) (ks : List Kind) (h : Starts i ks) : ∀ κ ∈ ks, ∃ j, Kind.At j κ := by
  induction ks generalizing i with
  | nil => simp
  | cons κ ks ih =>
    intro κ' hm
    rcases List.mem_cons.1 hm with rfl | hm
    · exact ⟨i, h.1⟩
    · exact ih _ h.2 κ' hm

theorem layout_len (p k n : ℕ) (hp : p ≤ 1) (hk : k ≤ n) : ((layout p k n).map Kind.len).sum = n := by
  unfold layout leftKinds rightKinds
  split_ifs <;> simp [Kind.len] <;> omega

theorem shapes_len (D F O : ℕ) (ks : List Kind) (ms : List (Module K)) (h : List.Forall₂ (fun κ m => κ.Shaped D F O m) ks ms) :
    modulesLen ms = (ks.map Kind.len).sum := by
  induction h with
  | nil => rfl
  | cons h1 _ ih =>
    simp only [modulesLen, List.map_cons, List.sum_cons] at ih ⊢
    rw [ih, (shaped_len D F O _ _ h1).1]

theorem merged_shape [CommSemiring K] {D F O p k n : ℕ} {a : Cores K} {ms : List (Module K)} (h : MergedChain D F O p k n a ms) :
    MergedShape D F O p k n ms := h.imp (fun _ _ h => h.1)

theorem layout_head (p k n : ℕ) (hp : p ≤ 1) (hn : 1 ≤ n) (h : ¬ (k = 0 ∧ p = 1)) : ∀ κ ∈ (layout p k n).head?, κ ≠ .out := by
  intro κ hκ
  rintro rfl
  unfold layout leftKinds at hκ
  split_ifs at hκ <;> simp at hκ <;> omega

theorem merged_facts (D F O p k n : ℕ) (hp : p ≤ 1) (hk : k ≤ n) (hn : 1 ≤ n) (ms : List (Module K)) (h : MergedShape D F O p k n ms) :
    (∀ m ∈ ms, Fits D F O m) ∧ (∀ m ∈ ms, ¬ ShortRegion m) ∧ OneOut ms ∧ modulesLen ms = n ∧
      (¬ (k = 0 ∧ p = 1) → ∀ m ∈ ms.head?, ¬ IsOutputSite m) := by
  have hat := starts_mem 0 _ (starts_layout p k n hp hk)
  have hall : ∀ m ∈ ms, ∃ κ ∈ layout p k n, κ.Shaped D F O m := fun m hm => forall2_mem h m hm
  refine ⟨?_, ?_, ?_, ?_, ?_⟩
  · intro m hm
    obtain ⟨κ, h1, h2⟩ := hall m hm
    obtain ⟨j, hj⟩ := hat κ h1
    exact (fits_of_shaped D F O j κ m h2 hj).1
  · intro m hm
    obtain ⟨κ, h1, h2⟩ := hall m hm
    obtain ⟨j, hj⟩ := hat κ h1
    exact (fits_of_shaped D F O j κ m h2 hj).2.1
  · obtain ⟨as, κ, bs, e, e1, e2, e3⟩ := layout_split p k n
    have h' : List.Forall₂ (fun κ m => κ.Shaped D F O m) (as ++ κ :: bs) ms := by rw [← e]; exact h
    rw [e] at hat
    obtain ⟨A, R, hA, hR, rfl⟩ := forall2_split h'
    cases hR with
    | @cons _ m _ R h1 h2 =>
      refine ⟨A, m, R, rfl, ?_, ?_, ?_⟩
      · intro x hx
        obtain ⟨κ', g1, g2⟩ := forall2_mem hA x hx
        obtain ⟨j, hj⟩ := hat κ' (by simp [g1])
        rw [(fits_of_shaped D F O j κ' x g2 hj).2.2.1, e1 κ' g1]
        simp
      · obtain ⟨j, hj⟩ := hat κ (by simp)
        rw [(fits_of_shaped D F O j κ m h1 hj).2.2.1]
        exact e2
      · intro x hx
        obtain ⟨κ', g1, g2⟩ := forall2_mem h2 x hx
        obtain ⟨j, hj⟩ := hat κ' (by simp [g1])
        rw [(fits_of_shaped D F O j κ' x g2 hj).2.2.1, e3 κ' g1]
        simp
  · rw [shapes_len D F O _ _ h, layout_len p k n hp hk]
  · intro hne m hm
    have hh := layout_head p k n hp hn hne
    unfold MergedShape at h
    generalize layout p k n = ks at h hat hh
    cases h with
    | nil => simp at hm
    | @cons κ x ks xs h1 h2 =>
      obtain ⟨j, hj⟩ := hat κ (by simp)
      simp only [List.head?_cons, Option.mem_some_iff] at hm
      subst hm
      rw [(fits_of_shaped D F O j κ _ h1 hj).2.2.2]
      exact hh κ (by simp)

/-- A chain of merged modules is evaluated without an error. -/
theorem merged_eval [CommSemiring K] (D F O p k n B : ℕ) (hp : p ≤ 1) (hk : k ≤ n) (hn : 1 ≤ n) (ms : List (Module K)) (h : MergedShape D F O p k n ms)
    (per par : Bool) (hD : per = true ∨ 1 ≤ D) (e : Tensor K) (he : e.shape = [B, n, F]) (g : Option ℕ) (hg : g = some B ∨ ¬ (k = 0 ∧ p = 1)) :
    ∃ y g', linearForward ms per par e g = (.ok y, g') ∧ y.shape = [B, O] ∧ ∀ b < B, ∀ o < O, ∃ M,
      orderedProd (chainMats D F e b o 0 ms) = some M ∧ y.get [b, o] = if per then ∑ i ∈ Finset.range D, M.e i i else M.e 0 0 := by
  obtain ⟨f1, f2, f3, f4, f5⟩ := merged_facts D F O p k n hp hk hn ms h
  cases per with
  | true =>
    obtain ⟨y, g', y1, y2, y3⟩ := linear_ring D F O B ms e (by rw [f4, he]) f1 f2 f3 par g (hg.imp id f5)
    refine ⟨y, g', y1, y2, ?_⟩
    intro b hb o ho
    obtain ⟨M, z1, _, _, z4⟩ := y3 b hb o ho
    exact ⟨M, z1, by simpa using z4⟩
  | false =>
    obtain ⟨y, y1, y2, y3⟩ := linear_open D F O B (by simpa using hD) ms e (by rw [f4, he]) f1 f2 f3 par g (hg.imp id f5)
    refine ⟨y, some B, y1, y2, ?_⟩
    intro b hb o ho
    obtain ⟨M, z1, _, _, z4⟩ := y3 b hb o ho
    exact ⟨M, z1, by simpa using z4⟩

/-- The value of a merged chain. -/
theorem merged_value [CommSemiring K] (D F O p k n B : ℕ) (hp : p ≤ 1) (hk : k ≤ n) (hn : 1 ≤ n) (a : Cores K) (ms : List (Module K))
    (h : MergedChain D F O p k n a ms)
    (per par : Bool) (hD : per = true ∨ 1 ≤ D) (e : Tensor K) (he : e.shape = [B, n, F]) (g : Option ℕ) (hg : g = some B ∨ ¬ (k = 0 ∧ p = 1)) :
    ∃ y g', linearForward ms per par e g = (.ok y, g') ∧ y.shape = [B, O] ∧ ∀ b < B, ∀ o < O,
      y.get [b, o] = chainValue D F k n per a e b o := by
  obtain ⟨y, g', y1, y2, y3⟩ := merged_eval D F O p k n B hp hk hn ms (merged_shape h) per par hD e he g hg
  refine ⟨y, g', y1, y2, ?_⟩
  intro b hb o ho
  obtain ⟨M, z1, z2⟩ := y3 b hb o ho
  rw [merged_prod D F O p k n hp hk a ms h e b o ho] at z1
  unfold chainValue
  rw [z1, z2]

end TorchMPS
