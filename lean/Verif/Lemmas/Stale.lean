import Verif.Props.Contractables
/-
Products of contractables of batch sizes 1 and B: the single sample is repeated.
-/
namespace TorchMPS
open Spec
variable {K : Type}

theorem bind_inv {α β : Type} {x : Except Err α} {f : α → Except Err β} {b : β} (h : (x >>= f) = .ok b) :
    ∃ a, x = .ok a ∧ f a = .ok b := by
  cases x with
  | ok a => exact ⟨a, rfl, h⟩
  | error e => cases h

theorem letterSize_head (b : Char) (B : ℕ) (us : List (Char × ℕ)) (hB : (b, B) ∈ us)
    (hc : ∀ v ∈ us, v.1 = b → B = 1 ∨ v.2 = 1 ∨ B = v.2) (c : Char) :
    letterSize ((b, 1) :: us) c = letterSize ((b, B) :: us) c := by
  unfold letterSize
  by_cases hbc : b = c
  · subst hbc
    simp only [List.filter_cons, decide_true, if_true, List.map_cons]
    by_cases h1 : B = 1
    · rw [h1]
    · rw [List.find?_cons_of_neg (by simp), List.find?_cons_of_pos (by simp [h1])]
      cases hf : ((us.filter (fun u => u.1 = b)).map Prod.snd).find? (· ≠ 1) with
      | none =>
        rw [List.find?_eq_none] at hf
        have := hf B (List.mem_map.2 ⟨(b, B), List.mem_filter.2 ⟨hB, by simp⟩, rfl⟩)
        simp at this
        exact absurd this h1
      | some n =>
        have hn := List.mem_of_find?_eq_some hf
        have hn1 := List.find?_some hf
        obtain ⟨v, hv, rfl⟩ := List.mem_map.1 hn
        obtain ⟨hv, hvb⟩ := List.mem_filter.1 hv
        have := hc v hv (by simpa using hvb)
        simp at hn1
        simp only [Option.getD_some]
        rcases this with h | h | h
        · exact absurd h h1
        · exact absurd h hn1
        · exact h.symm
  · simp [List.filter_cons, hbc]

/-- Replacing a size-1 first axis of the first operand by the size of the second operand's. -/
theorem einsum_repeat_left [CommSemiring K] (b : Char) (r1 r2 out : List Char) (x y : Tensor K) (B : ℕ) (s1 s2 : Shape)
    (hx : x.shape = 1 :: s1) (hy : y.shape = B :: s2) :
    einsum [b :: r1, b :: r2] out [x, y] =
      einsum [b :: r1, b :: r2] out [⟨B :: s1, fun idx => x.get (0 :: idx.tail)⟩, y] := by
  unfold einsum
  simp only [List.zip_cons_cons, List.zip_nil_right, List.flatMap_cons, List.flatMap_nil, List.append_nil, hx, hy, List.cons_append,
    Tensor.ndim, List.length_cons]
  set us : List (Char × ℕ) := r1.zip s1 ++ (b, B) :: r2.zip s2 with hus
  have hmem : (b, B) ∈ us := by simp [hus]
  have key : (∀ u ∈ (b, 1) :: us, ∀ v ∈ (b, 1) :: us, u.1 = v.1 → u.2 = 1 ∨ v.2 = 1 ∨ u.2 = v.2) ↔
      (∀ u ∈ (b, B) :: us, ∀ v ∈ (b, B) :: us, u.1 = v.1 → u.2 = 1 ∨ v.2 = 1 ∨ u.2 = v.2) := by
    constructor
    · intro h u hu v hv huv
      have hu' : u ∈ (b, 1) :: us := by
        rcases List.mem_cons.1 hu with rfl | hu
        · exact List.mem_cons_of_mem _ hmem
        · exact List.mem_cons_of_mem _ hu
      have hv' : v ∈ (b, 1) :: us := by
        rcases List.mem_cons.1 hv with rfl | hv
        · exact List.mem_cons_of_mem _ hmem
        · exact List.mem_cons_of_mem _ hv
      exact h u hu' v hv' huv
    · intro h u hu v hv huv
      rcases List.mem_cons.1 hu with rfl | hu
      · left; rfl
      rcases List.mem_cons.1 hv with rfl | hv
      · right; left; rfl
      exact h u (List.mem_cons_of_mem _ hu) v (List.mem_cons_of_mem _ hv) huv
  by_cases hk : ∀ u ∈ (b, 1) :: us, ∀ v ∈ (b, 1) :: us, u.1 = v.1 → u.2 = 1 ∨ v.2 = 1 ∨ u.2 = v.2
  · have hk' := key.1 hk
    have hl : letterSize ((b, 1) :: us) = letterSize ((b, B) :: us) := by
      funext c
      refine letterSize_head b B us hmem ?_ c
      intro v hv hvb
      exact hk (b, B) (List.mem_cons_of_mem _ hmem) v (List.mem_cons_of_mem _ hv) hvb.symm
    rw [hl]
    refine if_congr ?_ ?_ rfl
    · refine and_congr Iff.rfl (and_congr ?_ (and_congr key Iff.rfl))
      simp [hx]
    · simp [Tensor.clampIdx, hx]
  · have hk' := fun h => hk (key.2 h)
    rw [if_neg (fun h => hk h.2.2.1), if_neg (fun h => hk' h.2.2.1)]

/-- The same for the second operand. -/
theorem einsum_repeat_right [CommSemiring K] (b : Char) (r1 r2 out : List Char) (x y : Tensor K) (B : ℕ) (s1 s2 : Shape)
    (hx : x.shape = B :: s1) (hy : y.shape = 1 :: s2) :
    einsum [b :: r1, b :: r2] out [x, y] =
      einsum [b :: r1, b :: r2] out [x, ⟨B :: s2, fun idx => y.get (0 :: idx.tail)⟩] := by
  unfold einsum
  simp only [List.zip_cons_cons, List.zip_nil_right, List.flatMap_cons, List.flatMap_nil, List.append_nil, hx, hy, List.cons_append,
    Tensor.ndim, List.length_cons]
  have hperm : ∀ n, ∀ u, u ∈ (b, B) :: (r1.zip s1 ++ (b, n) :: r2.zip s2) ↔ u = (b, n) ∨ u ∈ (b, B) :: (r1.zip s1 ++ r2.zip s2) := by
    intro n u
    simp only [List.mem_cons, List.mem_append]
    tauto
  have key : (∀ u ∈ (b, B) :: (r1.zip s1 ++ (b, 1) :: r2.zip s2), ∀ v ∈ (b, B) :: (r1.zip s1 ++ (b, 1) :: r2.zip s2),
        u.1 = v.1 → u.2 = 1 ∨ v.2 = 1 ∨ u.2 = v.2) ↔
      (∀ u ∈ (b, B) :: (r1.zip s1 ++ (b, B) :: r2.zip s2), ∀ v ∈ (b, B) :: (r1.zip s1 ++ (b, B) :: r2.zip s2),
        u.1 = v.1 → u.2 = 1 ∨ v.2 = 1 ∨ u.2 = v.2) := by
    constructor
    · intro h u hu v hv huv
      have aux : ∀ w, w ∈ (b, B) :: (r1.zip s1 ++ (b, B) :: r2.zip s2) → w ∈ (b, B) :: (r1.zip s1 ++ (b, 1) :: r2.zip s2) := by
        intro w hw
        rw [hperm] at hw ⊢
        rcases hw with rfl | hw
        · right; simp
        · right; exact hw
      exact h u (aux u hu) v (aux v hv) huv
    · intro h u hu v hv huv
      rw [hperm] at hu hv
      rcases hu with rfl | hu
      · left; rfl
      rcases hv with rfl | hv
      · right; left; rfl
      exact h u ((hperm B u).2 (Or.inr hu)) v ((hperm B v).2 (Or.inr hv)) huv
  by_cases hk : ∀ u ∈ (b, B) :: (r1.zip s1 ++ (b, 1) :: r2.zip s2), ∀ v ∈ (b, B) :: (r1.zip s1 ++ (b, 1) :: r2.zip s2),
        u.1 = v.1 → u.2 = 1 ∨ v.2 = 1 ∨ u.2 = v.2
  · have hl : letterSize ((b, B) :: (r1.zip s1 ++ (b, 1) :: r2.zip s2)) = letterSize ((b, B) :: (r1.zip s1 ++ (b, B) :: r2.zip s2)) := by
      funext c
      unfold letterSize
      by_cases hbc : b = c
      · subst hbc
        by_cases h1 : B = 1
        · rw [h1]
        · simp only [List.filter_cons, decide_true, if_true, List.map_cons]
          rw [List.find?_cons_of_pos (by simp [h1]), List.find?_cons_of_pos (by simp [h1])]
      · simp [List.filter_cons, hbc]
    rw [hl]
    refine if_congr ?_ ?_ rfl
    · refine and_congr Iff.rfl (and_congr ?_ (and_congr key Iff.rfl))
      simp [hy]
    · simp [Tensor.clampIdx, hy]
  · have hk' := fun h => hk (key.2 h)
    rw [if_neg (fun h => hk h.2.2.1), if_neg (fun h => hk' h.2.2.1)]

/-! ### the operator -/

theorem renameLoop_head (s1 s2 free u free' : List Char) (h : renameLoop s1 ('b' :: s2) free = .ok (u, free')) :
    ∃ u', u = 'b' :: u' := by
  simp only [renameLoop] at h
  rw [if_neg (by simp)] at h
  obtain ⟨a, h1, h2⟩ := bind_inv h
  cases h2
  exact ⟨_, rfl⟩

theorem mulStrings_head (s1 s2 t1 t2 out : List Char) (h : mulStrings ('b' :: s1) ('b' :: s2) = .ok (t1, t2, out)) :
    (∃ u, t1 = 'b' :: u) ∧ ∃ u, t2 = 'b' :: u := by
  unfold mulStrings at h
  obtain ⟨a, h1, h2⟩ := bind_inv h
  obtain ⟨a1, a2⟩ := a
  obtain ⟨u', rfl⟩ := renameLoop_head _ _ _ _ _ h1
  cases a2 with
  | nil => cases h2
  | cons σ l =>
    cases h2
    exact ⟨⟨_, by simp [subst]; rfl⟩, ⟨_, by simp [subst]; rfl⟩⟩

theorem labelled_cons {c : Contractable K} (h : Labelled c) : ∃ s n sh, c.bondStr = 'b' :: s ∧ c.tensor.shape = n :: sh ∧ axis c 'b' = n := by
  have h1 := h.batchFirst
  have h2 := h.order
  cases hs : c.bondStr with
  | nil => rw [hs] at h1; simp at h1
  | cons a s =>
    rw [hs] at h1
    simp at h1
    subst h1
    cases hsh : c.tensor.shape with
    | nil => rw [hs, hsh] at h2; simp at h2
    | cons n sh => exact ⟨s, n, sh, rfl, rfl, by simp [axis, hs, hsh]⟩

theorem lift_ok_bind {α β : Type} (a : α) (f : α → CM β) : (CM.lift (.ok a) >>= f) = f a := rfl

theorem gmul_congr [CommSemiring K] (x y x' y' : Contractable K) (rm : Bool) (hc : y'.cls = y.cls) (hx : x'.bondStr = x.bondStr)
    (hy : y'.bondStr = y.bondStr)
    (key : ∀ t1 t2 out, mulStrings (if rm then y else x).bondStr (if rm then x else y).bondStr = .ok (t1, t2, out) →
      einsum [t1, t2] out [(if rm then y else x).tensor, (if rm then x else y).tensor] =
      einsum [t1, t2] out [(if rm then y' else x').tensor, (if rm then x' else y').tensor]) :
    gmul x y rm = gmul x' y' rm := by
  have e1 : (if rm then y' else x').bondStr = (if rm then y else x).bondStr := by cases rm <;> simp [hx, hy]
  have e2 : (if rm then x' else y').bondStr = (if rm then x else y).bondStr := by cases rm <;> simp [hx, hy]
  unfold gmul
  simp only [hc, e1, e2]
  cases hm : mulStrings (if rm then y else x).bondStr (if rm then x else y).bondStr with
  | error e => rfl
  | ok v =>
    obtain ⟨t1, t2, out⟩ := v
    simp only [lift_ok_bind, key t1 t2 out hm]

theorem gmul_not_none [CommSemiring K] (x y : Contractable K) (rm : Bool) (h : ¬ (y.cls = .scalar ∨ y.cls = .matRegion)) (g g' : Option ℕ) :
    gmul x y rm g ≠ (.ok none, g') := by
  unfold gmul
  rw [if_neg h]
  have aux : ∀ {α : Type} (u : CM α) (f : α → CM (Option (Contractable K))), (∀ a g1, f a g1 ≠ (.ok none, g')) → ∀ g1, (u >>= f) g1 ≠ (.ok none, g') := by
    intro α u f hf g1 hq
    simp only [bind, CM.bind] at hq
    cases hu : u g1 with
    | mk r g2 =>
      rw [hu] at hq
      cases r with
      | error e => simp at hq
      | ok a => exact hf a g2 hq
  refine aux _ _ (fun _ => aux _ _ (fun _ => aux _ _ (fun v => ?_))) g
  obtain ⟨t1, t2, out⟩ := v
  refine aux _ _ (fun _ => aux _ _ (fun c g1 hq => ?_))
  cases hq

theorem gmul_repeat_left [CommSemiring K] (x y : Contractable K) (hx : Labelled x) (hy : Labelled y) (h1 : axis x 'b' = 1) :
    gmul x y false = gmul (repeatSample (axis y 'b') x) y false ∧ gmul y x true = gmul y (repeatSample (axis y 'b') x) true := by
  obtain ⟨s1, n1, sh1, e1, f1, b1⟩ := labelled_cons hx
  obtain ⟨s2, n2, sh2, e2, f2, b2⟩ := labelled_cons hy
  rw [b1] at h1
  subst h1
  have key : ∀ t1 t2 out, mulStrings x.bondStr y.bondStr = .ok (t1, t2, out) →
      einsum [t1, t2] out [x.tensor, y.tensor] = einsum [t1, t2] out [(repeatSample (axis y 'b') x).tensor, y.tensor] := by
    intro t1 t2 out hm
    rw [e1, e2] at hm
    obtain ⟨⟨u1, rfl⟩, ⟨u2, rfl⟩⟩ := mulStrings_head _ _ _ _ _ hm
    have := einsum_repeat_left 'b' u1 u2 out x.tensor y.tensor n2 sh1 sh2 f1 f2
    rw [this, b2]
    unfold repeatSample
    simp only [f1, List.tail_cons]
  exact ⟨gmul_congr x y _ _ false rfl rfl rfl key, gmul_congr y x _ _ true rfl rfl rfl key⟩

theorem gmul_repeat_right [CommSemiring K] (x y : Contractable K) (hx : Labelled x) (hy : Labelled y) (h1 : axis y 'b' = 1) :
    gmul x y false = gmul x (repeatSample (axis x 'b') y) false ∧ gmul y x true = gmul (repeatSample (axis x 'b') y) x true := by
  obtain ⟨s1, n1, sh1, e1, f1, b1⟩ := labelled_cons hx
  obtain ⟨s2, n2, sh2, e2, f2, b2⟩ := labelled_cons hy
  rw [b2] at h1
  subst h1
  have key : ∀ t1 t2 out, mulStrings x.bondStr y.bondStr = .ok (t1, t2, out) →
      einsum [t1, t2] out [x.tensor, y.tensor] = einsum [t1, t2] out [x.tensor, (repeatSample (axis x 'b') y).tensor] := by
    intro t1 t2 out hm
    rw [e1, e2] at hm
    obtain ⟨⟨u1, rfl⟩, ⟨u2, rfl⟩⟩ := mulStrings_head _ _ _ _ _ hm
    have := einsum_repeat_right 'b' u1 u2 out x.tensor y.tensor n1 sh1 sh2 f1 f2
    rw [this, b1]
    unfold repeatSample
    simp only [f2, List.tail_cons]
  exact ⟨gmul_congr x y _ _ false rfl rfl rfl key, gmul_congr y x _ _ true rfl rfl rfl key⟩

theorem star_congr [CommSemiring K] (x y x' y' : Contractable K) (hx : x'.cls = x.cls) (hy : y'.cls = y.cls) (hcls : CanMultiply x.cls y.cls)
    (g : Option ℕ) (h1 : gmul x y false g = gmul x' y' false g) (h2 : gmul y x true g = gmul y' x' true g) :
    star x y g = star x' y' g := by
  have key : ∀ (m m' : CM (Option (Contractable K))) (k k' : CM (Contractable K)), m g = m' g →
      (∀ g', m g = (.ok none, g') → k g' = k' g') → orElse m k g = orElse m' k' g := by
    intro m m' k k' hm hk
    unfold orElse
    simp only [bind, CM.bind]
    rw [← hm]
    cases hq : m g with
    | mk r g' =>
      cases r with
      | error e => rfl
      | ok o =>
        cases o with
        | none => exact hk g' hq
        | some c => rfl
  have hnone : ∀ (u w : Contractable K) (k : CM (Contractable K)), u.cls = .edgeVec → w.cls ≠ .edgeVec → orElse (mulMethod u w) k g = k g := by
    intro u w k hxc hyc
    refine orElse_none ?_
    unfold mulMethod
    rw [hxc]
    simp only [edgeMul]
    rw [if_pos hyc]
    rfl
  unfold star
  rw [hx, hy]
  cases hxc : x.cls <;> cases hyc : y.cls <;> rw [hxc, hyc] at hcls <;> simp only [CanMultiply] at hcls <;>
    simp only [reduceCtorEq, if_false, if_true, false_and, true_and, overridesRmul, Bool.false_eq_true] <;> rw [hxc] at hx <;> rw [hyc] at hy <;>
    first
      | (rw [hnone x y _ hxc (by rw [hyc]; decide), hnone x' y' _ hx (by rw [hy]; decide)]
         refine key _ _ _ _ ?_ (fun _ _ => rfl)
         unfold rmulMethod
         simp only [hyc, hy, hxc, hx, ne_eq, not_true_eq_false, if_false]
         exact h2)
      | (refine key _ _ _ _ ?_ (fun g' hg' => ?_)
         · unfold mulMethod
           simp only [hyc, hy, hxc, hx, ne_eq, not_true_eq_false, if_false]
           exact h1
         · first
            | rfl
            | (exfalso
               unfold mulMethod at hg'
               simp only [hyc, hxc, ne_eq, not_true_eq_false, if_false] at hg'
               exact gmul_not_none x y false (by rw [hyc]; decide) g g' hg'))

end TorchMPS
