import Verif.Spec.HVData
import Verif.Props.Data
/-
C44: `load_HV_data`.
-/
namespace TorchMPS
open Spec

/-- the pattern index range: `i = k + 1` with `k < 2^L - 2` -/
theorem hv_count (L : ℕ) (hL : 1 ≤ L) : 4 * (2 ^ (L - 1) - 1) / 2 = 2 ^ L - 2 := by
  obtain ⟨n, rfl⟩ : ∃ n, L = n + 1 := ⟨L - 1, by omega⟩
  simp only [Nat.add_sub_cancel, pow_succ]
  omega

theorem hv_digits_len (L i : ℕ) (hi : i < 2 ^ L) : (Nat.digits 2 i).length ≤ L := by
  rcases Nat.eq_zero_or_pos i with rfl | h0
  · simp
  · by_contra hc
    have h1 : 2 ^ ((Nat.digits 2 i).length - 1) ≤ i := by
      have := Nat.base_pow_length_digits_le 2 i (by omega) (by omega)
      have e : (Nat.digits 2 i).length = ((Nat.digits 2 i).length - 1) + 1 := by omega
      rw [e, pow_succ] at this
      omega
    have h2 : 2 ^ L ≤ 2 ^ ((Nat.digits 2 i).length - 1) := Nat.pow_le_pow_right (by omega) (by omega)
    omega

theorem hvPattern_eq (L i : ℕ) (hi : 0 < i) :
    hvPattern L i = List.replicate (L - (Nat.digits 2 i).length) 0 ++ (Nat.digits 2 i).reverse := by
  unfold hvPattern
  simp only [if_neg (by omega : ¬ i = 0), List.length_reverse]

theorem hvPattern_length (L i : ℕ) (hi : 0 < i) (h : i < 2 ^ L) : (hvPattern L i).length = L := by
  rw [hvPattern_eq L i hi]
  have := hv_digits_len L i h
  simp
  omega

theorem hvPattern_lt (L i : ℕ) (hi : 0 < i) : ∀ v ∈ hvPattern L i, v < 2 := by
  rw [hvPattern_eq L i hi]
  intro v hv
  simp only [List.mem_append, List.mem_replicate, List.mem_reverse] at hv
  rcases hv with ⟨_, rfl⟩ | hv
  · omega
  · exact Nat.digits_lt_base (by omega) hv

theorem hvPattern_ofDigits (L i : ℕ) (hi : 0 < i) : Nat.ofDigits 2 (hvPattern L i).reverse = i := by
  rw [hvPattern_eq L i hi, List.reverse_append, List.reverse_reverse, List.reverse_replicate, Nat.ofDigits_append,
    Nat.ofDigits_digits]
  have : Nat.ofDigits 2 (List.replicate (L - (Nat.digits 2 i).length) 0) = 0 := by
    induction (L - (Nat.digits 2 i).length) with
    | zero => rfl
    | succ n ih => rw [List.replicate_succ, Nat.ofDigits_cons, ih]
  rw [this]
  simp

theorem ofDigits_zeros (p : List ℕ) (h : ∀ v ∈ p, v = 0) : Nat.ofDigits 2 p = 0 := by
  induction p with
  | nil => rfl
  | cons a p ih =>
    rw [Nat.ofDigits_cons, ih (fun v hv => h v (by simp [hv])), h a (by simp)]

theorem ofDigits_ones (p : List ℕ) (h : ∀ v ∈ p, v = 1) : Nat.ofDigits 2 p + 1 = 2 ^ p.length := by
  induction p with
  | nil => rfl
  | cons a p ih =>
    have := ih (fun v hv => h v (by simp [hv]))
    rw [Nat.ofDigits_cons, h a (by simp), List.length_cons, pow_succ]
    push_cast
    omega

theorem hvPattern_stripe (L i : ℕ) (h1 : 1 ≤ i) (h2 : i + 2 ≤ 2 ^ L) : StripePattern L (hvPattern L i) := by
  have hlt := hvPattern_lt L i h1
  have hlen := hvPattern_length L i h1 (by omega)
  have hof := hvPattern_ofDigits L i h1
  refine ⟨hlen, fun v hv => by have := hlt v hv; omega, ?_, ?_⟩
  · by_contra hc
    have := ofDigits_ones (hvPattern L i).reverse (fun v hv => by
      rw [List.mem_reverse] at hv
      have h3 := hlt v hv
      have h4 : v ≠ 0 := fun h => hc (h ▸ hv)
      omega)
    rw [hof, List.length_reverse, hlen] at this
    omega
  · by_contra hc
    have := ofDigits_zeros (hvPattern L i).reverse (fun v hv => by
      rw [List.mem_reverse] at hv
      have h3 := hlt v hv
      have h4 : v ≠ 1 := fun h => hc (h ▸ hv)
      omega)
    omega

theorem hvPattern_inj (L i j : ℕ) (hi : 1 ≤ i) (hj : 1 ≤ j) (h : hvPattern L i = hvPattern L j) : i = j := by
  rw [← hvPattern_ofDigits L i hi, h, hvPattern_ofDigits L j hj]

theorem hvPattern_surj (L : ℕ) (p : List ℕ) (h : StripePattern L p) :
    ∃ i, 1 ≤ i ∧ i + 2 ≤ 2 ^ L ∧ hvPattern L i = p := by
  obtain ⟨hlen, h01, h0, h1⟩ := h
  have hw : ∀ v ∈ p.reverse, v < 2 := fun v hv => by
    rw [List.mem_reverse] at hv
    rcases h01 v hv with rfl | rfl <;> omega
  have hlt : Nat.ofDigits 2 p.reverse < 2 ^ L := by
    have := Nat.ofDigits_lt_base_pow_length (b := 2) (by omega) hw
    rwa [List.length_reverse, hlen] at this
  have inj : ∀ q : List ℕ, q.length = L → (∀ v ∈ q, v < 2) → Nat.ofDigits 2 q.reverse = Nat.ofDigits 2 p.reverse → q = p := by
    intro q hq hq2 he
    have := Nat.ofDigits_inj_of_len_eq (b := 2) (by omega) (L1 := q.reverse) (L2 := p.reverse)
      (by simp [hq, hlen]) (fun v hv => hq2 v (List.mem_reverse.1 hv)) hw he
    exact List.reverse_injective this
  have hpos : 1 ≤ Nat.ofDigits 2 p.reverse := by
    by_contra hc
    have hz := inj (List.replicate L 0) (by simp) (by simp) (by
      rw [ofDigits_zeros _ (by simp)]; omega)
    rw [← hz] at h1
    simp at h1
  have hub : Nat.ofDigits 2 p.reverse + 1 ≠ 2 ^ L := by
    intro hc
    have hz := inj (List.replicate L 1) (by simp) (by simp) (by
      have := ofDigits_ones (List.replicate L 1).reverse (by simp)
      simp only [List.length_reverse, List.length_replicate] at this
      omega)
    rw [← hz] at h0
    simp at h0
  refine ⟨_, hpos, by omega, ?_⟩
  exact inj _ (hvPattern_length L _ hpos hlt) (hvPattern_lt L _ hpos) (hvPattern_ofDigits L _ hpos)

/-! images -/

theorem hvHorizontal_iff (L : ℕ) (p : List ℕ) (hp : p.length = L) (img : List (List ℕ)) :
    HorizontalStripes L p img ↔ img = hvHorizontal L p := by
  constructor
  · rintro ⟨⟨h1, h2⟩, h3⟩
    apply List.ext_getElem
    · simp [hvHorizontal, h1, hp]
    · intro i hi hi'
      apply List.ext_getElem
      · rw [h2 _ (List.getElem_mem _)]; simp [hvHorizontal]
      · intro j hj hj'
        have hjL : j < L := by rw [h2 _ (List.getElem_mem _)] at hj; exact hj
        have := h3 i (by omega) j hjL
        unfold pixel at this
        rw [List.getD_eq_getElem?_getD, List.getD_eq_getElem?_getD, List.getElem?_eq_getElem hi, Option.getD_some,
          List.getElem?_eq_getElem hj, Option.getD_some, List.getD_eq_getElem?_getD,
          List.getElem?_eq_getElem (by omega : i < p.length), Option.getD_some] at this
        rw [this]
        simp [hvHorizontal]
  · rintro rfl
    refine ⟨⟨by simp [hvHorizontal, hp], ?_⟩, ?_⟩
    · intro row hrow
      simp only [hvHorizontal, List.mem_map] at hrow
      obtain ⟨v, _, rfl⟩ := hrow
      simp
    · intro i hi j hj
      unfold pixel hvHorizontal
      rw [List.getD_eq_getElem?_getD, List.getD_eq_getElem?_getD, List.getElem?_map,
        List.getElem?_eq_getElem (by omega : i < p.length), List.getD_eq_getElem?_getD,
        List.getElem?_eq_getElem (by omega : i < p.length)]
      simp [hj]

theorem hvVertical_iff (L : ℕ) (p : List ℕ) (hp : p.length = L) (img : List (List ℕ)) :
    VerticalStripes L p img ↔ img = hvVertical L p := by
  constructor
  · rintro ⟨⟨h1, h2⟩, h3⟩
    apply List.ext_getElem
    · simp [hvVertical, h1]
    · intro i hi hi'
      apply List.ext_getElem
      · rw [h2 _ (List.getElem_mem _)]; simp [hvVertical, hp]
      · intro j hj hj'
        have hjL : j < L := by rw [h2 _ (List.getElem_mem _)] at hj; exact hj
        have := h3 i (by omega) j hjL
        unfold pixel at this
        rw [List.getD_eq_getElem?_getD, List.getD_eq_getElem?_getD, List.getElem?_eq_getElem hi, Option.getD_some,
          List.getElem?_eq_getElem hj, Option.getD_some, List.getD_eq_getElem?_getD,
          List.getElem?_eq_getElem (by omega : j < p.length), Option.getD_some] at this
        rw [this]
        simp [hvVertical]
  · rintro rfl
    refine ⟨⟨by simp [hvVertical], ?_⟩, ?_⟩
    · intro row hrow
      simp only [hvVertical, List.mem_replicate] at hrow
      rw [hrow.2, hp]
    · intro i hi j hj
      unfold pixel hvVertical
      rw [List.getD_eq_getElem?_getD, List.getD_eq_getElem?_getD, List.getElem?_replicate, if_pos hi,
        Option.getD_some, List.getD_eq_getElem?_getD]

theorem hv_ne (L : ℕ) (p q : List ℕ) (hp : StripePattern L p) (hq : StripePattern L q) :
    hvHorizontal L p ≠ hvVertical L q := by
  intro h
  have h1 := (hvHorizontal_iff L p hp.1 _).2 h.symm
  have h2 := (hvVertical_iff L q hq.1 (hvVertical L q)).2 rfl
  obtain ⟨a, ha, ha'⟩ := List.getElem_of_mem hq.2.2.1
  obtain ⟨b, hb, hb'⟩ := List.getElem_of_mem hq.2.2.2
  rw [hq.1] at ha hb
  have e1 := h1.2 0 (by omega) a ha
  have e2 := h1.2 0 (by omega) b hb
  rw [h2.2 0 (by omega) a ha, List.getD_eq_getElem?_getD, List.getElem?_eq_getElem (by rw [hq.1]; omega)] at e1
  rw [h2.2 0 (by omega) b hb, List.getD_eq_getElem?_getD, List.getElem?_eq_getElem (by rw [hq.1]; omega)] at e2
  simp only [Option.getD_some, ha', hb'] at e1 e2
  omega

theorem hvHorizontal_inj (L : ℕ) (p q : List ℕ) (hL : 1 ≤ L) (h : hvHorizontal L p = hvHorizontal L q) : p = q := by
  unfold hvHorizontal at h
  refine List.map_injective_iff.2 ?_ h
  intro a b hab
  have : L ≠ 0 := by omega
  exact (List.replicate_right_inj this).1 hab

theorem hvVertical_inj (L : ℕ) (p q : List ℕ) (hL : 1 ≤ L) (h : hvVertical L p = hvVertical L q) : p = q :=
  (List.replicate_right_inj (by omega)).1 h

/-- all generated (image, label) pairs in order -/
theorem hv_zip (L : ℕ) : (hvImages L).zip (hvLabels L) =
    (List.range (4 * (2 ^ (L - 1) - 1) / 2)).flatMap (fun k =>
      [(hvHorizontal L (hvPattern L (k + 1)), 0), (hvVertical L (hvPattern L (k + 1)), 1)]) := by
  unfold hvImages hvLabels
  generalize List.range (4 * (2 ^ (L - 1) - 1) / 2) = r
  induction r with
  | nil => rfl
  | cons a r ih =>
    simp only [List.flatMap_cons, List.cons_append, List.nil_append, List.zip_cons_cons]
    rw [ih]

theorem hvImages_length (L : ℕ) (hL : 1 ≤ L) : (hvImages L).length = 2 * (2 ^ L - 2) := by
  unfold hvImages
  rw [hv_count L hL, List.length_flatMap]
  simp [List.map_const', mul_comm]

theorem hvLabels_length (L : ℕ) (hL : 1 ≤ L) : (hvLabels L).length = 2 * (2 ^ L - 2) := by
  unfold hvLabels
  rw [hv_count L hL, List.length_flatMap]
  simp [List.map_const', mul_comm]

theorem hvImages_nodup (L : ℕ) (hL : 1 ≤ L) : (hvImages L).Nodup := by
  unfold hvImages
  rw [hv_count L hL, List.nodup_flatMap]
  constructor
  · intro k hk
    rw [List.mem_range] at hk
    have hs := hvPattern_stripe L (k + 1) (by omega) (by omega)
    simp [hv_ne L _ _ hs hs]
  · refine List.Nodup.pairwise_of_forall_ne List.nodup_range ?_
    intro a ha b hb hab
    rw [List.mem_range] at ha hb
    have hsa := hvPattern_stripe L (a + 1) (by omega) (by omega)
    have hsb := hvPattern_stripe L (b + 1) (by omega) (by omega)
    have hne : hvPattern L (a + 1) ≠ hvPattern L (b + 1) := fun h => by
      have := hvPattern_inj L _ _ (by omega) (by omega) h
      omega
    intro x hx hy
    simp only [List.mem_cons, List.not_mem_nil, or_false] at hx hy
    rcases hx with rfl | rfl <;> rcases hy with hy | hy
    · exact hne (hvHorizontal_inj L _ _ hL hy)
    · exact hv_ne L _ _ hsa hsb hy
    · exact hv_ne L _ _ hsb hsa hy.symm
    · exact hne (hvVertical_inj L _ _ hL hy)

theorem hv_mem_zip (L : ℕ) (hL : 1 ≤ L) (img : List (List ℕ)) (lab : ℕ) :
    (img, lab) ∈ (hvImages L).zip (hvLabels L) ↔
      ∃ p, StripePattern L p ∧
        ((lab = 0 ∧ HorizontalStripes L p img) ∨ (lab = 1 ∧ VerticalStripes L p img)) := by
  rw [hv_zip, hv_count L hL]
  simp only [List.mem_flatMap, List.mem_range, List.mem_cons, Prod.mk.injEq, List.not_mem_nil, or_false]
  constructor
  · rintro ⟨k, hk, h⟩
    have hs := hvPattern_stripe L (k + 1) (by omega) (by omega)
    refine ⟨_, hs, ?_⟩
    rw [hvHorizontal_iff L _ hs.1, hvVertical_iff L _ hs.1]
    tauto
  · rintro ⟨p, hp, h⟩
    obtain ⟨i, h1, h2, rfl⟩ := hvPattern_surj L p hp
    refine ⟨i - 1, by omega, ?_⟩
    rw [hvHorizontal_iff L _ hp.1, hvVertical_iff L _ hp.1] at h
    rw [Nat.sub_add_cancel h1]
    tauto

/-- C44: the returned data set, for every side length and whatever the random generator draws. The train
and test part together contain every stripe pattern once as rows with label 0 and once as columns with label
1, and nothing else; no image occurs twice, in particular none is both in the train and in the test set; a
quarter of the images is in the test set. -/
theorem C44_load_HV_data (rng : ℕ → ℕ → ℕ) (L : ℕ) (hL : 1 ≤ L) :
    ∃ d, loadHVData true rng L = .ok d ∧
      d.testImages.length = 2 ^ (L - 1) - 1 ∧ d.testLabels.length = d.testImages.length ∧
      d.trainImages.length = 3 * (2 ^ (L - 1) - 1) ∧ d.trainLabels.length = d.trainImages.length ∧
      (d.trainImages ++ d.testImages).Nodup ∧
      ∀ img lab, (img, lab) ∈ d.trainImages.zip d.trainLabels ++ d.testImages.zip d.testLabels ↔
        ∃ p, StripePattern L p ∧
          ((lab = 0 ∧ HorizontalStripes L p img) ∨ (lab = 1 ∧ VerticalStripes L p img)) := by
  have hsplit : 4 * (2 ^ (L - 1) - 1) / 4 = 2 ^ (L - 1) - 1 := by omega
  have hpow : 2 ^ L = 2 * 2 ^ (L - 1) := by
    obtain ⟨n, rfl⟩ : ∃ n, L = n + 1 := ⟨L - 1, by omega⟩
    simp only [Nat.add_sub_cancel, pow_succ]; omega
  have hpos : 1 ≤ 2 ^ (L - 1) := Nat.one_le_two_pow
  have hli : (npShuffle rng (hvImages L)).length = 2 * (2 ^ L - 2) := by
    rw [(npShuffle_perm _ _).length_eq, hvImages_length L hL]
  have hll : (npShuffle rng (hvLabels L)).length = 2 * (2 ^ L - 2) := by
    rw [(npShuffle_perm _ _).length_eq, hvLabels_length L hL]
  refine ⟨⟨(npShuffle rng (hvImages L)).drop (2 ^ (L - 1) - 1), (npShuffle rng (hvLabels L)).drop (2 ^ (L - 1) - 1),
    (npShuffle rng (hvImages L)).take (2 ^ (L - 1) - 1), (npShuffle rng (hvLabels L)).take (2 ^ (L - 1) - 1)⟩,
    ?_, ?_, ?_, ?_, ?_, ?_, ?_⟩
  · unfold loadHVData
    rw [if_neg (by omega)]
    simp only [hsplit]
    rfl
  · simp only [List.length_take, hli]; omega
  · simp only [List.length_take, hli, hll]
  · simp only [List.length_drop, hli]; omega
  · simp only [List.length_drop, hli, hll]
  · simp only
    have h1 : ((npShuffle rng (hvImages L)).take (2 ^ (L - 1) - 1) ++
        (npShuffle rng (hvImages L)).drop (2 ^ (L - 1) - 1)).Nodup := by
      rw [List.take_append_drop]
      exact (npShuffle_perm _ _).nodup_iff.2 (hvImages_nodup L hL)
    exact (List.perm_append_comm).nodup_iff.1 h1
  · intro img lab
    simp only
    rw [← hv_mem_zip L hL]
    have hz := npShuffle_zip rng (hvImages L) (hvLabels L) (by rw [hvImages_length L hL, hvLabels_length L hL])
    have hp := npShuffle_perm rng ((hvImages L).zip (hvLabels L))
    rw [← hp.mem_iff, ← hz]
    have : (npShuffle rng (hvImages L)).zip (npShuffle rng (hvLabels L)) =
        ((npShuffle rng (hvImages L)).zip (npShuffle rng (hvLabels L))).take (2 ^ (L - 1) - 1) ++
        ((npShuffle rng (hvImages L)).zip (npShuffle rng (hvLabels L))).drop (2 ^ (L - 1) - 1) :=
      (List.take_append_drop _ _).symm
    rw [this]
    simp only [List.zip_eq_zipWith, List.take_zipWith, List.drop_zipWith]
    rw [List.mem_append, List.mem_append, or_comm]

/-- C44: with a numpy that lacks `np.int` (1.24 and later) the function always fails. -/
theorem C44_numpy_without_int (rng : ℕ → ℕ → ℕ) (L : ℕ) (hL : 1 ≤ L) :
    loadHVData false rng L = .error .attribute := by
  unfold loadHVData
  rw [if_neg (by omega)]
  rfl

/-- C44: side length 0 is rejected with a TypeError, whichever numpy is installed. -/
theorem C44_length_zero (npHasInt : Bool) (rng : ℕ → ℕ → ℕ) : loadHVData npHasInt rng 0 = .error .type := rfl

/-- a stripe pattern exists from side length 2 on -/
example : StripePattern 3 [0, 1, 1] := ⟨rfl, by decide, by decide, by decide⟩
example : HorizontalStripes 2 [0, 1] [[0, 0], [1, 1]] := by
  rw [hvHorizontal_iff 2 _ rfl]; rfl

end TorchMPS
