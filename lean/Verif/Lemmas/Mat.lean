import Verif.Spec.MatProd
import Verif.Model.MpsBase
/-
Algebra of `Mat`.
-/
namespace TorchMPS
open Spec
variable {K : Type}

namespace Mat

@[ext] theorem ext' {A B : Mat K} (h1 : A.r = B.r) (h2 : A.c = B.c) (h3 : A.e = B.e) : A = B := by
  cases A; cases B; simp_all

@[simp] theorem mul_r [Semiring K] (A B : Mat K) : (A.mul B).r = A.r := rfl
@[simp] theorem mul_c [Semiring K] (A B : Mat K) : (A.mul B).c = B.c := rfl
@[simp] theorem divReal_r [RCLike K] (A : Mat K) (s : ℝ) : (A.divReal s).r = A.r := rfl
@[simp] theorem divReal_c [RCLike K] (A : Mat K) (s : ℝ) : (A.divReal s).c = A.c := rfl
@[simp] theorem smul_r [Semiring K] (A : Mat K) (s : K) : (A.smul s).r = A.r := rfl
@[simp] theorem smul_c [Semiring K] (A : Mat K) (s : K) : (A.smul s).c = A.c := rfl
@[simp] theorem transpose_r (A : Mat K) : A.transpose.r = A.c := rfl
@[simp] theorem transpose_c (A : Mat K) : A.transpose.c = A.r := rfl

theorem mul_assoc [Semiring K] (A B C : Mat K) : (A.mul B).mul C = A.mul (B.mul C) := by
  ext
  · rfl
  · rfl
  · rename_i i j
    simp only [mul, Finset.sum_mul, Finset.mul_sum]
    rw [Finset.sum_comm]
    simp only [_root_.mul_assoc]

theorem smul_mul [CommSemiring K] (s : K) (A B : Mat K) : (A.smul s).mul B = (A.mul B).smul s := by
  ext
  · rfl
  · rfl
  · simp only [mul, smul, Finset.mul_sum, _root_.mul_assoc]

theorem mul_smul [CommSemiring K] (s : K) (A B : Mat K) : A.mul (B.smul s) = (A.mul B).smul s := by
  ext
  · rfl
  · rfl
  · simp only [mul, smul, Finset.mul_sum]
    refine Finset.sum_congr rfl (fun k _ => ?_)
    ring

theorem smul_smul [CommSemiring K] (s t : K) (A : Mat K) : (A.smul s).smul t = A.smul (t * s) := by
  ext
  · rfl
  · rfl
  · simp only [smul, _root_.mul_assoc]

@[simp] theorem one_smul [Semiring K] (A : Mat K) : A.smul 1 = A := by
  ext <;> simp [smul]

theorem smul_divReal [RCLike K] (A : Mat K) (s : ℝ) (h : s ≠ 0) :
    (A.divReal s).smul (s : K) = A := by
  have : (s : K) ≠ 0 := by exact_mod_cast h
  ext
  · rfl
  · rfl
  · simp only [smul, divReal]; field_simp

theorem divReal_eq_smul [RCLike K] (A : Mat K) (s : ℝ) : A.divReal s = A.smul ((s : K)⁻¹) := by
  ext
  · rfl
  · rfl
  · simp only [smul, divReal, div_eq_inv_mul]

@[simp] theorem transpose_transpose (A : Mat K) : A.transpose.transpose = A := rfl

theorem transpose_smul [Semiring K] (s : K) (A : Mat K) :
    (A.smul s).transpose = A.transpose.smul s := rfl

theorem transpose_mul [CommSemiring K] (A B : Mat K) (h : A.c = B.r) :
    (A.mul B).transpose = B.transpose.mul A.transpose := by
  ext
  · rfl
  · rfl
  · simp only [mul, transpose]
    rw [h]
    refine Finset.sum_congr rfl (fun k _ => _root_.mul_comm _ _)

theorem absSum_nonneg [RCLike K] (A : Mat K) : 0 ≤ A.absSum :=
  Finset.sum_nonneg (fun _ _ => Finset.sum_nonneg (fun _ _ => norm_nonneg _))

theorem absSum_eq_zero_iff [RCLike K] (A : Mat K) : A.absSum = 0 ↔ IsZero A := by
  unfold absSum IsZero
  rw [Finset.sum_eq_zero_iff_of_nonneg
    (fun _ _ => Finset.sum_nonneg (fun _ _ => norm_nonneg _))]
  constructor
  · intro h i hi j hj
    have := h i (Finset.mem_range.2 hi)
    rw [Finset.sum_eq_zero_iff_of_nonneg (fun _ _ => norm_nonneg _)] at this
    exact norm_eq_zero.1 (this j (Finset.mem_range.2 hj))
  · intro h i hi
    refine Finset.sum_eq_zero (fun j hj => ?_)
    rw [h i (Finset.mem_range.1 hi) j (Finset.mem_range.1 hj), norm_zero]

end Mat

theorem Spec.IsZero.smul [Semiring K] {A : Mat K} (h : IsZero A) (s : K) : IsZero (A.smul s) := by
  intro i hi j hj
  simp only [Mat.smul]; rw [h i hi j hj, mul_zero]

theorem isZero_smul_iff [Field K] {A : Mat K} (s : K) (hs : s ≠ 0) :
    IsZero (A.smul s) ↔ IsZero A := by
  refine ⟨fun h i hi j hj => ?_, fun h => h.smul s⟩
  have := h i hi j hj
  simp only [Mat.smul] at this
  exact (mul_eq_zero.1 this).resolve_left hs

theorem Spec.IsZero.mul_left [Semiring K] {A : Mat K} (h : IsZero A) (B : Mat K) : IsZero (A.mul B) := by
  intro i hi j _
  simp only [Mat.mul]
  refine Finset.sum_eq_zero (fun k hk => ?_)
  rw [h i hi k (Finset.mem_range.1 hk), zero_mul]

theorem Spec.IsZero.mul_right [Semiring K] {B : Mat K} (h : IsZero B) (A : Mat K) (hc : A.c = B.r) :
    IsZero (A.mul B) := by
  intro i _ j hj
  simp only [Mat.mul]
  refine Finset.sum_eq_zero (fun k hk => ?_)
  rw [h k (hc ▸ Finset.mem_range.1 hk) j hj, mul_zero]

theorem isZero_transpose_iff [Semiring K] {A : Mat K} : IsZero A.transpose ↔ IsZero A :=
  ⟨fun h i hi j hj => h j hj i hi, fun h i hi j hj => h j hj i hi⟩

theorem matProd_cons [Semiring K] (m a : Mat K) (ms : List (Mat K)) :
    matProd m (a :: ms) = matProd (m.mul a) ms := rfl

theorem matProd_mul [Semiring K] (m a : Mat K) (ms : List (Mat K)) :
    m.mul (matProd a ms) = matProd (m.mul a) ms := by
  induction ms generalizing a with
  | nil => rfl
  | cons b ms ih => rw [matProd_cons, matProd_cons, ih, Mat.mul_assoc]

theorem matProd_append [Semiring K] (m : Mat K) (xs ys : List (Mat K)) :
    matProd m (xs ++ ys) = matProd (matProd m xs) ys := by
  unfold matProd; rw [List.foldl_append]

theorem matProd_smul [CommSemiring K] (s : K) (m : Mat K) (ms : List (Mat K)) :
    matProd (m.smul s) ms = (matProd m ms).smul s := by
  induction ms generalizing m with
  | nil => rfl
  | cons a ms ih => rw [matProd_cons, matProd_cons, Mat.smul_mul, ih]

@[simp] theorem matProd_r [Semiring K] (m : Mat K) (ms : List (Mat K)) : (matProd m ms).r = m.r := by
  induction ms generalizing m with
  | nil => rfl
  | cons a ms ih => rw [matProd_cons, ih, Mat.mul_r]

theorem matProd_c [Semiring K] (m : Mat K) (ms : List (Mat K)) :
    (matProd m ms).c = ((m :: ms).getLast (by simp)).c := by
  induction ms generalizing m with
  | nil => rfl
  | cons a ms ih => rw [matProd_cons, ih]; cases ms <;> simp

theorem Spec.IsZero.matProd [Semiring K] {m : Mat K} (h : IsZero m) (ms : List (Mat K)) :
    IsZero (matProd m ms) := by
  induction ms generalizing m with
  | nil => exact h
  | cons a ms ih => rw [matProd_cons]; exact ih (h.mul_left a)

/-! ### Sequential reduction -/

theorem seqStep_none [RCLike K] (ms : List (Mat K)) :
    ms.foldl seqStep (none : Option (Mat K × ℝ)) = none := by
  induction ms with
  | nil => rfl
  | cons a ms ih => exact ih

theorem seqRescale_eq_zero_iff [RCLike K] (A : Mat K) :
    A.absSum / Real.sqrt ((A.r * A.c : ℕ) : ℝ) = 0 ↔ IsZero A := by
  rw [← Mat.absSum_eq_zero_iff, div_eq_zero_iff]
  constructor
  · rintro (h | h)
    · exact h
    · rw [Real.sqrt_eq_zero (by positivity)] at h
      have h : A.r * A.c = 0 := by exact_mod_cast h
      rw [Mat.absSum_eq_zero_iff]
      intro i hi j hj
      rcases Nat.mul_eq_zero.1 h with h | h <;> omega
  · exact Or.inl

theorem seq_loop [RCLike K] (p : Mat K) (l : ℝ) (ms : List (Mat K)) :
    (ms.foldl seqStep (some (p, l)) = none ↔ ms ≠ [] ∧ IsZero (matProd p ms)) ∧
    ∀ P s, ms.foldl seqStep (some (p, l)) = some (P, s) →
      P.smul (Real.exp s : K) = (matProd p ms).smul (Real.exp l : K) := by
  induction ms generalizing p l with
  | nil =>
    refine ⟨by simp, ?_⟩
    intro P s h
    simp only [List.foldl_nil, Option.some.injEq, Prod.mk.injEq] at h
    rw [h.1, h.2]; rfl
  | cons a ms ih =>
    simp only [List.foldl_cons, seqStep]
    by_cases hz : IsZero (p.mul a)
    · rw [if_pos ((seqRescale_eq_zero_iff _).2 hz), seqStep_none]
      refine ⟨by simp [matProd_cons, hz.matProd], fun P s h => absurd h (by simp)⟩
    · have hr : (p.mul a).absSum / Real.sqrt (((p.mul a).r * (p.mul a).c : ℕ) : ℝ) ≠ 0 :=
        fun h => hz ((seqRescale_eq_zero_iff _).1 h)
      rw [if_neg hr]
      set r := (p.mul a).absSum / Real.sqrt (((p.mul a).r * (p.mul a).c : ℕ) : ℝ) with hrd
      have hpos : 0 < r := lt_of_le_of_ne
        (div_nonneg (Mat.absSum_nonneg _) (Real.sqrt_nonneg _)) (Ne.symm hr)
      have hrK : ((r : K))⁻¹ ≠ 0 := inv_ne_zero (by exact_mod_cast hr)
      obtain ⟨h1, h2⟩ := ih ((p.mul a).divReal r) (l + Real.log r)
      rw [Mat.divReal_eq_smul, matProd_smul] at h1 h2
      refine ⟨?_, ?_⟩
      · rw [Mat.divReal_eq_smul, h1, isZero_smul_iff _ hrK, matProd_cons]
        constructor
        · rintro ⟨-, h⟩; exact ⟨by simp, h⟩
        · rintro ⟨-, h⟩
          refine ⟨?_, h⟩
          rintro rfl
          exact hz h
      · intro P s h
        rw [Mat.divReal_eq_smul] at h
        rw [h2 P s h, Mat.smul_smul, matProd_cons]
        congr 1
        rw [Real.exp_add, Real.exp_log hpos]
        have : (r : K) ≠ 0 := by exact_mod_cast hr
        push_cast
        field_simp

theorem chainOK_append_iff {xs : List (Mat K)} {a : Mat K} {ys : List (Mat K)} :
    ChainOK (xs ++ a :: ys) ↔ ChainOK (xs ++ [a]) ∧ ChainOK (a :: ys) := by
  induction xs with
  | nil => simp [ChainOK]
  | cons x xs ih =>
    cases xs with
    | nil => simp [ChainOK]
    | cons y xs => simp only [List.cons_append, ChainOK] at ih ⊢; rw [ih, and_assoc]

theorem chainOK_matProd_c [Semiring K] {m b : Mat K} {ms : List (Mat K)}
    (h : ChainOK (m :: (ms ++ [b]))) : (matProd m ms).c = b.r := by
  induction ms generalizing m with
  | nil => exact h.1
  | cons a ms ih =>
    rw [matProd_cons]
    refine ih ?_
    have h2 := h.2
    cases ms with
    | nil => exact ⟨h2.1, trivial⟩
    | cons c ms => exact ⟨h2.1, h2.2⟩

theorem chainOK_init {m : Mat K} {ms ys : List (Mat K)} (h : ChainOK (m :: (ms ++ ys))) :
    ChainOK (m :: ms) := by
  induction ms generalizing m with
  | nil => trivial
  | cons a ms ih => exact ⟨h.1, ih h.2⟩

theorem reverse_transpose_prod [CommSemiring K] (m : Mat K) (ms : List (Mat K))
    (h : ChainOK (m :: ms)) :
    ∃ m' ms', (m :: ms).reverse.map Mat.transpose = m' :: ms' ∧
      matProd m' ms' = (matProd m ms).transpose ∧ (ms' = [] ↔ ms = []) := by
  induction ms using List.reverseRecOn with
  | nil => exact ⟨m.transpose, [], rfl, rfl, by simp⟩
  | append_singleton ms b ih =>
    obtain ⟨m', ms', h1, h2, -⟩ := ih (chainOK_init h)
    refine ⟨b.transpose, m' :: ms', ?_, ?_, by simp⟩
    · rw [← List.cons_append, List.reverse_append, List.map_append, h1]; rfl
    · rw [matProd_append]
      show _ = Mat.transpose (Mat.mul _ _)
      rw [Mat.transpose_mul _ _ (chainOK_matProd_c h), ← h2, matProd_mul]
      rfl

theorem matReduceSeq_spec [RCLike K] (m : Mat K) (ms : List (Mat K)) (h : ChainOK (m :: ms)) :
    (matReduceSeq m ms = none ↔ ms ≠ [] ∧ IsZero (matProd m ms)) ∧
    ∀ P s, matReduceSeq m ms = some (P, s) → P.smul (Real.exp s : K) = matProd m ms := by
  unfold matReduceSeq
  simp only
  split
  · obtain ⟨m', ms', h1, h2, h3⟩ := reverse_transpose_prod m ms h
    rw [h1]
    simp only
    obtain ⟨k1, k2⟩ := seq_loop m' 0 ms'
    refine ⟨?_, ?_⟩
    · rw [Option.map_eq_none_iff, k1, h2, isZero_transpose_iff, ne_eq, h3]
    · intro P s hP
      rw [Option.map_eq_some_iff] at hP
      obtain ⟨⟨P', s'⟩, hP', he⟩ := hP
      simp only [Prod.mk.injEq] at he
      have := k2 P' s' hP'
      rw [Real.exp_zero, h2] at this
      rw [← he.1, ← he.2, ← Mat.transpose_smul, this]
      simp
  · obtain ⟨k1, k2⟩ := seq_loop m 0 ms
    refine ⟨k1, fun P s hP => ?_⟩
    rw [k2 P s hP]; simp

/-! ### Parallel reduction -/

/-- product of a non-empty list -/
def prodL [Semiring K] : List (Mat K) → Option (Mat K)
  | [] => none
  | m :: ms => some (matProd m ms)

theorem prodL_append [Semiring K] (xs ys : List (Mat K)) (hx : xs ≠ []) (hy : ys ≠ []) :
    prodL (xs ++ ys) = (prodL xs).bind (fun a => (prodL ys).map (fun b => a.mul b)) := by
  obtain _ | ⟨x, xs⟩ := xs
  · exact absurd rfl hx
  obtain _ | ⟨y, ys⟩ := ys
  · exact absurd rfl hy
  simp only [prodL, List.cons_append, Option.bind_some, Option.map_some]
  rw [matProd_append, matProd_cons, matProd_mul]

/-- pairwise products, recursively -/
def pairUp [Semiring K] : List (Mat K) → List (Mat K)
  | a :: b :: l => a.mul b :: pairUp l
  | l => l

theorem everyOther_drop_one {α : Type} (a b : α) (l : List α) :
    everyOther (b :: l) = everyOther ((a :: b :: l).drop 1) := rfl

theorem parPairs_eq_pairUp [Semiring K] : ∀ ms : List (Mat K), parPairs ms = pairUp ms
  | [] => by simp [parPairs, pairUp, everyOther]
  | [a] => by simp [parPairs, pairUp, everyOther]
  | a :: b :: l => by
    have ih := parPairs_eq_pairUp l
    simp only [pairUp, ← ih, parPairs, List.length_cons]
    have e : (l.length + 1 + 1) / 2 * 2 = l.length / 2 * 2 + 1 + 1 := by omega
    rw [e]
    simp only [List.take_succ_cons, List.drop_succ_cons, everyOther, List.drop_zero,
      List.zipWith_cons_cons, List.cons_append]
    congr 2
    congr 1
    generalize hk : l.length / 2 * 2 = k
    have hkl : (l.take k).length = k := by rw [List.length_take]; omega
    cases hl : l.take k with
    | nil => simp [everyOther]
    | cons c l' => simp [everyOther]

theorem prodL_pairUp [Semiring K] : ∀ ms : List (Mat K), prodL (pairUp ms) = prodL ms
  | [] => rfl
  | [a] => rfl
  | [a, b] => rfl
  | a :: b :: c :: l => by
    have ih := prodL_pairUp (c :: l)
    have hne : pairUp (c :: l) ≠ [] := by cases l <;> simp [pairUp]
    rw [show pairUp (a :: b :: c :: l) = [a.mul b] ++ pairUp (c :: l) from rfl,
      prodL_append _ _ (by simp) hne, ih, ← prodL_append [a.mul b] (c :: l) (by simp) (by simp)]
    rfl

theorem prodL_map_smul [RCLike K] (f : Mat K → ℝ) (ms : List (Mat K)) (hne : ms ≠ [])
    (hf : ∀ m ∈ ms, 0 < f m) :
    (prodL (ms.map (fun m => m.divReal (f m)))).map
      (fun A => A.smul (Real.exp ((ms.map f).map Real.log).sum : K)) = prodL ms := by
  have key : ∀ (ms : List (Mat K)) (m0 : Mat K), (∀ m ∈ ms, 0 < f m) →
      (matProd m0 (ms.map (fun m => m.divReal (f m)))).smul
        (Real.exp ((ms.map f).map Real.log).sum : K) = matProd m0 ms := by
    intro ms
    induction ms with
    | nil => intro m0 _; simp [matProd]
    | cons a ms ih =>
      intro m0 h
      have ha := h a (by simp)
      have haK : (f a : K) ≠ 0 := by exact_mod_cast ha.ne'
      simp only [List.map_cons, matProd_cons, List.sum_cons]
      rw [Mat.divReal_eq_smul, Mat.mul_smul, matProd_smul, Mat.smul_smul, Real.exp_add,
        Real.exp_log ha]
      push_cast
      rw [mul_assoc, mul_comm _ ((f a : K)⁻¹), ← mul_assoc, mul_inv_cancel₀ haK, one_mul]
      have := ih (m0.mul a) (fun m hm => h m (by simp [hm]))
      push_cast at this
      exact this
  obtain _ | ⟨a, ms⟩ := ms
  · exact absurd rfl hne
  have ha := hf a (by simp)
  have haK : (f a : K) ≠ 0 := by exact_mod_cast ha.ne'
  have := key ms a (fun m hm => hf m (by simp [hm]))
  simp only [List.map_cons, prodL, Option.map_some, List.sum_cons]
  rw [Mat.divReal_eq_smul, matProd_smul, Mat.smul_smul, Real.exp_add, Real.exp_log ha]
  push_cast
  push_cast at this
  rw [← this, mul_assoc, mul_comm _ ((f a : K)⁻¹), ← mul_assoc, mul_inv_cancel₀ haK, one_mul]

theorem isZero_of_mem [Semiring K] (D : ℕ) (m : Mat K) (ms : List (Mat K))
    (hD : ∀ a ∈ m :: ms, a.r = D ∧ a.c = D) (a : Mat K) (ha : a ∈ m :: ms) (hz : IsZero a) :
    IsZero (matProd m ms) := by
  induction ms generalizing m with
  | nil => simp at ha; subst ha; exact hz
  | cons b ms ih =>
    rw [matProd_cons]
    have hm := hD m (by simp)
    have hb := hD b (by simp)
    have hD' : ∀ x ∈ m.mul b :: ms, x.r = D ∧ x.c = D := by
      intro x hx
      rcases List.mem_cons.1 hx with rfl | hx
      · exact ⟨hm.1, hb.2⟩
      · exact hD x (by simp [hx])
    rcases List.mem_cons.1 ha with rfl | ha
    · exact (hz.mul_left b).matProd ms
    · rcases List.mem_cons.1 ha with rfl | ha
      · exact (hz.mul_right m (by rw [hm.2, hb.1])).matProd ms
      · exact ih (m.mul b) hD' (by simp [ha])

theorem pairUp_dims [Semiring K] (D : ℕ) : ∀ ms : List (Mat K), (∀ a ∈ ms, a.r = D ∧ a.c = D) →
    ∀ a ∈ pairUp ms, a.r = D ∧ a.c = D
  | [], _, a, ha => by simp [pairUp] at ha
  | [x], h, a, ha => h a (by simpa [pairUp] using ha)
  | x :: y :: l, h, a, ha => by
    simp only [pairUp, List.mem_cons] at ha
    rcases ha with rfl | ha
    · exact ⟨(h x (by simp)).1, (h y (by simp)).2⟩
    · exact pairUp_dims D l (fun z hz => h z (by simp [hz])) a ha

theorem parLoop_step [RCLike K] (D : ℕ) (ms : List (Mat K)) (l : ℝ) (h : 1 < ms.length) :
    parLoop D ms l = (parStep D ms l).bind (fun p => parLoop D p.1 p.2) := by
  rw [parLoop, dif_pos h]
  split <;> rename_i h <;> rw [h] <;> rfl

theorem parLoop_one [RCLike K] (D : ℕ) (m : Mat K) (l : ℝ) : parLoop D [m] l = some (m, l) := by
  rw [parLoop, dif_neg (by simp)]

theorem parLoop_spec [RCLike K] (D : ℕ) (n : ℕ) : ∀ (ms : List (Mat K)) (l : ℝ), ms.length = n →
    ∀ (_hne : ms ≠ []) (_hD : ∀ a ∈ ms, a.r = D ∧ a.c = D) (A : Mat K) (_hA : prodL ms = some A),
    (parLoop D ms l = none ↔ 1 < ms.length ∧ IsZero A) ∧
    ∀ P s, parLoop D ms l = some (P, s) →
      P.smul (Real.exp s : K) = A.smul (Real.exp l : K) := by
  induction n using Nat.strong_induction_on with
  | _ n ih =>
  intro ms l hn hne hD A hA
  by_cases h1 : 1 < ms.length
  · rw [parLoop_step D ms l h1]
    have hpp := prodL_pairUp ms
    have hne' : pairUp ms ≠ [] := by
      intro h; rw [h, hA] at hpp; simp [prodL] at hpp
    have hD' := pairUp_dims D ms hD
    have hlen : (pairUp ms).length < ms.length := by
      rw [← parPairs_eq_pairUp, parPairs_length]; omega
    have hstep : parStep D ms l = if ∃ r ∈ (pairUp ms).map (fun m => m.absSum / (D : ℝ)), r = 0
        then none else some ((pairUp ms).map (fun m => m.divReal (m.absSum / (D : ℝ))),
          l + (((pairUp ms).map (fun m => m.absSum / (D : ℝ))).map Real.log).sum) := by
      unfold parStep; simp only [parPairs_eq_pairUp]
    have hzero : ∀ m ∈ pairUp ms, (m.absSum / (D : ℝ) = 0 ↔ IsZero m) := by
      intro m hm
      rw [← Mat.absSum_eq_zero_iff, div_eq_zero_iff]
      refine ⟨fun h => h.elim id (fun h => ?_), Or.inl⟩
      rw [Mat.absSum_eq_zero_iff]
      intro i hi
      have : D = 0 := by exact_mod_cast h
      rw [(hD' m hm).1] at hi; omega
    by_cases hz : ∃ r ∈ (pairUp ms).map (fun m => m.absSum / (D : ℝ)), r = 0
    · rw [if_pos hz] at hstep
      rw [hstep]
      refine ⟨⟨fun _ => ⟨h1, ?_⟩, fun _ => rfl⟩, fun P s h => absurd h (by simp)⟩
      obtain ⟨r, hr, hr0⟩ := hz
      obtain ⟨m, hm, rfl⟩ := List.mem_map.1 hr
      have hmz := (hzero m hm).1 hr0
      rw [hA] at hpp
      rcases hq : pairUp ms with _ | ⟨x, xs⟩
      · exact absurd hq hne'
      · rw [hq] at hpp hm hD'
        simp only [prodL, Option.some.injEq] at hpp
        rw [← hpp]
        exact isZero_of_mem D x xs hD' m hm hmz
    · rw [if_neg hz] at hstep
      have hpos : ∀ m ∈ pairUp ms, 0 < m.absSum / (D : ℝ) := by
        intro m hm
        refine lt_of_le_of_ne (div_nonneg (Mat.absSum_nonneg _) (by positivity)) ?_
        intro h
        exact hz ⟨_, List.mem_map.2 ⟨m, hm, rfl⟩, h.symm⟩
      rw [hstep, Option.bind_some]
      have hmap := prodL_map_smul (fun m => m.absSum / (D : ℝ)) (pairUp ms) hne' hpos
      rw [hpp, hA, Option.map_eq_some_iff] at hmap
      obtain ⟨A', hA', hAA⟩ := hmap
      obtain ⟨k1, k2⟩ := ih _ (by rw [← hn]; exact hlen)
        ((pairUp ms).map (fun m => m.divReal (m.absSum / (D : ℝ))))
        (l + (((pairUp ms).map (fun m => m.absSum / (D : ℝ))).map Real.log).sum)
        (by simp) (by simpa using hne')
        (by
          intro a ha
          obtain ⟨m, hm, rfl⟩ := List.mem_map.1 ha
          exact hD' m hm) A' hA'
      have hexp : ∀ x : ℝ, (Real.exp x : K) ≠ 0 := fun x => by
        exact_mod_cast (Real.exp_pos x).ne'
      refine ⟨?_, ?_⟩
      · rw [k1, ← hAA, isZero_smul_iff _ (hexp _), List.length_map]
        constructor
        · rintro ⟨-, h⟩; exact ⟨h1, h⟩
        · rintro ⟨-, h⟩
          refine ⟨?_, h⟩
          by_contra hle
          -- the list has exactly one (non-zero) element
          rcases hq : pairUp ms with _ | ⟨x, xs⟩
          · exact hne' hq
          · have hxs : xs = [] := by
              rw [hq, List.length_cons] at hle
              exact List.eq_nil_of_length_eq_zero (by omega)
            subst hxs
            rw [hq] at hA' hpos hzero
            simp only [List.map_cons, List.map_nil, prodL, Option.some.injEq, matProd,
              List.foldl_nil] at hA'
            have hx := hpos x (by simp)
            rw [← hA', Mat.divReal_eq_smul, isZero_smul_iff _
              (inv_ne_zero (by exact_mod_cast hx.ne'))] at h
            exact hx.ne' ((hzero x (by simp)).2 h)
      · intro P s h
        rw [k2 P s h, ← hAA, Mat.smul_smul, Real.exp_add]
        push_cast
        rfl
  · obtain _ | ⟨m, ms⟩ := ms
    · exact absurd rfl hne
    have : ms = [] := List.eq_nil_of_length_eq_zero (by simp at h1; simp [h1])
    subst this
    simp only [prodL, Option.some.injEq, matProd, List.foldl_nil] at hA
    rw [parLoop_one]
    refine ⟨by simp, ?_⟩
    intro P s h
    simp only [Option.some.injEq, Prod.mk.injEq] at h
    rw [← h.1, ← h.2, hA]

theorem matReducePar_spec [RCLike K] (D : ℕ) (m : Mat K) (ms : List (Mat K))
    (hD : ms ≠ [] → ∀ a ∈ m :: ms, a.r = D ∧ a.c = D) :
    (matReducePar D (m :: ms) = none ↔ ms ≠ [] ∧ IsZero (matProd m ms)) ∧
    ∀ P s, matReducePar D (m :: ms) = some (P, s) → P.smul (Real.exp s : K) = matProd m ms := by
  obtain _ | ⟨b, ms⟩ := ms
  · refine ⟨by simp [matReducePar], ?_⟩
    intro P s h
    simp only [matReducePar, Option.some.injEq, Prod.mk.injEq] at h
    rw [← h.1, ← h.2]; simp [matProd]
  · have := parLoop_spec D _ (m :: b :: ms) 0 rfl (by simp) (hD (by simp)) _ rfl
    refine ⟨?_, ?_⟩
    · show parLoop D (m :: b :: ms) 0 = none ↔ _
      rw [this.1]; simp
    · intro P s h
      rw [this.2 P s h]; simp

/-! ### Relation with Mathlib's matrix product -/

theorem toMatrix_mul [Semiring K] (n k m : ℕ) (A B : Mat K) (hk : A.c = k) :
    toMatrix n m (A.mul B) = toMatrix n k A * toMatrix k m B := by
  ext i j
  simp only [toMatrix, Mat.mul, Matrix.mul_apply, hk]
  exact (Fin.sum_univ_eq_sum_range (fun x => A.e i x * B.e x j) k).symm

theorem toMatrix_eye [Semiring K] (n : ℕ) : toMatrix n n (Mat.eye n : Mat K) = 1 := by
  ext i j
  simp [toMatrix, Mat.eye, Matrix.one_apply, Fin.ext_iff]

theorem toMatrix_matProd [Semiring K] (n : ℕ) (m : Mat K) (ms : List (Mat K))
    (h : ∀ a ∈ m :: ms, a.c = n) :
    toMatrix n n (matProd m ms) = ((m :: ms).map (toMatrix n n)).prod := by
  induction ms generalizing m with
  | nil => simp [matProd]
  | cons a ms ih =>
    rw [matProd_cons, ih _ (by
      intro x hx
      rcases List.mem_cons.1 hx with rfl | hx
      · exact h a (by simp)
      · exact h x (by simp [hx]))]
    simp only [List.map_cons, List.prod_cons]
    rw [toMatrix_mul n n n m a (h m (by simp)), mul_assoc]

theorem toMatrix_smul [Semiring K] (n m : ℕ) (s : K) (A : Mat K) :
    toMatrix n m (A.smul s) = s • toMatrix n m A := rfl

end TorchMPS
