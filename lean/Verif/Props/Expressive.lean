import Verif.Lemmas.TensorTrain
import Verif.Props.ProbMps
/-
C92: what a probabilistic MPS with a given bond dimension can represent.
-/
namespace TorchMPS
open Spec
variable {K : Type}

/-- the core tensor with given matrices -/
def coreOf [Zero K] {n d D : ℕ} (A : Fin n → Fin d → Matrix (Fin D) (Fin D) K) : Tensor K :=
  ⟨[n, d, D, D], fun idx => match idx with
    | [s, k, i, j] => if h : s < n ∧ k < d ∧ i < D ∧ j < D then A ⟨s, h.1⟩ ⟨k, h.2.1⟩ ⟨i, h.2.2.1⟩ ⟨j, h.2.2.2⟩ else 0
    | _ => 0⟩

/-- the edge vectors with given entries -/
def edgeOf [Zero K] {D : ℕ} (l r : Fin D → K) : Tensor K :=
  ⟨[2, D], fun idx => match idx with
    | [i, j] => if h : j < D then (if i = 0 then l ⟨j, h⟩ else r ⟨j, h⟩) else 0
    | _ => 0⟩

/-- the model with given matrices and boundary vectors -/
def modelOf [Zero K] {n d D : ℕ} (A : Fin n → Fin d → Matrix (Fin D) (Fin D) K) (l r : Fin D → K) : ProbMPS K :=
  ⟨false, coreOf A, edgeOf l r, none, none⟩

theorem modelOf_valid [Zero K] {n d D : ℕ} (hD : 1 ≤ D) (A : Fin n → Fin d → Matrix (Fin D) (Fin D) K) (l r : Fin D → K) :
    ValidModel (modelOf A l r) n d D :=
  ⟨by simp [modelOf, coreOf], by simp [modelOf, edgeOf], by simp [modelOf], by omega⟩

theorem psiSeq_eq_ttVal [RCLike K] (m : ProbMPS K) (n d D : ℕ) :
    psiSeq m n d D = ttVal (β := fun _ => Fin d) (fun s k => coreMat m.core D s k + biasMat m D) (boundVec m.edge D 0) (boundVec m.edge D 1) := rfl

theorem modelOf_psi [RCLike K] {n d D : ℕ} (A : Fin n → Fin d → Matrix (Fin D) (Fin D) K) (l r : Fin D → K) (x : Fin n → Fin d) :
    psiSeq (modelOf A l r) n d D x = ttVal (β := fun _ => Fin d) A l r x := by
  have h1 : (fun (s : Fin n) (k : Fin d) => coreMat (modelOf A l r).core D s k + biasMat (modelOf A l r) D) = A := by
    funext s k
    ext i j
    simp [coreMat, biasMat, modelOf, coreOf]
  have h2 : boundVec (modelOf A l r).edge D 0 = l := by
    funext j; simp [boundVec, modelOf, edgeOf]
  have h3 : boundVec (modelOf A l r).edge D 1 = r := by
    funext j; simp [boundVec, modelOf, edgeOf]
  rw [psiSeq_eq_ttVal, h1, h2, h3]

/-- a model which gives a positive probability to some sequence has a normalisation constant -/
theorem modelZ_of_prob [RCLike K] (m : ProbMPS K) (n d D : ℕ) (hm : ValidModel m n d D) (he : m.embedding = none) (slim par : Bool) (hslim : slim = true → m.bias = none)
    (hp : ∃ x : Fin n → Fin d, probSeq m slim par x ≠ 0) : modelZ m n d D ≠ 0 := by
  intro hZ
  obtain ⟨x, hx⟩ := hp
  obtain ⟨-, -, h⟩ := C21_forward_exact m n d D hm he (single x) 1 (single_valid x) slim par (fun h => ⟨hslim h, Or.inr rfl⟩)
  refine hx ?_
  unfold probSeq
  rw [h (fun hh => hh.1 hZ)]
  rfl

/-- C92: the amplitudes of a model of bond dimension `D`, with or without bias matrix, uniform or not, have unfoldings of rank at most `D` at every bond; and (if the normalisation does not
vanish) its probabilities are their squares, normalised. -/
theorem C92_rank_bound [RCLike K] (m : ProbMPS K) (n d D : ℕ) (hm : ValidModel m n d D) (he : m.embedding = none) (slim par : Bool) (hslim : slim = true → m.bias = none)
    (hp : ∃ x : Fin n → Fin d, probSeq m slim par x ≠ 0) :
    ∃ Ψ : (Fin n → Fin d) → K, (∀ x, ‖Ψ x‖ ^ 2 = probSeq m slim par x) ∧ ∀ t, (unfolding (β := fun _ => Fin d) Ψ t).rank ≤ D := by
  have hZ := modelZ_of_prob m n d D hm he slim par hslim hp
  have hpos : 0 < modelZ m n d D := lt_of_le_of_ne (Finset.sum_nonneg fun x _ => sq_nonneg _) (Ne.symm hZ)
  set c : K := (((Real.sqrt (modelZ m n d D))⁻¹ : ℝ) : K) with hc
  refine ⟨fun x => c * psiSeq m n d D x, fun x => ?_, fun t => ?_⟩
  · rw [probSeq_eq m n d D hm he slim par hslim hZ, norm_mul, mul_pow, hc, RCLike.norm_ofReal, sq_abs, inv_pow, Real.sq_sqrt hpos.le]
    field_simp
  · have h1 : (fun x => c * psiSeq m n d D x) =
        ttVal (β := fun _ => Fin d) (fun s k => coreMat m.core D s k + biasMat m D) (c • boundVec m.edge D 0) (boundVec m.edge D 1) := by
      funext x
      rw [psiSeq_eq_ttVal]
      simp only [ttVal, smul_dotProduct, smul_eq_mul]
    rw [h1]
    exact tt_rank D _ _ _ t

/-- C92: a model of bond dimension `D` can represent exactly those distributions over the `d ^ n` sequences which are the squared modulus of a tensor whose unfoldings have rank at most `D`. -/
theorem C92_exactly [RCLike K] (n d D : ℕ) (hD : 1 ≤ D) (p : (Fin n → Fin d) → ℝ) (hp : ∑ x, p x = 1) :
    (∃ m : ProbMPS K, ValidModel m n d D ∧ m.uniform = false ∧ m.embedding = none ∧ m.bias = none ∧ ∀ slim par x, probSeq m slim par x = p x) ↔
    ∃ Ψ : (Fin n → Fin d) → K, (∀ x, ‖Ψ x‖ ^ 2 = p x) ∧ ∀ t, 0 < t → t < n → (unfolding (β := fun _ => Fin d) Ψ t).rank ≤ D := by
  constructor
  · rintro ⟨m, hm, -, he, hb, h⟩
    have hne : ∃ x : Fin n → Fin d, probSeq m true true x ≠ 0 := by
      by_contra hn
      push Not at hn
      have : ∑ x, p x = 0 := Finset.sum_eq_zero fun x _ => by rw [← h true true x, hn x]
      rw [hp] at this
      exact one_ne_zero this
    obtain ⟨Ψ, h1, h2⟩ := C92_rank_bound m n d D hm he true true (fun _ => hb) hne
    exact ⟨Ψ, fun x => by rw [h1, h], fun t _ _ => h2 t⟩
  · rintro ⟨Ψ, h1, h2⟩
    obtain ⟨A, l, r, hA⟩ := tt_exists (β := fun _ => Fin d) D hD Ψ h2
    have hψ : ∀ x, psiSeq (modelOf A l r) n d D x = Ψ x := fun x => by rw [modelOf_psi, hA]
    have hZ : modelZ (modelOf A l r) n d D = 1 := by
      unfold modelZ
      rw [← hp]
      exact Finset.sum_congr rfl fun x _ => by rw [hψ, h1]
    refine ⟨modelOf A l r, modelOf_valid hD A l r, rfl, rfl, rfl, fun slim par x => ?_⟩
    rw [probSeq_eq _ n d D (modelOf_valid hD A l r) rfl slim par (fun _ => rfl) (by rw [hZ]; exact one_ne_zero), hZ, hψ, h1, div_one]

/-- the rank of an unfolding is at most the number of values of the first indices, and of the other ones -/
theorem unfolding_rank_le [Field K] (n d : ℕ) (Ψ : (Fin n → Fin d) → K) (t : ℕ) (ht : t ≤ n) :
    (unfolding (β := fun _ => Fin d) Ψ t).rank ≤ d ^ t ∧ (unfolding (β := fun _ => Fin d) Ψ t).rank ≤ d ^ (n - t) := by
  constructor
  · let M : Matrix (Fin t → Fin d) (Fin n → Fin d) K := Matrix.of fun u v => Ψ (fun s => if h : s.val < t then u ⟨s, h⟩ else v s)
    have h : unfolding (β := fun _ => Fin d) Ψ t = M.submatrix (fun u i => u ⟨i, by omega⟩) id := by
      ext u v
      simp only [unfolding, Matrix.of_apply, M, Matrix.submatrix_apply, id]
      congr 1
    rw [h]
    refine (Matrix.rank_submatrix_le _ _ _).trans ((Matrix.rank_le_card_height _).trans (by simp))
  · let M : Matrix (Fin n → Fin d) (Fin (n - t) → Fin d) K := Matrix.of fun u v => Ψ (fun s => if h : s.val < t then u s else v ⟨s - t, by omega⟩)
    have h : unfolding (β := fun _ => Fin d) Ψ t = M.submatrix id (fun v i => v ⟨i + t, by omega⟩) := by
      ext u v
      simp only [unfolding, Matrix.of_apply, M, Matrix.submatrix_apply, id]
      congr 1
      funext s
      simp only [glue]
      split
      · rfl
      · congr 1; exact Fin.ext (by simp; omega)
    rw [h]
    refine (Matrix.rank_submatrix_le _ _ _).trans ((Matrix.rank_le_card_width _).trans (by simp))

/-- C92: with bond dimension `d ^ (n / 2)` every distribution can be represented, also by a model with real parameters. -/
theorem C92_universal [RCLike K] (n d D : ℕ) (hD : d ^ (n / 2) ≤ D) (hD1 : 1 ≤ D) (p : (Fin n → Fin d) → ℝ) (h0 : ∀ x, 0 ≤ p x) (hp : ∑ x, p x = 1) :
    ∃ m : ProbMPS K, ValidModel m n d D ∧ m.uniform = false ∧ m.embedding = none ∧ m.bias = none ∧ ∀ slim par x, probSeq m slim par x = p x := by
  refine (C92_exactly n d D hD1 p hp).2 ⟨fun x => ((Real.sqrt (p x) : ℝ) : K), fun x => ?_, fun t ht htn => ?_⟩
  · rw [RCLike.norm_ofReal, sq_abs, Real.sq_sqrt (h0 x)]
  · obtain ⟨h1, h2⟩ := unfolding_rank_le n d (fun x => ((Real.sqrt (p x) : ℝ) : K)) t htn.le
    rcases Nat.eq_zero_or_pos d with rfl | hd
    · rw [Nat.zero_pow ht] at h1; omega
    · by_cases hh : t ≤ n / 2
      · exact h1.trans ((Nat.pow_le_pow_right hd hh).trans hD)
      · exact h2.trans ((Nat.pow_le_pow_right hd (by omega)).trans hD)

/-- C92: when the represented distribution is positive, `forward` gives exactly its logarithm, for every batch and evaluation strategy. -/
theorem C92_forward [RCLike K] (m : ProbMPS K) (n d D : ℕ) (hm : ValidModel m n d D) (he : m.embedding = none) (slim par : Bool) (hslim : slim = true → m.bias = none)
    (p : (Fin n → Fin d) → ℝ) (h0 : ∀ x, 0 < p x) (hp : ∑ x, p x = 1) (h : ∀ x, probSeq m slim par x = p x) (B : ℕ) (hB : 0 < n ∨ B = 1) (x : Fin B → Fin n → Fin d) (t : Tensor ℤ) (ht : t.shape = [B, n])
    (hx : ∀ b : Fin B, ∀ s : Fin n, t.get [b.val, s.val] = (x b s : ℤ)) :
    ∃ out, (m.forward (.ints t) slim par).1 = .ok out ∧ out.shape = [B] ∧ ∀ b : Fin B, out.get [b.val] = some ((Real.log (p (x b)) : ℝ) : EReal) := by
  have hv : ValidInput (.ints t : SeqInput K) B n d := ⟨ht, fun b hb s hs => by
    have := hx ⟨b, hb⟩ ⟨s, hs⟩
    simp only at this
    rw [this]
    have := (x ⟨b, hb⟩ ⟨s, hs⟩).2
    omega⟩
  have hrow : ∀ b (hb : b < B), psi m (.ints t) n d D b = psiSeq m n d D (x ⟨b, hb⟩) := by
    intro b hb
    rw [psi_ints m n d D b t (fun s hs => hv.2 b hb s hs)]
    congr 1
    funext s
    refine Fin.ext ?_
    have := hx ⟨b, hb⟩ s
    simp only at this
    simp [rowSeq, this]
  have hZ : modelZ m n d D ≠ 0 := by
    refine modelZ_of_prob m n d D hm he slim par hslim ?_
    by_contra hn
    push Not at hn
    have : ∑ x, p x = 0 := Finset.sum_eq_zero fun x _ => by rw [← h x, hn x]
    rw [hp] at this
    exact one_ne_zero this
  obtain ⟨out, h1, h2, h3⟩ := C21_born_rule m n d D hm he (.ints t) B hv slim par (fun hh => ⟨hslim hh, hB⟩) hZ (fun b hb => by
    rw [hrow b hb]
    intro h0'
    have h5 := h (x ⟨b, hb⟩)
    rw [probSeq_eq m n d D hm he slim par hslim hZ, h0'] at h5
    have := h0 (x ⟨b, hb⟩)
    simp at h5
    linarith)
  refine ⟨out, h1, h2, fun b => ?_⟩
  rw [h3 b b.2, hrow b b.2, ← h (x b), probSeq_eq m n d D hm he slim par hslim hZ]

/-- C92: a model which gives a positive probability exactly to the sequences of length `2 k` whose second half repeats the first one needs a bond dimension of at least `d ^ k`. -/
theorem C92_needs [RCLike K] (m : ProbMPS K) (k d D : ℕ) (hm : ValidModel m (k + k) d D) (he : m.embedding = none) (slim par : Bool) (hslim : slim = true → m.bias = none)
    (hd : 0 < d) (h : ∀ x : Fin (k + k) → Fin d, probSeq m slim par x ≠ 0 ↔ ∀ i : Fin k, x (Fin.castAdd k i) = x (Fin.natAdd k i)) : d ^ k ≤ D := by
  classical
  let dbl : (Fin k → Fin d) → (Fin (k + k) → Fin d) := fun w => Fin.append w w
  have hd1 : ∀ w i, dbl w (Fin.castAdd k i) = w i := fun w i => Fin.append_left w w i
  have hd2 : ∀ w i, dbl w (Fin.natAdd k i) = w i := fun w i => Fin.append_right w w i
  obtain ⟨Ψ, h1, h2⟩ := C92_rank_bound m (k + k) d D hm he slim par hslim ⟨dbl (fun _ => ⟨0, hd⟩), (h _).2 fun i => by rw [hd1, hd2]⟩
  have hz : ∀ x, Ψ x ≠ 0 ↔ ∀ i : Fin k, x (Fin.castAdd k i) = x (Fin.natAdd k i) := by
    intro x
    rw [← h x, ← h1 x]
    simp
  have hg : ∀ w w', Ψ (glue (β := fun _ => Fin d) k (dbl w) (dbl w')) ≠ 0 ↔ w = w' := by
    intro w w'
    rw [hz]
    constructor
    · intro hh
      funext i
      have := hh i
      simp only [glue, Fin.val_castAdd, i.2, if_true, Fin.val_natAdd] at this
      rw [if_neg (by omega), hd1, hd2] at this
      exact this
    · rintro rfl i
      simp only [glue, Fin.val_castAdd, i.2, if_true, Fin.val_natAdd]
      rw [if_neg (by omega), hd1, hd2]
  have hsub : (unfolding (β := fun _ => Fin d) Ψ k).submatrix dbl dbl = Matrix.diagonal (fun w => Ψ (glue (β := fun _ => Fin d) k (dbl w) (dbl w))) := by
    ext w w'
    rw [Matrix.submatrix_apply, Matrix.diagonal_apply]
    split
    · rename_i e; subst e; rfl
    · rename_i e
      by_contra hne
      exact e ((hg w w').1 hne)
  have h3 := Matrix.rank_submatrix_le (unfolding (β := fun _ => Fin d) Ψ k) dbl dbl
  rw [hsub, Matrix.rank_diagonal] at h3
  have h4 : Fintype.card {w : Fin k → Fin d // Ψ (glue (β := fun _ => Fin d) k (dbl w) (dbl w)) ≠ 0} = d ^ k := by
    rw [Fintype.card_subtype, Finset.filter_true_of_mem (fun w _ => (hg w w).2 rfl)]
    simp
  rw [h4] at h3
  exact h3.trans (h2 k)

/-- the uniform distribution on the two sequences of two equal bits -/
noncomputable def bellDist : (Fin 2 → Fin 2) → ℝ := fun x => if x 0 = x 1 then 1 / 2 else 0

theorem bellDist_sum : ∑ x, bellDist x = 1 := by
  rw [← (finTwoArrowEquiv (Fin 2)).symm.sum_comp]
  rw [Fintype.sum_prod_type]
  simp [bellDist, Fin.sum_univ_two, finTwoArrowEquiv]

/-- C92, a concrete case: two equal random bits need bond dimension 2, which suffices. -/
example : (∃ m : ProbMPS ℝ, ValidModel m 2 2 2 ∧ m.uniform = false ∧ m.embedding = none ∧ m.bias = none ∧ ∀ slim par x, probSeq m slim par x = bellDist x) ∧
    ¬ ∃ m : ProbMPS ℂ, ValidModel m 2 2 1 ∧ m.embedding = none ∧ m.bias = none ∧ ∀ slim par x, probSeq m slim par x = bellDist x := by
  refine ⟨C92_universal 2 2 2 (by norm_num) (by norm_num) bellDist (fun x => ?_) bellDist_sum, ?_⟩
  · unfold bellDist; split <;> norm_num
  · rintro ⟨m, hm, he, hb, h⟩
    have := C92_needs m 1 2 1 hm he false false (fun _ => hb) (by norm_num) (fun x => by
      rw [h false false x]
      constructor
      · intro hh i
        fin_cases i
        by_contra hc
        exact hh (if_neg hc)
      · intro hh
        have h0 : x 0 = x 1 := hh 0
        simp [bellDist, h0])
    norm_num at this

end TorchMPS
