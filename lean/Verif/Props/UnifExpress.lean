import Verif.Lemmas.Hankel
import Verif.Props.Expressive
/-
C100: what a uniform probabilistic MPS of a given bond dimension can represent, for all sequence lengths at once.
-/
namespace TorchMPS
open Spec Matrix
variable {K : Type}

/-- the matrix of a symbol of a uniform model -/
def unifMat [RCLike K] (m : ProbMPS K) (d D : ℕ) (a : Fin d) : Matrix (Fin D) (Fin D) K := coreMat m.core D 0 a + biasMat m D

theorem unif_psi [RCLike K] (m : ProbMPS K) (n d D : ℕ) (hm : ValidModel m n d D) (hu : m.uniform = true) (x : Fin n → Fin d) :
    psiSeq m n d D x = wordVal (O := Unit) (boundVec m.edge D 0) (unifMat m d D) (fun _ => boundVec m.edge D 1) (List.ofFn x) () := by
  have hc : m.core.shape = [d, D, D] := by rw [hm.core, hu]; rfl
  rw [psiSeq, amplitude, wordVal, ← Matrix.dotProduct_mulVec, List.map_ofFn]
  congr 4
  funext s
  simp only [Function.comp, unifMat]
  congr 1
  ext i j
  simp [coreMat, hc]

/-- C100: a uniform model (with or without bias) determines one function of words whose Hankel matrix has rank at most bond_dim, and its probabilities for every length at which it gives some sequence a
positive probability are the squared moduli of its values, normalised. -/
theorem C100_rank_bound [RCLike K] (m : ProbMPS K) (d D : ℕ) (hm : ∀ n, ValidModel m n d D) (hu : m.uniform = true) (he : m.embedding = none) :
    ∃ Ψ : List (Fin d) → K, HankelLe (fun w (_ : Unit) => Ψ w) D ∧
      ∀ (n : ℕ) (slim par : Bool), (slim = true → m.bias = none) → (∃ x : Fin n → Fin d, probSeq m slim par x ≠ 0) →
        wordMass Ψ n ≠ 0 ∧ ∀ x : Fin n → Fin d, probSeq m slim par x = ‖Ψ (List.ofFn x)‖ ^ 2 / wordMass Ψ n := by
  refine ⟨fun w => wordVal (O := Unit) (boundVec m.edge D 0) (unifMat m d D) (fun _ => boundVec m.edge D 1) w (), hankel_le (boundVec m.edge D 0) (unifMat m d D) (fun _ => boundVec m.edge D 1), ?_⟩
  intro n slim par hs hp
  have hZ := modelZ_of_prob m n d D (hm n) he slim par hs hp
  have hM : wordMass (fun w => wordVal (O := Unit) (boundVec m.edge D 0) (unifMat m d D) (fun _ => boundVec m.edge D 1) w ()) n = modelZ m n d D := by
    unfold wordMass modelZ
    exact Finset.sum_congr rfl fun x _ => by rw [unif_psi m n d D (hm n) hu]
  refine ⟨by rw [hM]; exact hZ, fun x => ?_⟩
  rw [probSeq_eq m n d D (hm n) he slim par hs hZ, hM, unif_psi m n d D (hm n) hu]

/-- the uniform model with given matrices and boundary vectors -/
def unifOf [Zero K] {d D : ℕ} (T : Fin d → Matrix (Fin D) (Fin D) K) (l r : Fin D → K) : ProbMPS K :=
  ⟨true, ⟨[d, D, D], fun idx => match idx with
    | [k, i, j] => if h : k < d ∧ i < D ∧ j < D then T ⟨k, h.1⟩ ⟨i, h.2.1⟩ ⟨j, h.2.2⟩ else 0
    | _ => 0⟩, edgeOf l r, none, none⟩

theorem unifOf_valid [Zero K] {d D : ℕ} (hD : 1 ≤ D) (T : Fin d → Matrix (Fin D) (Fin D) K) (l r : Fin D → K) (n : ℕ) : ValidModel (unifOf T l r) n d D :=
  ⟨by simp [unifOf], by simp [unifOf, edgeOf], by simp [unifOf], by omega⟩

theorem unifOf_psi [RCLike K] {d D : ℕ} (hD : 1 ≤ D) (T : Fin d → Matrix (Fin D) (Fin D) K) (l r : Fin D → K) (n : ℕ) (x : Fin n → Fin d) :
    psiSeq (unifOf T l r) n d D x = wordVal (O := Unit) l T (fun _ => r) (List.ofFn x) () := by
  rw [unif_psi _ n d D (unifOf_valid hD T l r n) rfl]
  have h1 : unifMat (unifOf T l r) d D = T := by
    funext a
    ext i j
    simp [unifMat, coreMat, biasMat, unifOf]
  have h2 : boundVec (unifOf T l r).edge D 0 = l := by
    funext j; simp [boundVec, unifOf, edgeOf]
  have h3 : boundVec (unifOf T l r).edge D 1 = r := by
    funext j; simp [boundVec, unifOf, edgeOf]
  rw [h1, h2, h3]

/-- C100: a family of distributions, one for each length `n ≥ 1`, is given by a uniform model of bond dimension `D` if and only if it consists of the normalised squared moduli of the values of a function
of words whose Hankel matrix has rank at most `D`. -/
theorem C100_exactly [RCLike K] (d D : ℕ) (hD : 1 ≤ D) (p : List (Fin d) → ℝ) (hp : ∀ n, 1 ≤ n → ∑ x : Fin n → Fin d, p (List.ofFn x) = 1) :
    (∃ m : ProbMPS K, (∀ n, ValidModel m n d D) ∧ m.uniform = true ∧ m.embedding = none ∧ m.bias = none ∧
      ∀ n, 1 ≤ n → ∀ slim par (x : Fin n → Fin d), probSeq m slim par x = p (List.ofFn x)) ↔
    ∃ Ψ : List (Fin d) → K, HankelLe (fun w (_ : Unit) => Ψ w) D ∧ ∀ n, 1 ≤ n → ∀ x : Fin n → Fin d, p (List.ofFn x) = ‖Ψ (List.ofFn x)‖ ^ 2 / wordMass Ψ n := by
  constructor
  · rintro ⟨m, hm, hu, he, hb, h⟩
    obtain ⟨Ψ, h1, h2⟩ := C100_rank_bound m d D hm hu he
    refine ⟨Ψ, h1, fun n hn x => ?_⟩
    have hne : ∃ x : Fin n → Fin d, probSeq m true true x ≠ 0 := by
      by_contra hc
      push Not at hc
      have : ∑ x : Fin n → Fin d, p (List.ofFn x) = 0 := Finset.sum_eq_zero fun x _ => by rw [← h n hn true true x, hc x]
      rw [hp n hn] at this
      exact one_ne_zero this
    rw [← h n hn true true x]
    exact (h2 n true true (fun _ => hb) hne).2 x
  · rintro ⟨Ψ, h1, h2⟩
    obtain ⟨α, T, Ω, hc⟩ := hankel_realize _ h1
    refine ⟨unifOf T α (Ω ()), unifOf_valid hD T α (Ω ()), rfl, rfl, rfl, ?_⟩
    intro n hn slim par x
    have hψ : ∀ x : Fin n → Fin d, psiSeq (unifOf T α (Ω ())) n d D x = Ψ (List.ofFn x) := fun x => by
      rw [unifOf_psi hD, ← hc (List.ofFn x) ()]
    have hM : modelZ (unifOf T α (Ω ())) n d D = wordMass Ψ n := Finset.sum_congr rfl fun x _ => by rw [hψ]
    have hZ : wordMass Ψ n ≠ 0 := by
      intro h0
      have : ∑ x : Fin n → Fin d, p (List.ofFn x) = 0 := Finset.sum_eq_zero fun x _ => by rw [h2 n hn x, h0, div_zero]
      rw [hp n hn] at this
      exact one_ne_zero this
    rw [probSeq_eq _ n d D (unifOf_valid hD T α (Ω ()) n) rfl slim par (fun _ => rfl) (by rw [hM]; exact hZ), hM, hψ, h2 n hn x]

/-- C100: no uniform model, of whatever bond dimension, gives a positive probability exactly to the palindromes. (For a single length `n` it is possible, by C92.) -/
theorem C100_palindromes [RCLike K] (m : ProbMPS K) (d D : ℕ) (hd : 2 ≤ d) (hm : ∀ n, ValidModel m n d D) (hu : m.uniform = true) (he : m.embedding = none) (slim par : Bool)
    (hs : slim = true → m.bias = none) : ¬ ∀ n, 1 ≤ n → ∀ x : Fin n → Fin d, probSeq m slim par x ≠ 0 ↔ (List.ofFn x).reverse = List.ofFn x := by
  classical
  intro hpal
  obtain ⟨Ψ, h1, h2⟩ := C100_rank_bound m d D hm hu he
  have hne : ∀ n, 1 ≤ n → ∃ x : Fin n → Fin d, probSeq m slim par x ≠ 0 := by
    intro n hn
    refine ⟨fun _ => ⟨0, by omega⟩, (hpal n hn _).2 ?_⟩
    rw [List.ofFn_const, List.reverse_replicate]
  have hΨ : ∀ w : List (Fin d), w ≠ [] → (Ψ w ≠ 0 ↔ w.reverse = w) := by
    intro w hw
    have hl : 1 ≤ w.length := List.length_pos_iff.2 hw
    obtain ⟨h3, h4⟩ := h2 w.length slim par hs (hne _ hl)
    have h5 := hpal w.length hl w.get
    rw [h4, List.ofFn_get] at h5
    rw [← h5]
    simp [h3]
  have hb := hankel_block (fun w (_ : Unit) => Ψ w) h1 (R := Fin (D + 1) → Fin d) (C := Fin (D + 1) → Fin d) (fun u => List.ofFn u) (fun u => ((List.ofFn u).reverse, ()))
  have hdiag : (Matrix.of fun i j : Fin (D + 1) → Fin d => Ψ (List.ofFn i ++ (List.ofFn j).reverse)) = Matrix.diagonal (fun u => Ψ (List.ofFn u ++ (List.ofFn u).reverse)) := by
    ext i j
    rw [Matrix.of_apply, Matrix.diagonal_apply]
    split
    · rename_i e; subst e; rfl
    · rename_i e
      by_contra hc
      refine e ?_
      have := (hΨ _ (by
        intro h0
        have := congrArg List.length h0
        simp at this)).1 hc
      rw [List.reverse_append, List.reverse_reverse] at this
      exact (List.ofFn_injective (List.append_inj this (by simp)).1).symm
  have hb' : (Matrix.of fun i j : Fin (D + 1) → Fin d => Ψ (List.ofFn i ++ (List.ofFn j).reverse)).rank ≤ D := hb
  rw [hdiag, Matrix.rank_diagonal, Fintype.card_subtype, Finset.filter_true_of_mem (fun u _ => (hΨ _ (by
        intro h0
        have := congrArg List.length h0
        simp at this)).2 (by simp))] at hb'
  simp only [Finset.card_univ, Fintype.card_pi, Fintype.card_fin, Finset.prod_const] at hb'
  have h3 : 2 ^ (D + 1) ≤ d ^ (D + 1) := Nat.pow_le_pow_left hd _
  have h4 : D + 1 < 2 ^ (D + 1) := Nat.lt_two_pow_self
  omega

/-- 1 for words with an even number of ones, else 0 -/
def evenOnes (w : List (Fin 2)) : ℝ := if w.count 1 % 2 = 0 then 1 else 0

theorem evenOnes_hankel : HankelLe (fun (w : List (Fin 2)) (_ : Unit) => evenOnes w) 2 := by
  refine (hankel_iff _).1 ⟨![1, 0], fun a => if a = 1 then !![0, 1; 1, 0] else !![1, 0; 0, 1], fun _ => ![1, 0], fun w o => ?_⟩
  have hprod : ∀ w : List (Fin 2), (w.map (fun a => (if a = 1 then !![0, 1; 1, 0] else !![1, 0; 0, 1] : Matrix (Fin 2) (Fin 2) ℝ))).prod =
      if w.count 1 % 2 = 0 then !![1, 0; 0, 1] else !![0, 1; 1, 0] := by
    intro w
    induction w with
    | nil => ext i j; fin_cases i <;> fin_cases j <;> simp
    | cons a w ih =>
      rw [List.map_cons, List.prod_cons, ih]
      obtain rfl | rfl : a = 0 ∨ a = 1 := by fin_cases a <;> simp
      · rw [List.count_cons_of_ne (by decide), if_neg (by decide)]
        have h1 : (!![1, 0; 0, 1] : Matrix (Fin 2) (Fin 2) ℝ) = 1 := Matrix.one_fin_two.symm
        simp only [h1, one_mul]
      · rw [List.count_cons_self, if_pos rfl]
        by_cases hh : List.count 1 w % 2 = 0
        · have h2 : ¬ (List.count 1 w + 1) % 2 = 0 := by omega
          rw [if_pos hh, if_neg h2]
          simp [Matrix.mul_fin_two]
        · have h2 : (List.count 1 w + 1) % 2 = 0 := by omega
          rw [if_neg hh, if_pos h2]
          simp [Matrix.mul_fin_two]
  rw [wordVal, hprod, evenOnes]
  split <;> simp [Matrix.vecMul, dotProduct, Fin.sum_univ_two]

theorem evenOnes_mass (n : ℕ) : wordMass evenOnes n ≠ 0 := by
  refine ne_of_gt (Finset.sum_pos' (fun x _ => sq_nonneg _) ⟨fun _ => 0, Finset.mem_univ _, ?_⟩)
  rw [List.ofFn_const, evenOnes, if_pos (by rw [List.count_replicate]; rfl)]
  norm_num

/-- C100, a concrete case: a uniform model of bond dimension 2 which, for every length, gives the same positive probability to all sequences with an even number of ones and none to the others -/
example : ∃ m : ProbMPS ℝ, (∀ n, ValidModel m n 2 2) ∧ m.uniform = true ∧ m.embedding = none ∧ m.bias = none ∧
    ∀ n, 1 ≤ n → ∀ slim par (x : Fin n → Fin 2), probSeq m slim par x = (if (List.ofFn x).count 1 % 2 = 0 then 1 else 0) / wordMass evenOnes n := by
  obtain ⟨m, h1, h2, h3, h4, h5⟩ := (C100_exactly (K := ℝ) 2 2 (by norm_num) (fun w => ‖evenOnes w‖ ^ 2 / wordMass evenOnes w.length) (fun n _ => by
    simp only [List.length_ofFn]
    rw [← Finset.sum_div]
    exact div_self (evenOnes_mass n))).2 ⟨evenOnes, evenOnes_hankel, fun n _ x => by simp only [List.length_ofFn]⟩
  refine ⟨m, h1, h2, h3, h4, fun n hn slim par x => ?_⟩
  rw [h5 n hn slim par x]
  simp only [List.length_ofFn, evenOnes]
  split <;> simp

end TorchMPS
