import Verif.Props.TiExpress
import Verif.Props.UnifExpress
/-
C115: the functions of words which translation-invariant models represent are closed under linear combinations, products, reversal, contexts and substitution of words for symbols.
-/
namespace TorchMPS
open Spec Matrix
variable {K : Type}

/-- a function of words which factors through an index type has a Hankel matrix of at most that rank -/
theorem hankel_of_factor [Field K] {A O ι : Type} [Fintype ι] (c : List A → O → K) (D : ℕ) (hD : Fintype.card ι = D) (f : List A → ι → K) (g : List A → O → ι → K)
    (h : ∀ u v o, c (u ++ v) o = ∑ i, f u i * g v o i) : HankelLe c D := by
  unfold HankelLe
  set W : ι → (List A × O → K) := fun l v => g v.1 v.2 l with hW
  have hsub : Submodule.span K (Set.range (hankelRow c)) ≤ Submodule.span K (Set.range W) := by
    rw [Submodule.span_le]
    rintro _ ⟨u, rfl⟩
    have : hankelRow c u = ∑ l, f u l • W l := by
      funext v
      rw [hankelRow, h, Finset.sum_apply]
      rfl
    rw [this]
    exact Submodule.sum_mem _ (fun l _ => Submodule.smul_mem _ _ (Submodule.subset_span ⟨l, rfl⟩))
  refine (Submodule.rank_mono hsub).trans ((rank_span_le _).trans ?_)
  refine Cardinal.mk_range_le.trans ?_
  rw [Cardinal.mk_fintype, hD]

theorem hankel_factor [Field K] {A O : Type} {D : ℕ} (c : List A → O → K) (h : HankelLe c D) :
    ∃ (f : List A → Fin D → K) (g : List A → O → Fin D → K), ∀ u v o, c (u ++ v) o = ∑ i, f u i * g v o i := by
  obtain ⟨α, T, Ω, hw⟩ := hankel_realize c h
  exact ⟨fun u => α ᵥ* (u.map T).prod, fun v o => (v.map T).prod *ᵥ Ω o, fun u v o => by rw [← hw (u ++ v) o, wordVal_append]; rfl⟩

theorem hankel_comb [Field K] {A O O₁ O₂ : Type} [Fintype O₁] [Fintype O₂] {D₁ D₂ : ℕ} (c₁ : List A → O₁ → K) (c₂ : List A → O₂ → K) (h₁ : HankelLe c₁ D₁) (h₂ : HankelLe c₂ D₂)
    (X : O → O₁ → K) (Y : O → O₂ → K) : HankelLe (fun w o => ∑ p, X o p * c₁ w p + ∑ q, Y o q * c₂ w q) (D₁ + D₂) := by
  obtain ⟨f, g, h⟩ := hankel_factor c₁ h₁
  obtain ⟨f', g', h'⟩ := hankel_factor c₂ h₂
  refine hankel_of_factor (ι := Fin D₁ ⊕ Fin D₂) _ _ (by simp) (fun u => Sum.elim (f u) (f' u)) (fun v o => Sum.elim (fun i => ∑ p, X o p * g v p i) (fun i => ∑ q, Y o q * g' v q i)) (fun u v o => ?_)
  rw [Fintype.sum_sum_type]
  simp only [Sum.elim_inl, Sum.elim_inr, h, h', Finset.mul_sum]
  congr 1
  · rw [Finset.sum_comm]
    exact Finset.sum_congr rfl fun _ _ => Finset.sum_congr rfl fun _ _ => by ring
  · rw [Finset.sum_comm]
    exact Finset.sum_congr rfl fun _ _ => Finset.sum_congr rfl fun _ _ => by ring

theorem hankel_prod [Field K] {A O O₁ O₂ : Type} [Fintype O₁] [Fintype O₂] {D₁ D₂ : ℕ} (c₁ : List A → O₁ → K) (c₂ : List A → O₂ → K) (h₁ : HankelLe c₁ D₁) (h₂ : HankelLe c₂ D₂)
    (X : O → O₁ → O₂ → K) : HankelLe (fun w o => ∑ p, ∑ q, X o p q * (c₁ w p * c₂ w q)) (D₁ * D₂) := by
  obtain ⟨f, g, h⟩ := hankel_factor c₁ h₁
  obtain ⟨f', g', h'⟩ := hankel_factor c₂ h₂
  refine hankel_of_factor (ι := Fin D₁ × Fin D₂) _ _ (by simp) (fun u i => f u i.1 * f' u i.2) (fun v o i => ∑ p, ∑ q, X o p q * (g v p i.1 * g' v q i.2)) (fun u v o => ?_)
  simp only [h, h', Finset.mul_sum]
  rw [Finset.sum_comm]
  have : ∀ p q, X o p q * ((∑ i, f u i * g v p i) * ∑ j, f' u j * g' v q j) = ∑ i : Fin D₁ × Fin D₂, f u i.1 * f' u i.2 * (X o p q * (g v p i.1 * g' v q i.2)) := by
    intro p q
    rw [Finset.sum_mul_sum, Finset.mul_sum, Fintype.sum_prod_type]
    exact Finset.sum_congr rfl fun _ _ => by
      rw [Finset.mul_sum]
      exact Finset.sum_congr rfl fun _ _ => by ring
  simp only [← Finset.mul_sum, this]
  rw [Finset.sum_comm]
  rw [Finset.sum_congr rfl fun p _ => Finset.sum_comm, Finset.sum_comm]
  refine Finset.sum_congr rfl fun i _ => ?_
  simp only [Finset.mul_sum]

theorem hankel_reverse [Field K] {A O : Type} [Unique O] {D : ℕ} (c : List A → O → K) (h : HankelLe c D) : HankelLe (fun w o => c w.reverse o) D := by
  obtain ⟨f, g, h⟩ := hankel_factor c h
  refine hankel_of_factor _ _ (Fintype.card_fin D) (fun u i => g u.reverse default i) (fun v _ i => f v.reverse i) (fun u v o => ?_)
  rw [List.reverse_append, h, Unique.eq_default o]
  exact Finset.sum_congr rfl fun _ _ => mul_comm _ _

theorem hankel_subst [Field K] {A A' O : Type} {D : ℕ} (c : List A → O → K) (h : HankelLe c D) (l r : List A) (σ : A' → List A) :
    HankelLe (fun (w : List A') o => c (l ++ w.flatMap σ ++ r) o) D := by
  obtain ⟨f, g, h⟩ := hankel_factor c h
  refine hankel_of_factor _ _ (Fintype.card_fin D) (fun u => f (l ++ u.flatMap σ)) (fun v => g (v.flatMap σ ++ r)) (fun u v o => ?_)
  rw [← h]
  simp only [List.flatMap_append, List.append_assoc]

theorem hankel_pow [Field K] {A : Type} {D : ℕ} (c : List A → K) (h : HankelLe (fun w (_ : Unit) => c w) D) (k : ℕ) : HankelLe (fun w (_ : Unit) => c w ^ k) (D ^ k) := by
  induction k with
  | zero => exact hankel_of_factor (ι := Unit) _ _ (by simp) (fun _ _ => 1) (fun _ _ _ => 1) (fun u v o => by simp)
  | succ k ih =>
    have := hankel_prod (O := Unit) _ _ ih h (fun _ _ _ => 1)
    simpa [pow_succ] using this

/-- C115: linear combinations. From two TI_MPS (with any features and sizes) there is for every linear combination of their outputs a TI_MPS, with any kind of bias, any evaluation mode and any linearly
independent feature vectors, whose bond dimension is the sum of theirs and which returns it on all sequences of all lengths. -/
theorem C115_ti_combination [Field K] {M O O₁ O₂ : ℕ} (m₁ m₂ : TiMps K) (h₁ : IsTi m₁) (h₂ : IsTi m₂) (v₁ v₂ : Fin M → ℕ → K) (c₁ : List (Fin M) → Fin O₁ → K) (c₂ : List (Fin M) → Fin O₂ → K)
    (e₁ : m₁.outputDim = O₁) (e₂ : m₂.outputDim = O₂) (r₁ : TiReturns m₁ v₁ c₁) (r₂ : TiReturns m₂ v₂ c₂) (X : Fin O → Fin O₁ → K) (Y : Fin O → Fin O₂ → K)
    (F : ℕ) (v : Fin M → ℕ → K) (hv : LinearIndependent K (fun a (f : Fin F) => v a f)) (ub fb par : Bool) (φ : Option (K → Tensor K)) :
    ∃ m : TiMps K, IsTi m ∧ m.bondDim = m₁.bondDim + m₂.bondDim ∧ m.featureDim = F ∧ m.outputDim = O ∧ m.useBias = ub ∧ m.fixedBias = fb ∧ m.parallel = par ∧ m.featureMap = φ ∧
      TiReturns m v (fun w o => ∑ p, X o p * c₁ w p + ∑ q, Y o q * c₂ w q) := by
  subst e₁ e₂
  obtain ⟨⟨a, ha⟩, _⟩ := C99_rank_bound m₁ h₁ v₁ c₁ r₁
  obtain ⟨⟨b, hb⟩, _⟩ := C99_rank_bound m₂ h₂ v₂ c₂ r₂
  refine (C99_exactly _ F v hv ub fb par φ _).2 ⟨fun o => ∑ p, X o p * a p + ∑ q, Y o q * b q, ?_⟩
  have := hankel_comb (O := Fin O) _ _ ha hb X Y
  convert this using 3 with w o
  cases w <;> rfl

/-- C115: products. The same for bilinear expressions in the outputs of two models, with the product of the bond dimensions. -/
theorem C115_ti_product [Field K] {M O O₁ O₂ : ℕ} (m₁ m₂ : TiMps K) (h₁ : IsTi m₁) (h₂ : IsTi m₂) (v₁ v₂ : Fin M → ℕ → K) (c₁ : List (Fin M) → Fin O₁ → K) (c₂ : List (Fin M) → Fin O₂ → K)
    (e₁ : m₁.outputDim = O₁) (e₂ : m₂.outputDim = O₂) (r₁ : TiReturns m₁ v₁ c₁) (r₂ : TiReturns m₂ v₂ c₂) (X : Fin O → Fin O₁ → Fin O₂ → K)
    (F : ℕ) (v : Fin M → ℕ → K) (hv : LinearIndependent K (fun a (f : Fin F) => v a f)) (ub fb par : Bool) (φ : Option (K → Tensor K)) :
    ∃ m : TiMps K, IsTi m ∧ m.bondDim = m₁.bondDim * m₂.bondDim ∧ m.featureDim = F ∧ m.outputDim = O ∧ m.useBias = ub ∧ m.fixedBias = fb ∧ m.parallel = par ∧ m.featureMap = φ ∧
      TiReturns m v (fun w o => ∑ p, ∑ q, X o p q * (c₁ w p * c₂ w q)) := by
  subst e₁ e₂
  obtain ⟨⟨a, ha⟩, _⟩ := C99_rank_bound m₁ h₁ v₁ c₁ r₁
  obtain ⟨⟨b, hb⟩, _⟩ := C99_rank_bound m₂ h₂ v₂ c₂ r₂
  refine (C99_exactly _ F v hv ub fb par φ _).2 ⟨fun o => ∑ p, ∑ q, X o p q * (a p * b q), ?_⟩
  have := hankel_prod (O := Fin O) _ _ ha hb X
  convert this using 3 with w o
  cases w <;> rfl

theorem ti_hankel [Field K] {M O : ℕ} (m : TiMps K) (h : IsTi m) (v : Fin M → ℕ → K) (c : List (Fin M) → Fin O → K) (e : m.outputDim = O) (r : TiReturns m v c) : ∃ a, HankelLe (withEmpty c a) m.bondDim := by
  subst e
  exact (C99_rank_bound m h v c r).1

/-- C115: reversal. What a TI_MPS with one output returns on the reversed sequences is returned by a TI_MPS of the same bond dimension. -/
theorem C115_ti_reverse [Field K] {M : ℕ} (m₁ : TiMps K) (h₁ : IsTi m₁) (v₁ : Fin M → ℕ → K) (c₁ : List (Fin M) → Fin 1 → K) (e₁ : m₁.outputDim = 1) (r₁ : TiReturns m₁ v₁ c₁)
    (F : ℕ) (v : Fin M → ℕ → K) (hv : LinearIndependent K (fun a (f : Fin F) => v a f)) (ub fb par : Bool) (φ : Option (K → Tensor K)) :
    ∃ m : TiMps K, IsTi m ∧ m.bondDim = m₁.bondDim ∧ m.featureDim = F ∧ m.outputDim = 1 ∧ m.useBias = ub ∧ m.fixedBias = fb ∧ m.parallel = par ∧ m.featureMap = φ ∧
      TiReturns m v (fun w o => c₁ w.reverse o) := by
  obtain ⟨a, ha⟩ := ti_hankel m₁ h₁ v₁ c₁ e₁ r₁
  refine (C99_exactly _ F v hv ub fb par φ _).2 ⟨a, ?_⟩
  have he : withEmpty (fun w o => c₁ w.reverse o) a = fun w o => withEmpty c₁ a w.reverse o := by
   funext w o
   cases w with
   | nil => rfl
   | cons b w =>
    show c₁ (b :: w).reverse o = withEmpty c₁ a (b :: w).reverse o
    cases hr : (b :: w).reverse with
    | nil => simp at hr
    | cons => rfl
  rw [he]
  exact hankel_reverse _ ha

/-- C115: substitution and contexts. What a TI_MPS returns when every symbol is replaced by a word (in particular: renamed or repeated) and fixed words are put before and after the result is returned by
a TI_MPS of the same bond dimension which is given the sequence itself. -/
theorem C115_ti_substitution [Field K] {M M' O : ℕ} (m₁ : TiMps K) (h₁ : IsTi m₁) (v₁ : Fin M → ℕ → K) (c₁ : List (Fin M) → Fin O → K) (e₁ : m₁.outputDim = O) (r₁ : TiReturns m₁ v₁ c₁)
    (l r : List (Fin M)) (σ : Fin M' → List (Fin M)) (hσ : ∀ a, l ++ σ a ++ r ≠ [])
    (F : ℕ) (v : Fin M' → ℕ → K) (hv : LinearIndependent K (fun a (f : Fin F) => v a f)) (ub fb par : Bool) (φ : Option (K → Tensor K)) :
    ∃ m : TiMps K, IsTi m ∧ m.bondDim = m₁.bondDim ∧ m.featureDim = F ∧ m.outputDim = O ∧ m.useBias = ub ∧ m.fixedBias = fb ∧ m.parallel = par ∧ m.featureMap = φ ∧
      TiReturns m v (fun w o => c₁ (l ++ w.flatMap σ ++ r) o) := by
  obtain ⟨a, ha⟩ := ti_hankel m₁ h₁ v₁ c₁ e₁ r₁
  refine (C99_exactly _ F v hv ub fb par φ _).2 ⟨withEmpty c₁ a (l ++ [] ++ r), ?_⟩
  convert hankel_subst _ ha l r σ using 3 with w o
  cases w with
  | nil => rfl
  | cons b w =>
    show c₁ (l ++ (b :: w).flatMap σ ++ r) o = withEmpty c₁ a (l ++ (b :: w).flatMap σ ++ r) o
    cases hr : l ++ (b :: w).flatMap σ ++ r with
    | nil =>
      refine absurd ?_ (hσ b)
      simp only [List.flatMap_cons, List.append_eq_nil_iff] at hr ⊢
      exact ⟨⟨hr.1.1, hr.1.2.1⟩, hr.2⟩
    | cons => rfl

theorem unif_realize [RCLike K] (d D : ℕ) (hD : 1 ≤ D) (Ψ : List (Fin d) → K) (hΨ : HankelLe (fun w (_ : Unit) => Ψ w) D) (hn : ∀ n, 1 ≤ n → wordMass Ψ n ≠ 0) :
    ∃ m : ProbMPS K, (∀ n, ValidModel m n d D) ∧ m.uniform = true ∧ m.embedding = none ∧ m.bias = none ∧
      ∀ n, 1 ≤ n → ∀ slim par (x : Fin n → Fin d), probSeq m slim par x = ‖Ψ (List.ofFn x)‖ ^ 2 / wordMass Ψ n := by
  obtain ⟨m, h1, h2, h3, h4, h5⟩ := (C100_exactly (K := K) d D hD (fun w => ‖Ψ w‖ ^ 2 / wordMass Ψ w.length) (fun n h => by
    simp only [List.length_ofFn]
    rw [← Finset.sum_div]
    exact div_self (hn n h))).2 ⟨Ψ, hΨ, fun n _ x => by simp only [List.length_ofFn]⟩
  refine ⟨m, h1, h2, h3, h4, fun n h slim par x => ?_⟩
  rw [h5 n h slim par x]
  simp only [List.length_ofFn]

/-- the probability of one sequence with `slim_eval` off -/
theorem unif_word [RCLike K] (m : ProbMPS K) (d D : ℕ) (hm : ∀ n, ValidModel m n d D) (hu : m.uniform = true) (he : m.embedding = none) :
    ∃ Ψ : List (Fin d) → K, HankelLe (fun w (_ : Unit) => Ψ w) D ∧ ∀ n, (∃ x : Fin n → Fin d, probSeq m false true x ≠ 0) →
      wordMass Ψ n ≠ 0 ∧ ∀ x : Fin n → Fin d, probSeq m false true x = ‖Ψ (List.ofFn x)‖ ^ 2 / wordMass Ψ n := by
  obtain ⟨Ψ, h1, h2⟩ := C100_rank_bound m d D hm hu he
  exact ⟨Ψ, h1, fun n h => h2 n false true (by simp) h⟩

theorem mass_ne [RCLike K] {d n : ℕ} (Ψ : List (Fin d) → K) (x : Fin n → Fin d) (h : Ψ (List.ofFn x) ≠ 0) : wordMass Ψ n ≠ 0 := by
  intro h0
  have := (Finset.sum_eq_zero_iff_of_nonneg (fun (x : Fin n → Fin d) _ => sq_nonneg ‖Ψ (List.ofFn x)‖)).1 h0 x (Finset.mem_univ _)
  exact h (by simpa using this)

/-- C115: products of distributions. If two uniform models (with or without bias matrices) share a possible sequence of every length, the normalised product of their distributions is that of a uniform
model without bias matrices, with the product of the bond dimensions. -/
theorem C115_unif_product [RCLike K] (m₁ m₂ : ProbMPS K) (d D₁ D₂ : ℕ) (h₁ : ∀ n, ValidModel m₁ n d D₁) (h₂ : ∀ n, ValidModel m₂ n d D₂) (u₁ : m₁.uniform = true) (u₂ : m₂.uniform = true)
    (e₁ : m₁.embedding = none) (e₂ : m₂.embedding = none) (hD : 1 ≤ D₁ * D₂)
    (hc : ∀ n, 1 ≤ n → ∃ x : Fin n → Fin d, probSeq m₁ false true x ≠ 0 ∧ probSeq m₂ false true x ≠ 0) :
    ∃ m : ProbMPS K, (∀ n, ValidModel m n d (D₁ * D₂)) ∧ m.uniform = true ∧ m.embedding = none ∧ m.bias = none ∧
      ∀ n, 1 ≤ n → ∀ slim par (x : Fin n → Fin d), probSeq m slim par x =
        probSeq m₁ false true x * probSeq m₂ false true x / ∑ y : Fin n → Fin d, probSeq m₁ false true y * probSeq m₂ false true y := by
  obtain ⟨Ψ, a1, a2⟩ := unif_word m₁ d D₁ h₁ u₁ e₁
  obtain ⟨Φ, b1, b2⟩ := unif_word m₂ d D₂ h₂ u₂ e₂
  have hH : HankelLe (fun w (_ : Unit) => Ψ w * Φ w) (D₁ * D₂) := by
    have := hankel_prod (O := Unit) _ _ a1 b1 (fun _ _ _ => 1)
    simpa using this
  have hA : ∀ n, 1 ≤ n → wordMass Ψ n ≠ 0 ∧ ∀ x : Fin n → Fin d, probSeq m₁ false true x = ‖Ψ (List.ofFn x)‖ ^ 2 / wordMass Ψ n := fun n hn => a2 n (by
    obtain ⟨x, h, _⟩ := hc n hn
    exact ⟨x, h⟩)
  have hB : ∀ n, 1 ≤ n → wordMass Φ n ≠ 0 ∧ ∀ x : Fin n → Fin d, probSeq m₂ false true x = ‖Φ (List.ofFn x)‖ ^ 2 / wordMass Φ n := fun n hn => b2 n (by
    obtain ⟨x, _, h⟩ := hc n hn
    exact ⟨x, h⟩)
  obtain ⟨m, h1, h2, h3, h4, h5⟩ := unif_realize d (D₁ * D₂) hD _ hH (fun n hn => by
    obtain ⟨x, p, q⟩ := hc n hn
    rw [(hA n hn).2] at p
    rw [(hB n hn).2] at q
    refine mass_ne _ x (mul_ne_zero ?_ ?_)
    · intro h
      simp [h] at p
    · intro h
      simp [h] at q)
  refine ⟨m, h1, h2, h3, h4, fun n hn slim par x => ?_⟩
  have k1 := (hA n hn).1
  have k2 := (hB n hn).1
  rw [h5 n hn slim par x]
  simp only [(hA n hn).2, (hB n hn).2]
  have : ∀ y : Fin n → Fin d, ‖Ψ (List.ofFn y)‖ ^ 2 / wordMass Ψ n * (‖Φ (List.ofFn y)‖ ^ 2 / wordMass Φ n) = ‖Ψ (List.ofFn y) * Φ (List.ofFn y)‖ ^ 2 / (wordMass Ψ n * wordMass Φ n) := by
    intro y
    rw [norm_mul, mul_pow, div_mul_div_comm]
  simp only [this]
  rw [← Finset.sum_div, div_div_div_cancel_right₀ (mul_ne_zero k1 k2)]
  rfl

/-- C115: powers. The distribution proportional to the `k`-th power of that of a uniform model (sampling at temperature `1/k`) is that of a uniform model with bond dimension `D ^ k`. -/
theorem C115_unif_power [RCLike K] (m₁ : ProbMPS K) (d D : ℕ) (h₁ : ∀ n, ValidModel m₁ n d D) (u₁ : m₁.uniform = true) (e₁ : m₁.embedding = none) (hD : 1 ≤ D) (k : ℕ)
    (hc : ∀ n, 1 ≤ n → ∃ x : Fin n → Fin d, probSeq m₁ false true x ≠ 0) :
    ∃ m : ProbMPS K, (∀ n, ValidModel m n d (D ^ k)) ∧ m.uniform = true ∧ m.embedding = none ∧ m.bias = none ∧
      ∀ n, 1 ≤ n → ∀ slim par (x : Fin n → Fin d), probSeq m slim par x = probSeq m₁ false true x ^ k / ∑ y : Fin n → Fin d, probSeq m₁ false true y ^ k := by
  obtain ⟨Ψ, a1, a2⟩ := unif_word m₁ d D h₁ u₁ e₁
  obtain ⟨m, h1, h2, h3, h4, h5⟩ := unif_realize d (D ^ k) (Nat.one_le_pow _ _ hD) _ (hankel_pow Ψ a1 k) (fun n hn => by
    obtain ⟨x, p⟩ := hc n hn
    rw [(a2 n (hc n hn)).2] at p
    refine mass_ne _ x (pow_ne_zero _ ?_)
    intro h
    simp [h] at p)
  refine ⟨m, h1, h2, h3, h4, fun n hn slim par x => ?_⟩
  have k1 := (a2 n (hc n hn)).1
  rw [h5 n hn slim par x]
  simp only [(a2 n (hc n hn)).2, div_pow]
  rw [← Finset.sum_div, div_div_div_cancel_right₀ (pow_ne_zero _ k1)]
  simp only [wordMass, norm_pow, ← pow_mul, mul_comm 2 k]

theorem ofFn_reverse {α : Type} {n : ℕ} (x : Fin n → α) : (List.ofFn x).reverse = List.ofFn (fun i => x i.rev) := by
  refine List.ext_getElem (by simp) (fun i h1 h2 => ?_)
  simp only [List.length_reverse, List.length_ofFn] at h1
  rw [List.getElem_reverse, List.getElem_ofFn, List.getElem_ofFn]
  congr 1
  ext
  simp only [List.length_ofFn, Fin.val_rev]
  omega

theorem mass_reverse [RCLike K] {d : ℕ} (Ψ : List (Fin d) → K) (n : ℕ) : wordMass (fun w => Ψ w.reverse) n = wordMass Ψ n := by
  unfold wordMass
  simp only [ofFn_reverse]
  refine Fintype.sum_bijective (fun (x : Fin n → Fin d) i => x i.rev) ?_ _ _ (fun x => rfl)
  refine Function.Involutive.bijective (fun x => ?_)
  funext i
  simp only [Fin.rev_rev]

/-- C115: the reversed distribution is that of a uniform model of the same bond dimension without bias matrices. -/
theorem C115_unif_reverse [RCLike K] (m₁ : ProbMPS K) (d D : ℕ) (h₁ : ∀ n, ValidModel m₁ n d D) (u₁ : m₁.uniform = true) (e₁ : m₁.embedding = none) (hD : 1 ≤ D)
    (hc : ∀ n, 1 ≤ n → ∃ x : Fin n → Fin d, probSeq m₁ false true x ≠ 0) :
    ∃ m : ProbMPS K, (∀ n, ValidModel m n d D) ∧ m.uniform = true ∧ m.embedding = none ∧ m.bias = none ∧
      ∀ n, 1 ≤ n → ∀ slim par (x : Fin n → Fin d), probSeq m slim par x = probSeq m₁ false true (fun i => x i.rev) := by
  obtain ⟨Ψ, a1, a2⟩ := unif_word m₁ d D h₁ u₁ e₁
  obtain ⟨m, h1, h2, h3, h4, h5⟩ := unif_realize d D hD (fun w => Ψ w.reverse) (hankel_reverse (fun w (_ : Unit) => Ψ w) a1) (fun n hn => by
    rw [mass_reverse]
    exact (a2 n (hc n hn)).1)
  refine ⟨m, h1, h2, h3, h4, fun n hn slim par x => ?_⟩
  rw [h5 n hn slim par x, (a2 n (hc n hn)).2, mass_reverse, ofFn_reverse]

/-- the distribution proportional to the probability which a uniform model gives to the words `w ↦ T w` of length `t n` -/
theorem unif_restrict [RCLike K] (m₁ : ProbMPS K) (d d' D : ℕ) (h₁ : ∀ n, ValidModel m₁ n d D) (u₁ : m₁.uniform = true) (e₁ : m₁.embedding = none) (hD : 1 ≤ D)
    (l r : List (Fin d)) (σ : Fin d' → List (Fin d)) (t : ℕ → ℕ) (T : ∀ n, (Fin n → Fin d') → Fin (t n) → Fin d) (hT : ∀ n x, List.ofFn (T n x) = l ++ (List.ofFn x).flatMap σ ++ r)
    (hc : ∀ n, 1 ≤ n → ∃ x : Fin n → Fin d', probSeq m₁ false true (T n x) ≠ 0) :
    ∃ m : ProbMPS K, (∀ n, ValidModel m n d' D) ∧ m.uniform = true ∧ m.embedding = none ∧ m.bias = none ∧
      ∀ n, 1 ≤ n → ∀ slim par (x : Fin n → Fin d'), probSeq m slim par x = probSeq m₁ false true (T n x) / ∑ y : Fin n → Fin d', probSeq m₁ false true (T n y) := by
  obtain ⟨Ψ, a1, a2⟩ := unif_word m₁ d D h₁ u₁ e₁
  obtain ⟨m, h1, h2, h3, h4, h5⟩ := unif_realize d' D hD (fun w => Ψ (l ++ w.flatMap σ ++ r)) (hankel_subst (fun w (_ : Unit) => Ψ w) a1 l r σ) (fun n hn => by
    obtain ⟨x, p⟩ := hc n hn
    rw [(a2 (t n) ⟨_, p⟩).2, hT] at p
    refine mass_ne _ x ?_
    intro h
    rw [h] at p
    simp at p)
  refine ⟨m, h1, h2, h3, h4, fun n hn slim par x => ?_⟩
  obtain ⟨x0, p⟩ := hc n hn
  have k1 := (a2 (t n) ⟨_, p⟩).1
  rw [h5 n hn slim par x]
  simp only [(a2 (t n) ⟨_, p⟩).2, hT]
  rw [← Finset.sum_div, div_div_div_cancel_right₀ k1]
  rfl

/-- C115: conditioning on what comes before and after. The distribution of the middle part of a sequence of a uniform model, given its first `a` and its last `b` symbols (for every length of the middle
part), is that of a uniform model of the same bond dimension. -/
theorem C115_unif_context [RCLike K] (m₁ : ProbMPS K) (d D : ℕ) (h₁ : ∀ n, ValidModel m₁ n d D) (u₁ : m₁.uniform = true) (e₁ : m₁.embedding = none) (hD : 1 ≤ D) (a b : ℕ) (l : Fin a → Fin d) (r : Fin b → Fin d)
    (hc : ∀ n, 1 ≤ n → ∃ x : Fin n → Fin d, probSeq m₁ false true (Fin.append (Fin.append l x) r) ≠ 0) :
    ∃ m : ProbMPS K, (∀ n, ValidModel m n d D) ∧ m.uniform = true ∧ m.embedding = none ∧ m.bias = none ∧
      ∀ n, 1 ≤ n → ∀ slim par (x : Fin n → Fin d), probSeq m slim par x =
        probSeq m₁ false true (Fin.append (Fin.append l x) r) / ∑ y : Fin n → Fin d, probSeq m₁ false true (Fin.append (Fin.append l y) r) :=
  unif_restrict m₁ d d D h₁ u₁ e₁ hD (List.ofFn l) (List.ofFn r) (fun s => [s]) (fun n => a + n + b) (fun _ x => Fin.append (Fin.append l x) r) (fun n x => by
    rw [List.ofFn_fin_append, List.ofFn_fin_append, List.flatMap_singleton']) hc

/-- C115: blocks. The distribution of the sequences of blocks of `k` symbols, given that only the blocks `σ c` occur, is that of a uniform model of the same bond dimension over the alphabet of the blocks. -/
theorem C115_unif_blocks [RCLike K] (m₁ : ProbMPS K) (d d' D k : ℕ) (h₁ : ∀ n, ValidModel m₁ n d D) (u₁ : m₁.uniform = true) (e₁ : m₁.embedding = none) (hD : 1 ≤ D) (σ : Fin d' → Fin k → Fin d)
    (hc : ∀ n, 1 ≤ n → ∃ x : Fin n → Fin d', probSeq m₁ false true (fun i : Fin (n * k) => σ (x i.divNat) i.modNat) ≠ 0) :
    ∃ m : ProbMPS K, (∀ n, ValidModel m n d' D) ∧ m.uniform = true ∧ m.embedding = none ∧ m.bias = none ∧
      ∀ n, 1 ≤ n → ∀ slim par (x : Fin n → Fin d'), probSeq m slim par x =
        probSeq m₁ false true (fun i : Fin (n * k) => σ (x i.divNat) i.modNat) / ∑ y : Fin n → Fin d', probSeq m₁ false true (fun i : Fin (n * k) => σ (y i.divNat) i.modNat) :=
  unif_restrict m₁ d d' D h₁ u₁ e₁ hD [] [] (fun s => List.ofFn (σ s)) (fun n => n * k) (fun _ x => fun i => σ (x i.divNat) i.modNat) (fun n x => by
    rw [List.ofFn_mul, List.nil_append, List.append_nil, List.flatMap, List.map_ofFn]
    congr 2
    funext i
    simp only [Function.comp]
    congr 1
    funext j
    have h : (0 : ℕ) < k := j.pos
    congr 1
    · congr 1
      ext
      simp only [Fin.coe_divNat]
      rw [Nat.mul_comm, Nat.mul_add_div h, Nat.div_eq_of_lt j.2, Nat.add_zero]
    · ext
      simp only [Fin.coe_modNat]
      rw [Nat.mul_comm, Nat.mul_add_mod, Nat.mod_eq_of_lt j.2]) hc

/-- a product: the square of the number of ones of a sequence of zeros and ones is computed, for every length, with bond dimension 4 -/
example : ∃ m : TiMps ℝ, IsTi m ∧ m.bondDim = 4 ∧ m.featureMap = none ∧ TiReturns m (bitFeature (K := ℝ)) (fun (w : List (Fin 2)) (_ : Fin 1) => (onesIn w : ℝ) ^ 2) := by
  have he : withEmpty (fun (w : List (Fin 2)) (_ : Fin 1) => (onesIn w : ℝ)) (fun _ => 0) = fun (w : List (Fin 2)) (_ : Fin 1) => (onesIn w : ℝ) := by
    funext w o
    cases w with
    | nil => simp [withEmpty, onesIn]
    | cons a w => rfl
  obtain ⟨m, h1, h2, _, h4, _, _, _, _, h9⟩ := (C99_exactly 2 2 (bitFeature (K := ℝ)) bitFeature_independent true true false none _).2 ⟨fun _ => 0, by rw [he]; exact ones_hankel⟩
  obtain ⟨m', k1, k2, _, _, _, _, _, k8, k9⟩ := C115_ti_product (O := 1) m m h1 h1 _ _ _ _ h4 h4 h9 h9 (fun _ _ _ => 1) 2 (bitFeature (K := ℝ)) bitFeature_independent true true true none
  refine ⟨m', k1, by rw [k2, h2], k8, ?_⟩
  simpa [pow_two] using k9

/-- the hypotheses about uniform models are met by the model of the sequences with an even number of ones, and the theorems give models of bond dimensions 4 (the product with itself), 8 (the third power)
and 2 (the reversal) -/
example : ∃ m : ProbMPS ℝ, (∀ n, ValidModel m n 2 2) ∧ (∃ x : Fin 3 → Fin 2, probSeq m false true x = 0) ∧
    (∃ m' : ProbMPS ℝ, (∀ n, ValidModel m' n 2 4) ∧ ∀ n, 1 ≤ n → ∀ slim par (x : Fin n → Fin 2), probSeq m' slim par x = probSeq m false true x * probSeq m false true x / ∑ y : Fin n → Fin 2, probSeq m false true y * probSeq m false true y) ∧
    (∃ m' : ProbMPS ℝ, (∀ n, ValidModel m' n 2 8) ∧ ∀ n, 1 ≤ n → ∀ slim par (x : Fin n → Fin 2), probSeq m' slim par x = probSeq m false true x ^ 3 / ∑ y : Fin n → Fin 2, probSeq m false true y ^ 3) ∧
    (∃ m' : ProbMPS ℝ, (∀ n, ValidModel m' n 2 2) ∧ ∀ n, 1 ≤ n → ∀ slim par (x : Fin n → Fin 2), probSeq m' slim par x = probSeq m false true (fun i => x i.rev)) := by
  obtain ⟨m, h1, h2, h3, _, h5⟩ := unif_realize 2 2 (by norm_num) evenOnes evenOnes_hankel (fun n _ => evenOnes_mass n)
  have hpos : ∀ n, 1 ≤ n → ∃ x : Fin n → Fin 2, probSeq m false true x ≠ 0 := fun n hn => by
    refine ⟨fun _ => 0, ?_⟩
    rw [h5 n hn]
    refine div_ne_zero ?_ (evenOnes_mass n)
    simp [evenOnes, List.ofFn_const, List.count_replicate]
  refine ⟨m, h1, ⟨fun _ => 1, ?_⟩, ?_, ?_, ?_⟩
  · rw [h5 3 (by norm_num)]
    simp [evenOnes, List.ofFn_const, List.count_replicate]
  · obtain ⟨m', a, _, _, _, b⟩ := C115_unif_product m m 2 2 2 h1 h1 h2 h2 h3 h3 (by norm_num) (fun n hn => (hpos n hn).imp fun _ h => ⟨h, h⟩)
    exact ⟨m', a, b⟩
  · obtain ⟨m', a, _, _, _, b⟩ := C115_unif_power m 2 2 h1 h2 h3 (by norm_num) 3 hpos
    exact ⟨m', a, b⟩
  · obtain ⟨m', a, _, _, _, b⟩ := C115_unif_reverse m 2 2 h1 h2 h3 (by norm_num) hpos
    exact ⟨m', a, b⟩

/-- conditioning the same model on the first and last symbol being 1, and on the blocks 00 and 11 -/
example : ∃ m : ProbMPS ℝ, (∀ n, ValidModel m n 2 2) ∧
    (∃ m' : ProbMPS ℝ, (∀ n, ValidModel m' n 2 2) ∧ ∀ n, 1 ≤ n → ∀ slim par (x : Fin n → Fin 2), probSeq m' slim par x =
      probSeq m false true (Fin.append (Fin.append ![1] x) ![1]) / ∑ y : Fin n → Fin 2, probSeq m false true (Fin.append (Fin.append ![1] y) ![1])) ∧
    (∃ m' : ProbMPS ℝ, (∀ n, ValidModel m' n 2 2) ∧ ∀ n, 1 ≤ n → ∀ slim par (x : Fin n → Fin 2), probSeq m' slim par x =
      probSeq m false true (fun i : Fin (n * 2) => x i.divNat) / ∑ y : Fin n → Fin 2, probSeq m false true (fun i : Fin (n * 2) => y i.divNat)) := by
  obtain ⟨m, h1, h2, h3, _, h5⟩ := unif_realize 2 2 (by norm_num) evenOnes evenOnes_hankel (fun n _ => evenOnes_mass n)
  refine ⟨m, h1, ?_, ?_⟩
  · obtain ⟨m', a, _, _, _, b⟩ := C115_unif_context m 2 2 h1 h2 h3 (by norm_num) 1 1 ![1] ![1] (fun n hn => by
      refine ⟨fun _ => 0, ?_⟩
      rw [h5 _ (by omega), List.ofFn_fin_append, List.ofFn_fin_append]
      refine div_ne_zero ?_ (evenOnes_mass _)
      simp [evenOnes, List.ofFn_const, List.count_replicate, List.count_append])
    exact ⟨m', a, b⟩
  · obtain ⟨m', a, _, _, _, b⟩ := C115_unif_blocks m 2 2 2 2 h1 h2 h3 (by norm_num) (fun c _ => c) (fun n hn => by
      refine ⟨fun _ => 0, ?_⟩
      rw [h5 _ (by omega)]
      refine div_ne_zero ?_ (evenOnes_mass _)
      simp [evenOnes, List.ofFn_const, List.count_replicate])
    exact ⟨m', a, b⟩

end TorchMPS
