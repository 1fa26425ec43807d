import Verif.Spec.Entropy
import Verif.Props.Expressive
/-
C104: the loss of a probabilistic MPS is at least the entropy of the data, and is attained only by the distribution of the data.
-/
namespace TorchMPS
open Spec
variable {K : Type}

/-- one summand of Gibbs' inequality -/
theorem gibbs_term (q p : ℝ) (hq : 0 ≤ q) (hp : 0 ≤ p) (h : q ≠ 0 → p ≠ 0) : q - p ≤ q * Real.log (q / p) := by
  rcases hq.eq_or_lt with h0 | h0
  · rw [← h0]; simpa using hp
  · have hp' : 0 < p := lt_of_le_of_ne hp (Ne.symm (h h0.ne'))
    have h1 := Real.log_le_sub_one_of_pos (div_pos hp' h0)
    have h2 : Real.log (q / p) = - Real.log (p / q) := by rw [← Real.log_inv, inv_div]
    have h3 : q * (p / q) = p := by field_simp
    have h4 := mul_le_mul_of_nonneg_left h1 hq
    rw [h2]
    rw [mul_sub, h3, mul_one] at h4
    linarith

theorem gibbs_term_eq (q p : ℝ) (hq : 0 ≤ q) (hp : 0 ≤ p) (h : q ≠ 0 → p ≠ 0) (he : q * Real.log (q / p) = q - p) : p = q := by
  rcases hq.eq_or_lt with h0 | h0
  · rw [← h0] at he ⊢; simp at he; linarith
  · have hp' : 0 < p := lt_of_le_of_ne hp (Ne.symm (h h0.ne'))
    by_contra hne
    have hne' : p / q ≠ 1 := by
      intro h1
      rw [div_eq_one_iff_eq h0.ne'] at h1
      exact hne h1
    have h1 := Real.log_lt_sub_one_of_pos (div_pos hp' h0) hne'
    have h2 : Real.log (q / p) = - Real.log (p / q) := by rw [← Real.log_inv, inv_div]
    have h3 : q * (p / q) = p := by field_simp
    have h4 := mul_lt_mul_of_pos_left h1 h0
    rw [mul_sub, h3, mul_one] at h4
    rw [h2] at he
    linarith

/-- Gibbs' inequality -/
theorem relEntropy_nonneg {ι : Type} [Fintype ι] (q p : ι → ℝ) (hq : ∀ a, 0 ≤ q a) (hp : ∀ a, 0 ≤ p a) (h : ∀ a, q a ≠ 0 → p a ≠ 0) (h1 : ∑ a, q a = ∑ a, p a) :
    0 ≤ relEntropy q p := by
  have : ∑ a, (q a - p a) ≤ relEntropy q p := Finset.sum_le_sum (fun a _ => gibbs_term _ _ (hq a) (hp a) (h a))
  rw [Finset.sum_sub_distrib, h1, sub_self] at this
  exact this

theorem relEntropy_zero {ι : Type} [Fintype ι] (q p : ι → ℝ) (hq : ∀ a, 0 ≤ q a) (hp : ∀ a, 0 ≤ p a) (h : ∀ a, q a ≠ 0 → p a ≠ 0) (h1 : ∑ a, q a = ∑ a, p a)
    (h0 : relEntropy q p = 0) (a : ι) : p a = q a := by
  have h2 : ∑ a, (q a - p a) = ∑ a, q a * Real.log (q a / p a) := by
    rw [Finset.sum_sub_distrib, h1, sub_self]; exact h0.symm
  have := (Finset.sum_eq_sum_iff_of_le (fun a _ => gibbs_term _ _ (hq a) (hp a) (h a))).1 h2 a (Finset.mem_univ a)
  exact gibbs_term_eq _ _ (hq a) (hp a) (h a) this.symm

theorem relEntropy_split {ι : Type} [Fintype ι] (q p : ι → ℝ) (h : ∀ a, q a ≠ 0 → p a ≠ 0) : - ∑ a, q a * Real.log (p a) = entropy q + relEntropy q p := by
  unfold entropy relEntropy
  rw [← Finset.sum_neg_distrib, ← Finset.sum_neg_distrib, ← Finset.sum_add_distrib]
  refine Finset.sum_congr rfl (fun a _ => ?_)
  by_cases h0 : q a = 0
  · simp [h0]
  · rw [Real.log_div h0 (h a h0)]
    ring

theorem frequency_nonneg {ι : Type} [DecidableEq ι] {B : ℕ} (x : Fin B → ι) (a : ι) : 0 ≤ frequency x a := by
  unfold frequency; positivity

/-- a mean over samples is the mean over outcomes weighted by their frequencies -/
theorem mean_frequency {ι : Type} [Fintype ι] [DecidableEq ι] {B : ℕ} (x : Fin B → ι) (f : ι → ℝ) : (∑ b, f (x b)) / B = ∑ a, frequency x a * f a := by
  rw [← Finset.sum_fiberwise Finset.univ x (fun b => f (x b)), Finset.sum_div]
  refine Finset.sum_congr rfl (fun a _ => ?_)
  rw [Finset.sum_congr rfl (g := fun _ => f a) (fun b hb => by rw [(Finset.mem_filter.1 hb).2]), Finset.sum_const, nsmul_eq_mul, frequency]
  ring

theorem frequency_sum {ι : Type} [Fintype ι] [DecidableEq ι] {B : ℕ} (hB : B ≠ 0) (x : Fin B → ι) : ∑ a, frequency x a = 1 := by
  have := mean_frequency x (fun _ => 1)
  simp only [Finset.sum_const, Finset.card_univ, Fintype.card_fin, nsmul_eq_mul, mul_one] at this
  rw [← this, div_self (by exact_mod_cast hB)]

theorem frequency_ne_zero {ι : Type} [DecidableEq ι] {B : ℕ} (x : Fin B → ι) (a : ι) (h : frequency x a ≠ 0) : ∃ b, x b = a := by
  by_contra hn
  push Not at hn
  refine h ?_
  unfold frequency
  rw [Finset.filter_false_of_mem (fun b _ => hn b)]
  simp

theorem frequency_sample {ι : Type} [DecidableEq ι] {B : ℕ} (x : Fin B → ι) (b : Fin B) : 0 < frequency x (x b) := by
  unfold frequency
  have h1 : 0 < (Finset.univ.filter (fun b' => x b' = x b)).card := Finset.card_pos.2 ⟨b, by simp⟩
  have h2 : 0 < B := b.pos
  positivity

/-! ### the loss -/

theorem ereal_sum_coe {ι : Type} (s : Finset ι) (f : ι → ℝ) : ∑ b ∈ s, ((f b : ℝ) : EReal) = ((∑ b ∈ s, f b : ℝ) : EReal) := by
  classical
  induction s using Finset.induction_on with
  | empty => simp
  | insert a s ha ih => rw [Finset.sum_insert ha, Finset.sum_insert ha, ih, EReal.coe_add]

theorem ereal_sum_bot {ι : Type} (s : Finset ι) (f : ι → EReal) (a : ι) (ha : a ∈ s) (h : f a = ⊥) : ∑ b ∈ s, f b = ⊥ := by
  classical
  rw [← Finset.add_sum_erase s f ha, h, EReal.bot_add]

theorem valid_of_rows {n d B : ℕ} (x : Fin B → Fin n → Fin d) (t : Tensor ℤ) (ht : t.shape = [B, n])
    (hx : ∀ b : Fin B, ∀ s : Fin n, t.get [b.val, s.val] = (x b s : ℤ)) : ValidInput (.ints t : SeqInput K) B n d := ⟨ht, fun b hb s hs => by
    have := hx ⟨b, hb⟩ ⟨s, hs⟩
    simp only at this
    rw [this]
    have := (x ⟨b, hb⟩ ⟨s, hs⟩).2
    omega⟩

theorem psi_rows [RCLike K] (m : ProbMPS K) {n d B : ℕ} (D : ℕ) (x : Fin B → Fin n → Fin d) (t : Tensor ℤ) (ht : t.shape = [B, n])
    (hx : ∀ b : Fin B, ∀ s : Fin n, t.get [b.val, s.val] = (x b s : ℤ)) (b : Fin B) : psi m (.ints t) n d D b = psiSeq m n d D (x b) := by
  rw [psi_ints m n d D b t (fun s hs => (valid_of_rows (K := K) x t ht hx).2 b b.2 s hs)]
  congr 1
  funext s
  refine Fin.ext ?_
  show (t.get [b.val, s.val]).toNat = (x b s).val
  rw [hx]
  simp

/-- The loss in terms of the probabilities. -/
theorem loss_value [RCLike K] (m : ProbMPS K) (n d D : ℕ) (hm : ValidModel m n d D) (he : m.embedding = none) (B : ℕ) (hB : B ≠ 0) (x : Fin B → Fin n → Fin d)
    (t : Tensor ℤ) (ht : t.shape = [B, n]) (hx : ∀ b : Fin B, ∀ s : Fin n, t.get [b.val, s.val] = (x b s : ℤ)) (slim par : Bool) (hslim : SlimOK m slim B n)
    (out : Tensor (Option EReal)) (h : (m.forward (.ints t) slim par).1 = .ok out) :
    modelZ m n d D ≠ 0 ∧ ∃ v, m.loss (.ints t) slim par = .ok (some v) ∧
      ((∀ b, probSeq m slim par (x b) ≠ 0) → v = ((-((∑ b, Real.log (probSeq m slim par (x b))) / B) : ℝ) : EReal)) ∧
      ((∃ b, probSeq m slim par (x b) = 0) → v = ⊤) := by
  have hv := valid_of_rows (K := K) x t ht hx
  obtain ⟨-, h1, h2⟩ := C21_forward_exact m n d D hm he (.ints t) B hv slim par hslim
  have hacc : modelZ m n d D ≠ 0 ∧ ∀ b < B, Accepts m (.ints t) n d D slim par b := by
    by_contra hn
    rw [h2 hn] at h
    cases h
  obtain ⟨out', ho, -, hg⟩ := h1 hacc
  rw [h] at ho
  cases ho
  have hZ := hacc.1
  have hpos : 0 < modelZ m n d D := lt_of_le_of_ne (Finset.sum_nonneg fun x _ => sq_nonneg _) (Ne.symm hZ)
  obtain ⟨y, v, y1, y2, y3, -⟩ := C24_loss m n d D hm he t B hB hv slim par hslim out h
  have hp : ∀ b, probSeq m slim par (x b) = ‖psiSeq m n d D (x b)‖ ^ 2 / modelZ m n d D := fun b => probSeq_eq m n d D hm he slim par (fun hh => (hslim hh).1) hZ (x b)
  have hy : ∀ b : Fin B, y b = bornLog (psiSeq m n d D (x b)) (modelZ m n d D) := by
    intro b
    have e1 := y1 b b.2
    rw [hg b b.2, psi_rows m D x t ht hx b] at e1
    exact (Option.some.inj e1).symm
  have hBpos : (0 : ℝ) < B := by exact_mod_cast Nat.pos_of_ne_zero hB
  refine ⟨hZ, v, y2, ?_, ?_⟩
  · intro hne
    have hy' : ∀ b : Fin B, y b = ((Real.log (probSeq m slim par (x b)) : ℝ) : EReal) := by
      intro b
      rw [hy b, bornLog, if_neg, hp b]
      intro h0
      refine hne b ?_
      rw [hp b, h0]; simp
    rw [y3, ← Fin.sum_univ_eq_sum_range, Finset.sum_congr rfl (fun b _ => hy' b), ereal_sum_coe, EReal.coe_neg, EReal.coe_div]
    rfl
  · rintro ⟨b, hb⟩
    have h0 : psiSeq m n d D (x b) = 0 := by
      rw [hp b, div_eq_zero_iff] at hb
      rcases hb with hb | hb
      · simpa using hb
      · exact absurd hb hZ
    rw [y3, ereal_sum_bot _ _ b.val (Finset.mem_range.2 b.2) (by rw [hy b, bornLog, if_pos h0])]
    rw [EReal.bot_div_of_pos_ne_top (by exact_mod_cast Nat.pos_of_ne_zero hB) (EReal.natCast_ne_top B)]
    rfl

/-- C104. Whenever `forward` accepts a batch of `B` sequences, the loss of the batch is at least the entropy of the distribution of the sequences in the batch; equality
holds only if the model gives every sequence exactly its frequency; in general the loss is the entropy plus the relative entropy of the batch with
respect to the model, and infinite if a sequence of the batch has probability zero. -/
theorem C104_loss [RCLike K] (m : ProbMPS K) (n d D : ℕ) (hm : ValidModel m n d D) (he : m.embedding = none) (B : ℕ) (hB : B ≠ 0) (x : Fin B → Fin n → Fin d)
    (t : Tensor ℤ) (ht : t.shape = [B, n]) (hx : ∀ b : Fin B, ∀ s : Fin n, t.get [b.val, s.val] = (x b s : ℤ)) (slim par : Bool) (hslim : SlimOK m slim B n)
    (out : Tensor (Option EReal)) (h : (m.forward (.ints t) slim par).1 = .ok out) :
    ∃ v : EReal, m.loss (.ints t) slim par = .ok (some v) ∧ ((entropy (frequency x) : ℝ) : EReal) ≤ v ∧
      (v = ((entropy (frequency x) : ℝ) : EReal) → ∀ a, probSeq m slim par a = frequency x a) ∧
      ((∀ b, probSeq m slim par (x b) ≠ 0) → v = ((entropy (frequency x) + relEntropy (frequency x) (fun a => probSeq m slim par a) : ℝ) : EReal)) ∧
      ((∃ b, probSeq m slim par (x b) = 0) → v = ⊤) := by
  obtain ⟨hZ, v, v1, v2, v3⟩ := loss_value m n d D hm he B hB x t ht hx slim par hslim out h
  have hs : slim = true → m.bias = none := fun hh => (hslim hh).1
  have hsum := sum_probSeq m n d D hm he slim par hs hZ
  have hp0 : ∀ a : Fin n → Fin d, 0 ≤ probSeq m slim par a := by
    intro a
    rw [probSeq_eq m n d D hm he slim par hs hZ]
    exact div_nonneg (sq_nonneg _) (Finset.sum_nonneg fun x _ => sq_nonneg _)
  by_cases hne : ∀ b, probSeq m slim par (x b) ≠ 0
  · have hq : ∀ a, frequency x a ≠ 0 → probSeq m slim par a ≠ 0 := by
      intro a ha
      obtain ⟨b, rfl⟩ := frequency_ne_zero x a ha
      exact hne b
    have hone : ∑ a, frequency x a = ∑ a : Fin n → Fin d, probSeq m slim par a := by rw [frequency_sum hB, hsum]
    have hval : v = ((entropy (frequency x) + relEntropy (frequency x) (fun a => probSeq m slim par a) : ℝ) : EReal) := by
      rw [v2 hne, mean_frequency x (fun a => Real.log (probSeq m slim par a)), relEntropy_split (frequency x) (fun a => probSeq m slim par a) hq]
    refine ⟨v, v1, ?_, ?_, fun _ => hval, v3⟩
    · rw [hval]
      have := relEntropy_nonneg (frequency x) (fun a => probSeq m slim par a) (frequency_nonneg x) hp0 hq hone
      exact_mod_cast le_add_of_nonneg_right this
    · intro hv a
      rw [hval] at hv
      have hv : entropy (frequency x) + relEntropy (frequency x) (fun a => probSeq m slim par a) = entropy (frequency x) := by exact_mod_cast hv
      exact relEntropy_zero (frequency x) (fun a => probSeq m slim par a) (frequency_nonneg x) hp0 hq hone (by linarith) a
  · have hex : ∃ b, probSeq m slim par (x b) = 0 := by push Not at hne; exact hne
    have hval := v3 hex
    refine ⟨v, v1, by rw [hval]; exact le_top, ?_, fun hh => absurd hh hne, v3⟩
    intro hv
    rw [hval] at hv
    exact absurd hv.symm (EReal.coe_ne_top _)

/-- C104, the bound is attained: a large enough bond dimension allows a model whose loss on the batch is its entropy, for every evaluation strategy. -/
theorem C104_attained [RCLike K] (n d D : ℕ) (hD : d ^ (n / 2) ≤ D) (hD1 : 1 ≤ D) (B : ℕ) (hB : B ≠ 0) (hn : 0 < n ∨ B = 1) (x : Fin B → Fin n → Fin d)
    (t : Tensor ℤ) (ht : t.shape = [B, n]) (hx : ∀ b : Fin B, ∀ s : Fin n, t.get [b.val, s.val] = (x b s : ℤ)) :
    ∃ m : ProbMPS K, ValidModel m n d D ∧ m.uniform = false ∧ m.embedding = none ∧ m.bias = none ∧
      ∀ slim par, m.loss (.ints t) slim par = .ok (some ((entropy (frequency x) : ℝ) : EReal)) := by
  obtain ⟨m, hm, hu, he, hb, hp⟩ := C92_universal (K := K) n d D hD hD1 (frequency x) (frequency_nonneg x) (frequency_sum hB x)
  refine ⟨m, hm, hu, he, hb, fun slim par => ?_⟩
  have hpos : ∀ b, probSeq m slim par (x b) ≠ 0 := fun b => by rw [hp]; exact (frequency_sample x b).ne'
  have hZ : modelZ m n d D ≠ 0 := modelZ_of_prob m n d D hm he slim par (fun _ => hb) ⟨x ⟨0, Nat.pos_of_ne_zero hB⟩, hpos _⟩
  have hslim : SlimOK m slim B n := fun _ => ⟨hb, hn⟩
  obtain ⟨out, h1, -, -⟩ := C21_born_rule m n d D hm he (.ints t) B (valid_of_rows (K := K) x t ht hx) slim par hslim hZ (fun b hb' => by
    rw [psi_rows m D x t ht hx ⟨b, hb'⟩]
    intro h0
    refine hpos ⟨b, hb'⟩ ?_
    rw [probSeq_eq m n d D hm he slim par (fun _ => hb) hZ, h0]
    simp)
  obtain ⟨v, v1, -, -, v2, -⟩ := C104_loss m n d D hm he B hB x t ht hx slim par hslim out h1
  rw [v1, v2 hpos]
  have h0 : relEntropy (frequency x) (fun a => probSeq m slim par a) = 0 := by
    unfold relEntropy
    refine Finset.sum_eq_zero (fun a _ => ?_)
    show frequency x a * Real.log (frequency x a / probSeq m slim par a) = 0
    rw [hp slim par a]
    by_cases h0 : frequency x a = 0
    · simp [h0]
    · rw [div_self h0, Real.log_one, mul_zero]
  rw [h0, add_zero]

/-- C104, expected loss. Let sequences be drawn from any distribution `q` and let the model give a finite loss to each of them that can occur. The expected loss
is at least the entropy of `q`, and equal to it only if the model's distribution is `q`. -/
theorem C104_expected [RCLike K] (m : ProbMPS K) (n d D : ℕ) (hm : ValidModel m n d D) (he : m.embedding = none) (slim par : Bool) (hslim : slim = true → m.bias = none)
    (q : (Fin n → Fin d) → ℝ) (hq : ∀ a, 0 ≤ q a) (hq1 : ∑ a, q a = 1) (l : (Fin n → Fin d) → ℝ)
    (hl : ∀ a, q a ≠ 0 → m.loss (single a) slim par = .ok (some ((l a : ℝ) : EReal))) :
    entropy q ≤ ∑ a, q a * l a ∧ (∑ a, q a * l a = entropy q → ∀ a, probSeq m slim par a = q a) := by
  have key : ∀ a, q a ≠ 0 → modelZ m n d D ≠ 0 ∧ probSeq m slim par a ≠ 0 ∧ l a = - Real.log (probSeq m slim par a) := by
    intro a ha
    have h0 := hl a ha
    obtain ⟨out, hout⟩ : ∃ out, (m.forward (single a) slim par).1 = .ok out := by
      unfold ProbMPS.loss at h0
      rcases hf : (m.forward (single a) slim par).1 with e | out
      · rw [hf] at h0; cases h0
      · exact ⟨out, rfl⟩
    obtain ⟨hZ, v, v1, v2, v3⟩ := loss_value m n d D hm he 1 one_ne_zero (fun _ => a) _ (by rfl) (by
      intro b s
      simp) slim par (fun hh => ⟨hslim hh, Or.inr rfl⟩) out hout
    have hv : v = ((l a : ℝ) : EReal) := by
      have : m.loss (single a) slim par = .ok (some v) := v1
      rw [this] at h0
      simpa using h0
    have hne : probSeq m slim par a ≠ 0 := by
      intro h0
      rw [v3 ⟨0, h0⟩] at hv
      exact absurd hv.symm (EReal.coe_ne_top _)
    refine ⟨hZ, hne, ?_⟩
    rw [v2 (fun _ => hne)] at hv
    have hv : -((∑ b : Fin 1, Real.log (probSeq m slim par a)) / ((1 : ℕ) : ℝ)) = l a := by exact_mod_cast hv
    simp at hv
    exact hv.symm
  obtain ⟨a₀, ha₀⟩ : ∃ a, q a ≠ 0 := by
    by_contra hn
    push Not at hn
    rw [Finset.sum_eq_zero (fun a _ => hn a)] at hq1
    exact zero_ne_one hq1
  have hZ := (key a₀ ha₀).1
  have hsum := sum_probSeq m n d D hm he slim par hslim hZ
  have hp0 : ∀ a : Fin n → Fin d, 0 ≤ probSeq m slim par a := by
    intro a
    rw [probSeq_eq m n d D hm he slim par hslim hZ]
    exact div_nonneg (sq_nonneg _) (Finset.sum_nonneg fun x _ => sq_nonneg _)
  have hne : ∀ a, q a ≠ 0 → probSeq m slim par a ≠ 0 := fun a ha => (key a ha).2.1
  have hone : ∑ a, q a = ∑ a : Fin n → Fin d, probSeq m slim par a := by rw [hq1, hsum]
  have hval : ∑ a, q a * l a = entropy q + relEntropy q (fun a => probSeq m slim par a) := by
    rw [← relEntropy_split q (fun a => probSeq m slim par a) hne, ← Finset.sum_neg_distrib]
    refine Finset.sum_congr rfl (fun a _ => ?_)
    by_cases h0 : q a = 0
    · simp [h0]
    · rw [(key a h0).2.2]; ring
  rw [hval]
  refine ⟨le_add_of_nonneg_right (relEntropy_nonneg q _ hq hp0 hne hone), fun hh a => ?_⟩
  exact relEntropy_zero q (fun a => probSeq m slim par a) hq hp0 hne hone (by linarith) a

/-- three samples of two symbols -/
def exRows : Fin 3 → Fin 2 → Fin 2 := ![![0, 1], ![1, 1], ![0, 1]]

/-- the hypotheses are met: a model of bond dimension 2 attains the bound on these samples, and gives `[0, 1]` probability 2/3 -/
example : ∃ m : ProbMPS ℝ, ValidModel m 2 2 2 ∧ (∀ slim par, m.loss (.ints ⟨[3, 2], fun i => ([[0, 1], [1, 1], [0, 1]].getD (i.getD 0 0) []).getD (i.getD 1 0) 0⟩) slim par =
    .ok (some ((entropy (frequency exRows) : ℝ) : EReal))) ∧ ∀ slim par, probSeq m slim par (![0, 1] : Fin 2 → Fin 2) = 2 / 3 := by
  have hx : ∀ b : Fin 3, ∀ s : Fin 2, (([[0, 1], [1, 1], [0, 1]] : List (List ℤ)).getD b.val []).getD s.val 0 = (exRows b s : ℤ) := by decide
  obtain ⟨m, h1, h2, h3, h4, h5⟩ := C104_attained (K := ℝ) 2 2 2 (by norm_num) (by norm_num) 3 (by norm_num) (Or.inl (by norm_num)) exRows
    ⟨[3, 2], fun i => ([[0, 1], [1, 1], [0, 1]].getD (i.getD 0 0) []).getD (i.getD 1 0) 0⟩ rfl hx
  refine ⟨m, h1, h5, fun slim par => ?_⟩
  have hl := h5 slim par
  obtain ⟨out, hout⟩ : ∃ out, (m.forward (.ints ⟨[3, 2], fun i => ([[0, 1], [1, 1], [0, 1]].getD (i.getD 0 0) []).getD (i.getD 1 0) 0⟩) slim par).1 = .ok out := by
    unfold ProbMPS.loss at hl
    rcases hf : (m.forward (.ints ⟨[3, 2], fun i => ([[0, 1], [1, 1], [0, 1]].getD (i.getD 0 0) []).getD (i.getD 1 0) 0⟩) slim par).1 with e | out
    · rw [hf] at hl; cases hl
    · exact ⟨out, rfl⟩
  obtain ⟨v, v1, -, v2, -⟩ := C104_loss m 2 2 2 h1 h3 3 (by norm_num) exRows _ rfl hx slim par (fun _ => ⟨h4, Or.inl (by norm_num)⟩) out hout
  rw [hl] at v1
  rw [v2 (by simpa using v1.symm)]
  unfold frequency
  have : (Finset.univ.filter (fun b => exRows b = ![0, 1])).card = 2 := by decide
  rw [this]
  norm_num

end TorchMPS
