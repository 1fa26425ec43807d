import Verif.Lemmas.ProbMps
/-
C21 - C25: probabilistic MPS without embedding.
-/
namespace TorchMPS
open Spec
variable {K : Type}

theorem coreMat_addBias [RCLike K] (m : ProbMPS K) (n d D : ℕ) (hm : ValidModel m n d D) (s k : ℕ) :
    coreMat (addBias m.core m.bias) D s k = coreMat m.core D s k + biasMat m D := by
  ext i j
  cases hb : m.bias with
  | none => simp [addBias, biasMat, hb]
  | some b =>
    rcases hm.coreShape with h | h <;>
      simp [addBias, biasMat, hb, coreMat, h, Tensor.ndim]

theorem normSq_addBias [RCLike K] (m : ProbMPS K) (n d D : ℕ) (hm : ValidModel m n d D) :
    normSq (addBias m.core m.bias) m.edge n d D = modelZ m n d D := by
  unfold normSq modelZ psiSeq
  simp only [coreMat_addBias m n d D hm]

theorem lengthArg_model [RCLike K] (m : ProbMPS K) (n d D : ℕ) (hm : ValidModel m n d D) :
    LengthArg (addBias m.core m.bias) n (if m.uniform then some (n : ℤ) else none) := by
  unfold LengthArg
  rw [addBias_shape, hm.core]
  cases m.uniform <;> simp

theorem coreShape_addBias [RCLike K] (m : ProbMPS K) (n d D : ℕ) (hm : ValidModel m n d D) :
    CoreShape (addBias m.core m.bias) n d D := by
  have := hm.coreShape
  unfold CoreShape at *
  rwa [addBias_shape]

theorem logNorm_ok [RCLike K] (m : ProbMPS K) (n d D : ℕ) (hm : ValidModel m n d D) (he : m.embedding = none)
    (hZ : modelZ m n d D ≠ 0) : m.logNorm n = .ok (some ((Real.log (modelZ m n d D) : ℝ) : EReal)) := by
  have := C17_log_norm (addBias m.core m.bias) m.edge n d D (coreShape_addBias m n d D hm) hm.edge _
    (lengthArg_model m n d D hm) (by rwa [normSq_addBias m n d D hm])
  rw [normSq_addBias m n d D hm] at this
  simp only [ProbMPS.logNorm, he, bind, Except.bind, this]

theorem logNorm_zero [RCLike K] (m : ProbMPS K) (n d D : ℕ) (hm : ValidModel m n d D) (he : m.embedding = none)
    (hZ : modelZ m n d D = 0) : m.logNorm n = .ok (some ⊥) ∨ m.logNorm n = .ok none ∨
      m.logNorm n = .error .assertion := by
  have := C17_log_norm_zero (addBias m.core m.bias) m.edge n d D (coreShape_addBias m n d D hm) hm.edge _
    (lengthArg_model m n d D hm) (by rwa [normSq_addBias m n d D hm])
  rcases this with h | h | ⟨-, h⟩
  · left; simp only [ProbMPS.logNorm, he, bind, Except.bind, h]
  · right; left; simp only [ProbMPS.logNorm, he, bind, Except.bind, h]
  · right; right; simp only [ProbMPS.logNorm, he, bind, Except.bind, h]

theorem finish_not_finite [RCLike K] (m : ProbMPS K) (B : ℕ) (out : ContractOut K) (ln : Option EReal)
    (h : ¬ finite? ln) : m.finish B out ln = .error .assertion := by
  classical
  unfold ProbMPS.finish
  rw [assert_false _ h]; rfl

theorem body_not_finite [RCLike K] (m : ProbMPS K) (n d D : ℕ) (hm : ValidModel m n d D) (x : SeqInput K) (B : ℕ)
    (hx : ValidInput x B n d) (slim par : Bool) (hslim : SlimOK m slim B n)
    (h : m.logNorm n = .ok (some ⊥) ∨ m.logNorm n = .ok none ∨ m.logNorm n = .error .assertion) :
    m.body x B n slim par = .error .assertion := by
  obtain ⟨out, h1, -⟩ := evalPsi_spec m n d D hm x B hx slim par hslim
  rcases h with h | h | h
  · simp only [ProbMPS.body, h1, h, bind, Except.bind]
    exact finish_not_finite m B out _ (by rintro ⟨r, hr⟩; simp at hr)
  · simp only [ProbMPS.body, h1, h, bind, Except.bind]
    exact finish_not_finite m B out _ (by rintro ⟨r, hr⟩; simp at hr)
  · simp only [ProbMPS.body, h1, h, bind, Except.bind]

theorem ValidInput_shape {x : SeqInput K} {B T d : ℕ} (h : ValidInput x B T d) :
    2 ≤ x.shape.length ∧ x.shape.getD 0 0 = B ∧ x.shape.getD 1 0 = T := by
  cases x with
  | ints t => simp [SeqInput.shape, h.1]
  | floats t =>
    have : t.shape = [B, T, d] := h
    simp [SeqInput.shape, this]

theorem forward_plain [RCLike K] (m : ProbMPS K) (x : SeqInput K) (B T d : ℕ) (he : m.embedding = none)
    (hx : ValidInput x B T d) (slim par : Bool) :
    m.forward x slim par = (m.body x B T slim par, m) := by
  obtain ⟨h1, h2, h3⟩ := ValidInput_shape hx
  unfold ProbMPS.forward
  rw [if_neg (by omega), h2, h3, he]

/-! ### C21 -/

/-- C21, complete form: for every strategy, `forward` succeeds iff `Z ≠ 0` and every sequence of the batch can be
evaluated (`Accepts`); it then returns `log(|ψ|² / Z)`, `-inf` when `ψ = 0`. The model is unchanged. -/
theorem C21_forward_exact [RCLike K] (m : ProbMPS K) (n d D : ℕ) (hm : ValidModel m n d D)
    (he : m.embedding = none) (x : SeqInput K) (B : ℕ) (hx : ValidInput x B n d) (slim par : Bool)
    (hslim : SlimOK m slim B n) :
    (m.forward x slim par).2 = m ∧
    (modelZ m n d D ≠ 0 ∧ (∀ b < B, Accepts m x n d D slim par b) →
      ∃ out, (m.forward x slim par).1 = .ok out ∧ out.shape = [B] ∧
        ∀ b < B, out.get [b] = some (bornLog (psi m x n d D b) (modelZ m n d D))) ∧
    (¬ (modelZ m n d D ≠ 0 ∧ ∀ b < B, Accepts m x n d D slim par b) →
      (m.forward x slim par).1 = .error .assertion) := by
  rw [forward_plain m x B n d he hx slim par]
  refine ⟨rfl, ?_, ?_⟩
  · rintro ⟨hZ, hacc⟩
    have hpos : 0 < modelZ m n d D := lt_of_le_of_ne
      (Finset.sum_nonneg fun x _ => sq_nonneg _) (Ne.symm hZ)
    exact (body_spec m n d D hm x B hx slim par hslim _ hpos (logNorm_ok m n d D hm he hZ)).1 hacc
  · intro h
    by_cases hZ : modelZ m n d D = 0
    · exact body_not_finite m n d D hm x B hx slim par hslim (logNorm_zero m n d D hm he hZ)
    · have hpos : 0 < modelZ m n d D := lt_of_le_of_ne
        (Finset.sum_nonneg fun x _ => sq_nonneg _) (Ne.symm hZ)
      exact (body_spec m n d D hm x B hx slim par hslim _ hpos (logNorm_ok m n d D hm he hZ)).2
        (fun hacc => h ⟨hZ, hacc⟩)

/-- C21: for a batch of sequences of non-zero amplitude, every strategy returns `log(|ψ(x)|² / Z)`. -/
theorem C21_born_rule [RCLike K] (m : ProbMPS K) (n d D : ℕ) (hm : ValidModel m n d D)
    (he : m.embedding = none) (x : SeqInput K) (B : ℕ) (hx : ValidInput x B n d) (slim par : Bool)
    (hslim : SlimOK m slim B n) (hZ : modelZ m n d D ≠ 0) (hψ : ∀ b < B, psi m x n d D b ≠ 0) :
    ∃ out, (m.forward x slim par).1 = .ok out ∧ out.shape = [B] ∧ ∀ b < B, out.get [b] =
      some ((Real.log (‖psi m x n d D b‖ ^ 2 / modelZ m n d D) : ℝ) : EReal) := by
  obtain ⟨-, h, -⟩ := C21_forward_exact m n d D hm he x B hx slim par hslim
  obtain ⟨out, h1, h2, h3⟩ := h ⟨hZ, fun b hb => by_contra fun hn =>
    hψ b hb (psi_of_not_accepts m x n d D slim par b hn)⟩
  refine ⟨out, h1, h2, fun b hb => ?_⟩
  rw [h3 b hb, bornLog, if_neg (hψ b hb)]

/-- C21: sequences that are refused (AssertionError) have amplitude zero. -/
theorem C21_refused_zero [RCLike K] (m : ProbMPS K) (n d D : ℕ) (hm : ValidModel m n d D)
    (he : m.embedding = none) (x : SeqInput K) (hx : ValidInput x 1 n d) (slim par : Bool)
    (hslim : SlimOK m slim 1 n) (hZ : modelZ m n d D ≠ 0) (e : Err)
    (h : (m.forward x slim par).1 = .error e) : psi m x n d D 0 = 0 ∧ e = .assertion := by
  obtain ⟨-, h1, h2⟩ := C21_forward_exact m n d D hm he x 1 hx slim par hslim
  by_cases hacc : ∀ b < 1, Accepts m x n d D slim par b
  · obtain ⟨out, ho, -⟩ := h1 ⟨hZ, hacc⟩
    rw [h] at ho; cases ho
  · have := h2 (fun hh => hacc hh.2)
    rw [h] at this
    refine ⟨?_, by simpa using this⟩
    push Not at hacc
    obtain ⟨b, hb, hna⟩ := hacc
    obtain rfl : b = 0 := by omega
    exact psi_of_not_accepts m x n d D slim par 0 hna

/-! ### C22, C23 -/

theorem single_valid {n d : ℕ} (x : Fin n → Fin d) : ValidInput (single x : SeqInput K) 1 n d := by
  refine ⟨rfl, ?_⟩
  intro b _ s hs
  simp [hs]

theorem psi_single [RCLike K] (m : ProbMPS K) (n d D : ℕ) (x : Fin n → Fin d) (b : ℕ) :
    psi m (single x) n d D b = psiSeq m n d D x := by
  unfold psi psiSeq transMats
  congr 1
  refine List.ext_getElem (by simp) ?_
  intro s h1 h2
  have hs : s < n := by simpa using h1
  simp [inputMat, single, hs]

theorem probOf_bornLog [RCLike K] (p : K) (Z : ℝ) (hZ : 0 < Z) : probOf (some (bornLog p Z)) = ‖p‖ ^ 2 / Z := by
  unfold bornLog
  split
  · rename_i h; rw [h]; simp [probOf]; rfl
  · rename_i h
    show Real.exp _ = _
    rw [Real.exp_log]
    have : 0 < ‖p‖ := norm_pos_iff.2 h
    positivity

theorem probSeq_eq [RCLike K] (m : ProbMPS K) (n d D : ℕ) (hm : ValidModel m n d D) (he : m.embedding = none)
    (slim par : Bool) (hslim : slim = true → m.bias = none) (hZ : modelZ m n d D ≠ 0) (x : Fin n → Fin d) :
    probSeq m slim par x = ‖psiSeq m n d D x‖ ^ 2 / modelZ m n d D := by
  have hpos : 0 < modelZ m n d D := lt_of_le_of_ne
    (Finset.sum_nonneg fun x _ => sq_nonneg _) (Ne.symm hZ)
  have hs : SlimOK m slim 1 n := fun h => ⟨hslim h, Or.inr rfl⟩
  unfold probSeq resultProb
  rcases hf : (m.forward (single x) slim par).1 with e | out
  · have := (C21_refused_zero m n d D hm he (single x) (single_valid x) slim par hs hZ e hf).1
    rw [psi_single] at this
    simp [this]
  · obtain ⟨-, h1, h2⟩ := C21_forward_exact m n d D hm he (single x) 1 (single_valid x) slim par hs
    by_cases hacc : modelZ m n d D ≠ 0 ∧ ∀ b < 1, Accepts m (single x : SeqInput K) n d D slim par b
    · obtain ⟨out', ho, -, hg⟩ := h1 hacc
      rw [hf] at ho
      cases ho
      simp only
      rw [hg 0 (by omega), probOf_bornLog _ _ hpos, psi_single]
    · rw [h2 hacc] at hf; cases hf

theorem sum_probSeq [RCLike K] (m : ProbMPS K) (n d D : ℕ) (hm : ValidModel m n d D) (he : m.embedding = none)
    (slim par : Bool) (hslim : slim = true → m.bias = none) (hZ : modelZ m n d D ≠ 0) :
    ∑ x : Fin n → Fin d, probSeq m slim par x = 1 := by
  rw [Finset.sum_congr rfl fun x _ => probSeq_eq m n d D hm he slim par hslim hZ x, ← Finset.sum_div]
  exact div_self hZ

/-- C22: the probabilities a `ProbMPS` assigns to all `d ^ n` sequences sum to one, for every strategy, with or
without bias, real or complex, whenever the normalisation constant is not zero. -/
theorem C22_probabilities_sum_to_one [RCLike K] (m : ProbMPS K) (n d D : ℕ) (hu : m.uniform = false)
    (hm : ValidModel m n d D) (he : m.embedding = none) (slim par : Bool)
    (hslim : slim = true → m.bias = none) (hZ : modelZ m n d D ≠ 0) :
    ∑ x : Fin n → Fin d, probSeq m slim par x = 1 :=
  sum_probSeq m n d D hm he slim par hslim hZ

/-- C23: a `ProbUnifMPS` is normalised separately for each length. -/
theorem C23_uniform_sum_to_one [RCLike K] (m : ProbMPS K) (d D : ℕ) (hu : m.uniform = true)
    (hc : m.core.shape = [d, D, D]) (hedge : m.edge.shape = [2, D]) (hb : ∀ b ∈ m.bias, b.shape = [D, D])
    (hD : D ≠ 0) (he : m.embedding = none) (slim par : Bool) (hslim : slim = true → m.bias = none) (n : ℕ)
    (hZ : modelZ m n d D ≠ 0) : ∑ x : Fin n → Fin d, probSeq m slim par x = 1 :=
  sum_probSeq m n d D ⟨by simp [hu, hc], hedge, hb, hD⟩ he slim par hslim hZ

/-! ### C24 -/

/-- the sequence of indices in row `b` -/
def rowSeq (t : Tensor ℤ) (n d b : ℕ) (h : ∀ s < n, 0 ≤ t.get [b, s] ∧ t.get [b, s] < d) : Fin n → Fin d :=
  fun s => ⟨(t.get [b, s]).toNat, by have := h s s.2; omega⟩

theorem psi_ints [RCLike K] (m : ProbMPS K) (n d D b : ℕ) (t : Tensor ℤ)
    (h : ∀ s < n, 0 ≤ t.get [b, s] ∧ t.get [b, s] < d) :
    psi m (.ints t) n d D b = psiSeq m n d D (rowSeq t n d b h) := by
  unfold psi psiSeq transMats
  congr 1
  refine List.ext_getElem (by simp) ?_
  intro s h1 h2
  simp [inputMat, rowSeq]

theorem bornLog_le_zero [RCLike K] (m : ProbMPS K) (n d D : ℕ) (x : Fin n → Fin d) :
    bornLog (psiSeq m n d D x) (modelZ m n d D) ≤ 0 := by
  unfold bornLog
  split
  · exact bot_le
  · have hle : ‖psiSeq m n d D x‖ ^ 2 ≤ modelZ m n d D :=
      Finset.single_le_sum (f := fun x => ‖psiSeq m n d D x‖ ^ 2) (fun x _ => sq_nonneg _) (Finset.mem_univ x)
    have h0 : 0 ≤ ‖psiSeq m n d D x‖ ^ 2 / modelZ m n d D :=
      div_nonneg (sq_nonneg _) (Finset.sum_nonneg fun x _ => sq_nonneg _)
    have h1 : ‖psiSeq m n d D x‖ ^ 2 / modelZ m n d D ≤ 1 :=
      div_le_one_of_le₀ hle (Finset.sum_nonneg fun x _ => sq_nonneg _)
    exact_mod_cast Real.log_nonpos h0 h1

/-- C24: no log probability returned for a batch of discrete sequences is positive. -/
theorem C24_log_prob_nonpos [RCLike K] (m : ProbMPS K) (n d D : ℕ) (hm : ValidModel m n d D)
    (he : m.embedding = none) (t : Tensor ℤ) (B : ℕ) (hx : ValidInput (.ints t : SeqInput K) B n d)
    (slim par : Bool) (hslim : SlimOK m slim B n) (out : Tensor (Option EReal))
    (h : (m.forward (.ints t) slim par).1 = .ok out) :
    out.shape = [B] ∧ ∀ b < B, ∃ y, out.get [b] = some y ∧ y ≤ 0 := by
  obtain ⟨-, h1, h2⟩ := C21_forward_exact m n d D hm he (.ints t) B hx slim par hslim
  by_cases hacc : modelZ m n d D ≠ 0 ∧ ∀ b < B, Accepts m (.ints t) n d D slim par b
  · obtain ⟨out', ho, hs, hg⟩ := h1 hacc
    rw [h] at ho
    cases ho
    refine ⟨hs, fun b hb => ⟨_, hg b hb, ?_⟩⟩
    rw [psi_ints m n d D b t (hx.2 b hb)]
    exact bornLog_le_zero m n d D _
  · rw [h2 hacc] at h; cases h

theorem mapM_option_some {α β : Type} (l : List α) (f : α → Option β) (g : α → β) (h : ∀ a ∈ l, f a = some (g a)) :
    l.mapM f = some (l.map g) := by
  induction l with
  | nil => rfl
  | cons a l ih =>
    rw [List.mapM_cons, h a (by simp), ih (fun b hb => h b (by simp [hb]))]
    rfl

/-- C24: `loss` is minus the mean of the returned log probabilities, and is not negative. -/
theorem C24_loss [RCLike K] (m : ProbMPS K) (n d D : ℕ) (hm : ValidModel m n d D)
    (he : m.embedding = none) (t : Tensor ℤ) (B : ℕ) (hB : B ≠ 0) (hx : ValidInput (.ints t : SeqInput K) B n d)
    (slim par : Bool) (hslim : SlimOK m slim B n) (out : Tensor (Option EReal))
    (h : (m.forward (.ints t) slim par).1 = .ok out) :
    ∃ (y : ℕ → EReal) (v : EReal), (∀ b < B, out.get [b] = some (y b)) ∧
      m.loss (.ints t) slim par = .ok (some v) ∧ v = -((∑ b ∈ Finset.range B, y b) / B) ∧ 0 ≤ v := by
  obtain ⟨hs, hg⟩ := C24_log_prob_nonpos m n d D hm he t B hx slim par hslim out h
  refine ⟨fun b => (out.get [b]).getD 0, -((∑ b ∈ Finset.range B, (out.get [b]).getD 0) / B), ?_, ?_, rfl, ?_⟩
  · intro b hb
    obtain ⟨y, hy, -⟩ := hg b hb
    simp [hy]
  · have hmap : (List.range B).mapM (fun b => out.get [b]) =
        some ((List.range B).map (fun b => (out.get [b]).getD 0)) := by
      refine mapM_option_some _ _ _ ?_
      intro b hb
      obtain ⟨y, hy, -⟩ := hg b (List.mem_range.1 hb)
      simp [hy]
    simp only [ProbMPS.loss, h, hs, List.getD_cons_zero, if_neg hB, hmap, Option.map_some]
    have hsum : ∀ (f : ℕ → EReal) (N : ℕ), ((List.range N).map f).sum = ∑ b ∈ Finset.range N, f b := by
      intro f N
      induction N with
      | zero => simp
      | succ N ih => rw [List.range_succ, List.map_append, List.sum_append, ih, Finset.sum_range_succ]; simp
    rw [hsum]
  · have hle : ∑ b ∈ Finset.range B, (out.get [b]).getD 0 ≤ 0 := by
      refine Finset.sum_nonpos fun b hb => ?_
      obtain ⟨y, hy, hy0⟩ := hg b (Finset.mem_range.1 hb)
      simpa [hy] using hy0
    rw [EReal.neg_nonneg]
    exact EReal.div_nonpos_of_nonpos_of_nonneg hle (by positivity)

end TorchMPS
