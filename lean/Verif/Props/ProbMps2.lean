import Verif.Props.ProbMps
/-
C25 - C27, C33: agreement of strategies, batch independence, gauge invariance, conflicting options; concrete models.
-/
namespace TorchMPS
open Spec
variable {K : Type}

/-! ### Concrete models -/

/-- two sites, two symbols, bond dimension two: all amplitudes are positive -/
noncomputable def posModel : ProbMPS ℝ where
  uniform := false
  core := ⟨[2, 2, 2, 2], fun idx => idx.getD 1 0 + 1⟩
  edge := ⟨[2, 2], fun _ => 1⟩
  bias := none
  embedding := none

/-- symbol 0: identity, symbol 1: all ones; left vector `(1, 0)`, right vector `(0, 1)`: the sequence `00` has
amplitude 0 and `11` has not -/
noncomputable def orthModel : ProbMPS ℝ where
  uniform := false
  core := ⟨[2, 2, 2, 2], fun idx => if idx.getD 1 0 = 0 then (if idx.getD 2 0 = idx.getD 3 0 then 1 else 0) else 1⟩
  edge := ⟨[2, 2], fun idx => if idx.getD 0 0 = idx.getD 1 0 then 1 else 0⟩
  bias := none
  embedding := none

theorem posModel_valid : ValidModel posModel 2 2 2 := ⟨rfl, rfl, by simp [posModel], by norm_num⟩
theorem orthModel_valid : ValidModel orthModel 2 2 2 := ⟨rfl, rfl, by simp [orthModel], by norm_num⟩

theorem modelZ_ne_zero [RCLike K] (m : ProbMPS K) (n d D : ℕ) (x : Fin n → Fin d) (h : psiSeq m n d D x ≠ 0) :
    modelZ m n d D ≠ 0 := by
  have h1 : ‖psiSeq m n d D x‖ ^ 2 ≤ modelZ m n d D :=
    Finset.single_le_sum (f := fun x => ‖psiSeq m n d D x‖ ^ 2) (fun x _ => sq_nonneg _) (Finset.mem_univ x)
  have h2 : 0 < ‖psiSeq m n d D x‖ := norm_pos_iff.2 h
  have : 0 < ‖psiSeq m n d D x‖ ^ 2 := by positivity
  linarith [this]

theorem posModel_psi (x : Fin 2 → Fin 2) : psiSeq posModel 2 2 2 x = 8 * ((x 0 : ℕ) + 1) * ((x 1 : ℕ) + 1) := by
  simp [psiSeq, amplitude, posModel, coreMat, boundVec, biasMat, List.ofFn_succ, Matrix.mul_apply,
    dotProduct, Matrix.mulVec, Fin.sum_univ_two]
  ring

theorem orthModel_psi : psiSeq orthModel 2 2 2 (fun _ => 0) = 0 ∧ psiSeq orthModel 2 2 2 (fun _ => 1) ≠ 0 := by
  constructor <;>
  simp [psiSeq, amplitude, orthModel, coreMat, boundVec, biasMat, List.ofFn_succ, Matrix.mul_apply,
    dotProduct, Matrix.mulVec, Fin.sum_univ_two]

/-- the hypotheses of C21, C22 and C24 hold for `posModel` and every sequence -/
example : ValidModel posModel 2 2 2 ∧ modelZ posModel 2 2 2 ≠ 0 ∧
    ∀ x : Fin 2 → Fin 2, ValidInput (single x : SeqInput ℝ) 1 2 2 ∧ psi posModel (single x) 2 2 2 0 ≠ 0 := by
  have h : ∀ x, psiSeq posModel 2 2 2 x ≠ 0 := fun x => by rw [posModel_psi]; positivity
  refine ⟨posModel_valid, modelZ_ne_zero _ _ _ _ (fun _ => 0) (h _), fun x => ⟨single_valid x, ?_⟩⟩
  rw [psi_single]; exact h x

/-! ### C25 -/

/-- C25: whenever two strategies both return a result for the same batch, the results are the same. -/
theorem C25_strategies_agree [RCLike K] (m : ProbMPS K) (n d D : ℕ) (hm : ValidModel m n d D)
    (he : m.embedding = none) (x : SeqInput K) (B : ℕ) (hx : ValidInput x B n d) (slim par slim' par' : Bool)
    (hs : SlimOK m slim B n) (hs' : SlimOK m slim' B n) (out out' : Tensor (Option EReal))
    (h : (m.forward x slim par).1 = .ok out) (h' : (m.forward x slim' par').1 = .ok out') :
    out.shape = [B] ∧ out'.shape = [B] ∧ ∀ b < B, out.get [b] = out'.get [b] := by
  have key : ∀ slim par out, SlimOK m slim B n → (m.forward x slim par).1 = .ok out →
      out.shape = [B] ∧ ∀ b < B, out.get [b] = some (bornLog (psi m x n d D b) (modelZ m n d D)) := by
    intro slim par out hs h
    obtain ⟨-, h1, h2⟩ := C21_forward_exact m n d D hm he x B hx slim par hs
    by_cases hc : modelZ m n d D ≠ 0 ∧ ∀ b < B, Accepts m x n d D slim par b
    · obtain ⟨o, ho, h3, h4⟩ := h1 hc
      rw [h] at ho; cases ho
      exact ⟨h3, h4⟩
    · rw [h2 hc] at h; cases h
  obtain ⟨a1, a2⟩ := key slim par out hs h
  obtain ⟨b1, b2⟩ := key slim' par' out' hs' h'
  exact ⟨a1, b1, fun b hb => by rw [a2 b hb, b2 b hb]⟩

/-- C25: if the default strategy returns a result then so does every other strategy. -/
theorem C25_default_implies_others [RCLike K] (m : ProbMPS K) (n d D : ℕ) (hm : ValidModel m n d D)
    (he : m.embedding = none) (x : SeqInput K) (B : ℕ) (hx : ValidInput x B n d) (slim par : Bool)
    (hs : SlimOK m slim B n) (out : Tensor (Option EReal)) (h : (m.forward x false false).1 = .ok out) :
    ∃ out', (m.forward x slim par).1 = .ok out' := by
  obtain ⟨-, h1, h2⟩ := C21_forward_exact m n d D hm he x B hx false false (by simp [SlimOK])
  by_cases hc : modelZ m n d D ≠ 0 ∧ ∀ b < B, Accepts m x n d D false false b
  · obtain ⟨o, ho, -⟩ := C21_born_rule m n d D hm he x B hx slim par hs hc.1 (fun b hb => by
      simpa [Accepts] using hc.2 b hb)
    exact ⟨o, ho⟩
  · rw [h2 hc] at h; cases h

/-- C25: on a sequence of amplitude zero the default strategy raises AssertionError while the two others may
return `-inf`. -/
theorem C25_zero_amplitude_differs :
    ∃ (m : ProbMPS ℝ) (n d D : ℕ) (x : Fin n → Fin d), ValidModel m n d D ∧ m.embedding = none ∧
      (m.forward (single x) false false).1 = .error .assertion ∧
      (∃ out, (m.forward (single x) false true).1 = .ok out ∧ out.shape = [1] ∧ out.get [0] = some ⊥) ∧
      (∃ out, (m.forward (single x) true false).1 = .ok out ∧ out.shape = [1] ∧ out.get [0] = some ⊥) := by
  have hZ := modelZ_ne_zero orthModel 2 2 2 _ orthModel_psi.2
  have hx : ValidInput (single (fun _ => 0 : Fin 2 → Fin 2) : SeqInput ℝ) 1 2 2 := single_valid _
  have hψ : ∀ b, psi orthModel (single (fun _ => 0 : Fin 2 → Fin 2)) 2 2 2 b = 0 := fun b => by
    rw [psi_single]; exact orthModel_psi.1
  have hprod : ∀ b, (transMats orthModel (single (fun _ => 0 : Fin 2 → Fin 2)) 2 2 2 b).prod = 1 := by
    intro b
    ext i j
    fin_cases i <;> fin_cases j <;>
      simp [transMats, List.range_succ, inputMat, single, coreMat, orthModel, biasMat, Matrix.mul_apply]
  have hs : ∀ slim, SlimOK orthModel slim 1 2 := fun _ _ => ⟨rfl, Or.inr rfl⟩
  refine ⟨orthModel, 2, 2, 2, fun _ => 0, orthModel_valid, rfl, ?_, ?_, ?_⟩
  · refine (C21_forward_exact orthModel 2 2 2 orthModel_valid rfl _ 1 hx false false (hs _)).2.2 ?_
    rintro ⟨-, h⟩
    have := h 0 (by norm_num)
    simp [Accepts, hψ] at this
  · obtain ⟨out, h1, h2, h3⟩ :=
      (C21_forward_exact orthModel 2 2 2 orthModel_valid rfl _ 1 hx false true (hs _)).2.1
        ⟨hZ, fun b _ => by simp [Accepts, hprod]⟩
    exact ⟨out, h1, h2, by rw [h3 0 (by norm_num), hψ]; simp [bornLog]⟩
  · obtain ⟨out, h1, h2, h3⟩ :=
      (C21_forward_exact orthModel 2 2 2 orthModel_valid rfl _ 1 hx true false (hs _)).2.1
        ⟨hZ, fun b _ => by
          have : boundVec orthModel.edge 2 0 ≠ 0 := fun h => by
            have := congrFun h 0
            simp [boundVec, orthModel] at this
          simp [Accepts, hprod, this]⟩
    exact ⟨out, h1, h2, by rw [h3 0 (by norm_num), hψ]; simp [bornLog]⟩

/-! ### C26 -/

theorem rowBatch_valid (x : SeqInput K) (B T d b : ℕ) (hb : b < B) (h : ValidInput x B T d) :
    ValidInput (rowBatch x b) 1 T d := by
  cases x with
  | ints t => exact ⟨by simp [h.1], fun b' _ s hs => by simpa using h.2 b hb s hs⟩
  | floats t =>
    have : t.shape = [B, T, d] := h
    simp [ValidInput, rowBatch, this]

theorem transMats_rowBatch [RCLike K] (m : ProbMPS K) (x : SeqInput K) (n d D b b' : ℕ) :
    transMats m (rowBatch x b) n d D b' = transMats m x n d D b := by
  unfold transMats
  cases x <;> rfl

theorem accepts_rowBatch [RCLike K] (m : ProbMPS K) (x : SeqInput K) (n d D b b' : ℕ) (slim par : Bool) :
    Accepts m (rowBatch x b) n d D slim par b' ↔ Accepts m x n d D slim par b := by
  unfold Accepts psi
  rw [transMats_rowBatch]

/-- C26: a non-empty batch is evaluated iff each of its elements is when evaluated alone; the entries of the result
are then the results for the single elements, in the same order. -/
theorem C26_batch_elements_independent [RCLike K] (m : ProbMPS K) (n d D : ℕ) (hm : ValidModel m n d D)
    (he : m.embedding = none) (x : SeqInput K) (B : ℕ) (hB : B ≠ 0) (hx : ValidInput x B n d) (slim par : Bool)
    (hs : SlimOK m slim B n) :
    ((∃ out, (m.forward x slim par).1 = .ok out) ↔
      ∀ b < B, ∃ out, (m.forward (rowBatch x b) slim par).1 = .ok out) ∧
    ∀ out, (m.forward x slim par).1 = .ok out → out.shape = [B] ∧
      ∀ b < B, ∃ o, (m.forward (rowBatch x b) slim par).1 = .ok o ∧ o.shape = [1] ∧ o.get [0] = out.get [b] := by
  obtain ⟨-, h1, h2⟩ := C21_forward_exact m n d D hm he x B hx slim par hs
  have hs' : SlimOK m slim 1 n := fun h => ⟨(hs h).1, Or.inr rfl⟩
  have hrow := fun b (hb : b < B) => C21_forward_exact m n d D hm he (rowBatch x b) 1
    (rowBatch_valid x B n d b hb hx) slim par hs'
  have key : ∀ out, (m.forward x slim par).1 = .ok out → out.shape = [B] ∧
      ∀ b < B, ∃ o, (m.forward (rowBatch x b) slim par).1 = .ok o ∧ o.shape = [1] ∧ o.get [0] = out.get [b] := by
    intro out h
    by_cases hc : modelZ m n d D ≠ 0 ∧ ∀ b < B, Accepts m x n d D slim par b
    · obtain ⟨o, ho, h3, h4⟩ := h1 hc
      rw [h] at ho; cases ho
      refine ⟨h3, fun b hb => ?_⟩
      obtain ⟨o, ho, k3, k4⟩ := (hrow b hb).2.1 ⟨hc.1, fun b' _ => (accepts_rowBatch ..).2 (hc.2 b hb)⟩
      refine ⟨o, ho, k3, ?_⟩
      rw [k4 0 (by norm_num), h4 b hb]
      unfold psi
      rw [transMats_rowBatch]
    · rw [h2 hc] at h; cases h
  refine ⟨⟨?_, ?_⟩, key⟩
  · rintro ⟨out, h⟩ b hb
    obtain ⟨o, ho, -⟩ := (key out h).2 b hb
    exact ⟨o, ho⟩
  · intro h
    have hc : ∀ b < B, modelZ m n d D ≠ 0 ∧ Accepts m x n d D slim par b := by
      intro b hb
      by_contra hcon
      obtain ⟨o, ho⟩ := h b hb
      rw [(hrow b hb).2.2] at ho
      · cases ho
      · rintro ⟨k1, k2⟩
        exact hcon ⟨k1, (accepts_rowBatch ..).1 (k2 0 (by norm_num))⟩
    obtain ⟨o, ho, -⟩ := h1 ⟨(hc 0 (by omega)).1, fun b hb => (hc b hb).2⟩
    exact ⟨o, ho⟩

example : ∃ x : SeqInput ℝ, ValidInput x 3 2 2 ∧ SlimOK posModel true 3 2 :=
  ⟨.ints ⟨[3, 2], fun _ => 1⟩, ⟨rfl, fun _ _ _ _ => by norm_num⟩, fun _ => ⟨rfl, Or.inl (by norm_num)⟩⟩

/-! ### C27 -/

theorem prod_gauge [RCLike K] {D : ℕ} (c : ℕ → K) (G : ℕ → (Matrix (Fin D) (Fin D) K)ˣ)
    (M : ℕ → Matrix (Fin D) (Fin D) K) (n : ℕ) :
    ((List.range n).map (fun s => c s • ((G s)⁻¹.val * M s * (G (s + 1)).val))).prod =
      (∏ s ∈ Finset.range n, c s) • ((G 0)⁻¹.val * ((List.range n).map M).prod * (G n).val) := by
  induction n with
  | zero => simp
  | succ n ih =>
    rw [List.range_succ, List.map_append, List.prod_append, ih, Finset.prod_range_succ, List.map_append,
      List.prod_append]
    simp only [List.map_cons, List.map_nil, List.prod_cons, List.prod_nil, mul_one]
    rw [smul_mul_smul_comm]
    congr 1
    have : ∀ (A B M P Q : Matrix (Fin D) (Fin D) K) (U : (Matrix (Fin D) (Fin D) K)ˣ),
        (A * B * U.val) * (U⁻¹.val * M * P) = A * (B * M) * P := by
      intro A B M P Q U
      simp only [mul_assoc, Units.mul_inv_cancel_left]
    exact this _ _ _ _ 1 _

section gauge
variable [RCLike K] {m m' : ProbMPS K} {n d D : ℕ} {c : ℕ → K} {cl cr : K} {G : ℕ → (Matrix (Fin D) (Fin D) K)ˣ}

theorem Spec.GaugeOf.inputMat (h : GaugeOf m m' n d D c cl cr G) (x : SeqInput K) (B b s : ℕ) (hb : b < B)
    (hs : s < n) (hx : ValidInput x B n d) :
    inputMat x m'.core d D b s + biasMat m' D =
      c s • ((G s)⁻¹.val * (inputMat x m.core d D b s + biasMat m D) * (G (s + 1)).val) := by
  rw [h.bias s hs, mul_add, add_mul, smul_add]
  congr 1
  cases x with
  | ints t =>
    have := hx.2 b hb s hs
    exact h.core s hs _ (by omega)
  | floats t =>
    simp only [Spec.inputMat, featMat, Finset.mul_sum, Finset.sum_mul, Finset.smul_sum]
    refine Finset.sum_congr rfl fun k hk => ?_
    rw [h.core s hs k (Finset.mem_range.1 hk)]
    simp only [Matrix.mul_smul, Matrix.smul_mul]
    rw [smul_comm]

theorem Spec.GaugeOf.transMats (h : GaugeOf m m' n d D c cl cr G) (x : SeqInput K) (B b : ℕ) (hb : b < B)
    (hx : ValidInput x B n d) :
    (transMats m' x n d D b).prod = (∏ s ∈ Finset.range n, c s) •
      ((G 0)⁻¹.val * (transMats m x n d D b).prod * (G n).val) := by
  unfold Spec.transMats
  rw [← prod_gauge]
  congr 1
  refine List.map_congr_left fun s hs => ?_
  exact h.inputMat x B b s hb (List.mem_range.1 hs) hx

theorem Spec.GaugeOf.psi (h : GaugeOf m m' n d D c cl cr G) (x : SeqInput K) (B b : ℕ) (hb : b < B)
    (hx : ValidInput x B n d) :
    psi m' x n d D b = (cl * cr * ∏ s ∈ Finset.range n, c s) * psi m x n d D b := by
  unfold Spec.psi amplitude
  rw [h.transMats x B b hb hx, h.left, h.right, Matrix.smul_mulVec, Matrix.mulVec_smul, Matrix.mulVec_mulVec]
  simp only [mul_assoc, Units.mul_inv, mul_one, smul_dotProduct, dotProduct_smul, smul_eq_mul]
  rw [← Matrix.mulVec_mulVec, Matrix.dotProduct_mulVec (Matrix.vecMul _ _), Matrix.vecMul_vecMul, Units.mul_inv,
    Matrix.vecMul_one]
  ring

theorem Spec.GaugeOf.modelZ (h : GaugeOf m m' n d D c cl cr G) :
    modelZ m' n d D = ‖cl * cr * ∏ s ∈ Finset.range n, c s‖ ^ 2 * modelZ m n d D := by
  unfold Spec.modelZ
  rw [Finset.mul_sum]
  refine Finset.sum_congr rfl fun x _ => ?_
  rw [← psi_single m' n d D x 0, ← psi_single m n d D x 0, h.psi _ 1 0 (by norm_num) (single_valid x), norm_mul,
    mul_pow]

theorem Spec.GaugeOf.accepts (h : GaugeOf m m' n d D c cl cr G) (hc : ∀ s < n, c s ≠ 0) (hl : cl ≠ 0) (hr : cr ≠ 0)
    (x : SeqInput K) (B b : ℕ) (hb : b < B) (hx : ValidInput x B n d) (slim par : Bool) :
    Accepts m' x n d D slim par b ↔ Accepts m x n d D slim par b := by
  have hp : ∏ s ∈ Finset.range n, c s ≠ 0 := Finset.prod_ne_zero_iff.2 fun s hs => hc s (Finset.mem_range.1 hs)
  unfold Accepts
  rw [h.psi x B b hb hx, h.transMats x B b hb hx, h.left]
  split
  · refine or_congr Iff.rfl (not_congr ?_)
    rw [Matrix.vecMul_smul, Matrix.smul_vecMul, Matrix.vecMul_vecMul, mul_assoc, Units.mul_inv_cancel_left]
    rw [smul_eq_zero_iff_right hp, smul_eq_zero_iff_right hl]
    constructor
    · intro h0
      have := congrArg (fun v => Matrix.vecMul v (G n)⁻¹.val) h0
      simpa [Matrix.vecMul_vecMul, mul_assoc] using this
    · intro h0
      rw [← Matrix.vecMul_vecMul, h0, Matrix.zero_vecMul]
  · split
    · refine or_congr Iff.rfl (not_congr ?_)
      rw [smul_eq_zero_iff_right hp, Units.mul_left_eq_zero, Units.mul_right_eq_zero]
    · rw [Ne, Ne, mul_eq_zero, not_or]
      exact ⟨fun h => h.2, fun h0 => ⟨mul_ne_zero (mul_ne_zero hl hr) hp, h0⟩⟩

theorem bornLog_scale (k p : K) (hk : k ≠ 0) (Z : ℝ) : bornLog (k * p) (‖k‖ ^ 2 * Z) = bornLog p Z := by
  unfold bornLog
  by_cases hp : p = 0
  · simp [hp]
  · rw [if_neg (mul_ne_zero hk hp), if_neg hp, norm_mul, mul_pow, mul_div_mul_left]
    exact pow_ne_zero 2 (norm_ne_zero_iff.2 hk)

/-- C27: rescaling the parameters by non-zero scalars and inserting invertible matrices on the bonds changes no
outcome: both models raise AssertionError, or both return the same log probabilities. -/
theorem C27_scale_and_gauge_invariance (h : GaugeOf m m' n d D c cl cr G) (hm : ValidModel m n d D)
    (hm' : ValidModel m' n d D) (he : m.embedding = none) (he' : m'.embedding = none) (hb : m.bias = none ↔ m'.bias = none)
    (hc : ∀ s < n, c s ≠ 0) (hl : cl ≠ 0) (hr : cr ≠ 0) (x : SeqInput K) (B : ℕ) (hx : ValidInput x B n d)
    (slim par : Bool) (hs : SlimOK m slim B n) :
    ((m.forward x slim par).1 = .error .assertion ∧ (m'.forward x slim par).1 = .error .assertion) ∨
    ∃ out out', (m.forward x slim par).1 = .ok out ∧ (m'.forward x slim par).1 = .ok out' ∧
      out.shape = [B] ∧ out'.shape = [B] ∧ ∀ b < B, out'.get [b] = out.get [b] := by
  have hk : cl * cr * ∏ s ∈ Finset.range n, c s ≠ 0 := mul_ne_zero (mul_ne_zero hl hr)
    (Finset.prod_ne_zero_iff.2 fun s hs => hc s (Finset.mem_range.1 hs))
  have hs' : SlimOK m' slim B n := fun hh => ⟨hb.1 (hs hh).1, (hs hh).2⟩
  obtain ⟨-, h1, h2⟩ := C21_forward_exact m n d D hm he x B hx slim par hs
  obtain ⟨-, h1', h2'⟩ := C21_forward_exact m' n d D hm' he' x B hx slim par hs'
  have hiff : (Spec.modelZ m' n d D ≠ 0 ∧ ∀ b < B, Accepts m' x n d D slim par b) ↔
      (Spec.modelZ m n d D ≠ 0 ∧ ∀ b < B, Accepts m x n d D slim par b) := by
    rw [h.modelZ]
    refine and_congr ?_ (forall₂_congr fun b hb => h.accepts hc hl hr x B b hb hx slim par)
    rw [Ne, Ne, mul_eq_zero, not_or]
    exact ⟨fun h => h.2, fun h0 => ⟨pow_ne_zero 2 (norm_ne_zero_iff.2 hk), h0⟩⟩
  by_cases hacc : Spec.modelZ m n d D ≠ 0 ∧ ∀ b < B, Accepts m x n d D slim par b
  · right
    obtain ⟨o, ho, k3, k4⟩ := h1 hacc
    obtain ⟨o', ho', k3', k4'⟩ := h1' (hiff.2 hacc)
    refine ⟨o, o', ho, ho', k3, k3', fun b hb => ?_⟩
    rw [k4 b hb, k4' b hb, h.modelZ, h.psi x B b hb hx, bornLog_scale _ _ hk]
  · left
    exact ⟨h2 hacc, h2' (fun hh => hacc (hiff.1 hh))⟩

end gauge

/-- a genuine gauge transformation: the bond basis of `orthModel` is permuted on the inner bond and the second core
is doubled -/
example : ∃ (m' : ProbMPS ℝ) (c : ℕ → ℝ) (G : ℕ → (Matrix (Fin 2) (Fin 2) ℝ)ˣ), ValidModel m' 2 2 2 ∧
    (∀ s < 2, c s ≠ 0) ∧ c 1 = 2 ∧ (G 1 : Matrix (Fin 2) (Fin 2) ℝ) ≠ 1 ∧ m'.bias = none ∧
    GaugeOf orthModel m' 2 2 2 c 3 1 G := by
  let P : (Matrix (Fin 2) (Fin 2) ℝ)ˣ := ⟨!![0, 1; 1, 0], !![0, 1; 1, 0], by
    ext i j; fin_cases i <;> fin_cases j <;> simp [Matrix.mul_apply], by
    ext i j; fin_cases i <;> fin_cases j <;> simp [Matrix.mul_apply]⟩
  let G : ℕ → (Matrix (Fin 2) (Fin 2) ℝ)ˣ := fun s => if s = 1 then P else 1
  let c : ℕ → ℝ := fun s => (s : ℝ) + 1
  let new : ℕ → ℕ → Matrix (Fin 2) (Fin 2) ℝ := fun s k =>
    c s • ((G s)⁻¹.val * coreMat orthModel.core 2 s k * (G (s + 1)).val)
  refine ⟨⟨false, ⟨[2, 2, 2, 2], fun idx => new (idx.getD 0 0) (idx.getD 1 0) (Fin.ofNat 2 (idx.getD 2 0))
    (Fin.ofNat 2 (idx.getD 3 0))⟩, ⟨[2, 2], fun idx => if idx.getD 0 0 = 0 then 3 * orthModel.edge.get idx else
      orthModel.edge.get idx⟩, none, none⟩, c, G, ⟨rfl, rfl, by simp, by norm_num⟩, ?_, ?_, ?_, rfl, ⟨?_, ?_, ?_, ?_⟩⟩
  · intro s _; positivity
  · norm_num [c]
  · intro h
    have := congrFun (congrFun h 0) 0
    simp [G, P] at this
  · intro s _ k _
    ext i j
    simp [coreMat, new]
  · intro s _; simp [biasMat, orthModel]
  · ext i
    simp [boundVec, G]
  · ext i
    simp [boundVec, G]

/-! ### C33 -/

/-- C33: `slim_eval` with a bias matrix always raises ValueError, whatever the value of `parallel_eval`. -/
theorem C33_slim_with_bias [RCLike K] (m : ProbMPS K) (he : m.embedding = none) (hb : m.bias ≠ none)
    (x : SeqInput K) (par : Bool) : (m.forward x true par).1 = .error .value := by
  unfold ProbMPS.forward
  split
  · rfl
  · simp only [he]
    simp [ProbMPS.body, evalPsi_slim_bias m hb, bind, Except.bind]

/-- C33: with `slim_eval` the option `parallel_eval` has no effect at all (in contrast to its documentation). -/
theorem C33_slim_ignores_parallel [RCLike K] (m : ProbMPS K) (x : SeqInput K) (par : Bool) :
    m.forward x true par = m.forward x true false := by
  unfold ProbMPS.forward ProbMPS.body ProbMPS.evalPsi
  simp

/-- C33: the documented precedence ("parallel_eval overrides slim_eval") fails: there is a model with bias for which
`parallel_eval=True` alone returns a result, and with `slim_eval=True` in addition ValueError is raised. -/
theorem C33_documented_precedence_fails : ∃ (m : ProbMPS ℝ) (x : SeqInput ℝ),
    (∃ out, (m.forward x false true).1 = .ok out) ∧ (m.forward x true true).1 = .error .value := by
  let m : ProbMPS ℝ := { posModel with bias := some ⟨[2, 2], fun _ => 0⟩ }
  have hm : ValidModel m 2 2 2 := ⟨rfl, rfl, by simp [m], by norm_num⟩
  have h : ∀ x, psiSeq m 2 2 2 x ≠ 0 := fun x => by
    have : psiSeq m 2 2 2 x = psiSeq posModel 2 2 2 x := by
      unfold psiSeq
      have : biasMat m 2 = 0 := by ext i j; simp [biasMat, m]
      have h2 : biasMat posModel 2 = 0 := by simp [biasMat, posModel]
      rw [this, h2]
    rw [this, posModel_psi]; positivity
  let x : SeqInput ℝ := single (fun _ => 0 : Fin 2 → Fin 2)
  refine ⟨m, x, ?_, C33_slim_with_bias m rfl (by simp [m]) x true⟩
  obtain ⟨out, ho, -⟩ := C21_born_rule m 2 2 2 hm rfl x 1 (single_valid _) false true (by simp [SlimOK])
    (modelZ_ne_zero m 2 2 2 _ (h fun _ => 0)) (fun b _ => by rw [psi_single]; exact h _)
  exact ⟨out, ho⟩

end TorchMPS
