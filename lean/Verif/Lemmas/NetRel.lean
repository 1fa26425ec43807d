import Verif.Spec.RoundedMps
import Verif.Lemmas.NetExact
/-
Rounded numbers against triples of the exact value, the value of the absolute values, and a weight bounding the error. The triples form a ring, so
the exact model can be run on them.
-/
namespace TorchMPS
open Spec
variable {K : Type} [RCLike K]

/-- exact value, value of the absolute values, weight -/
abbrev Tri (K : Type) := K × ℝ × ℝ

/-- `f` is an approximation of `e.1` with error at most `q * weight - absolute value` -/
def Rq (q : ℝ) (f : K) (e : Tri K) : Prop := ‖e.1‖ ≤ e.2.1 ∧ ‖f - e.1‖ ≤ q * e.2.2 - e.2.1

theorem Rq.abs {q : ℝ} {f : K} {e : Tri K} (h : Rq q f e) : ‖f‖ ≤ q * e.2.2 := by
  have h1 := h.1
  have h2 := h.2
  have h3 : ‖f‖ ≤ ‖f - e.1‖ + ‖e.1‖ := by
    have := norm_add_le (f - e.1) e.1
    rwa [sub_add_cancel] at this
  linarith

theorem Rq.weight {q : ℝ} {f : K} {e : Tri K} (h : Rq q f e) (hq : 0 < q) : 0 ≤ e.2.2 := by
  have h1 : 0 ≤ q * e.2.2 := le_trans (norm_nonneg _) h.abs
  exact nonneg_of_mul_nonneg_right h1 hq

theorem Rq.mono {q q' : ℝ} {f : K} {e : Tri K} (h : Rq q f e) (hq : 0 < q) (hqq : q ≤ q') : Rq q' f e :=
  ⟨h.1, le_trans h.2 (sub_le_sub_right (mul_le_mul_of_nonneg_right hqq (h.weight hq)) _)⟩

theorem Rq.exact {q : ℝ} {f : K} {w : ℝ} (h : ‖f‖ ≤ q * w) : Rq q f (f, ‖f‖, w) := by
  refine ⟨le_refl _, ?_⟩
  simp only [sub_self, norm_zero]
  linarith

theorem Rq.zero {q : ℝ} : Rq q (0 : K) (0 : Tri K) := by
  refine ⟨?_, ?_⟩ <;> simp

/-- one product -/
theorem Rq.mul {q₁ q₂ : ℝ} {f g : K} {e d : Tri K} (h : Rq q₁ f e) (h' : Rq q₂ g d) :
    ‖f * g - (e * d).1‖ ≤ q₁ * q₂ * (e * d).2.2 - (e * d).2.1 ∧ ‖f‖ * ‖g‖ ≤ q₁ * q₂ * (e * d).2.2 ∧ ‖(e * d).1‖ ≤ (e * d).2.1 := by
  have e1 : (e * d).1 = e.1 * d.1 := rfl
  have e2 : (e * d).2.1 = e.2.1 * d.2.1 := rfl
  have e3 : (e * d).2.2 = e.2.2 * d.2.2 := rfl
  rw [e1, e2, e3]
  have hf := h.abs
  have hg := h'.abs
  have a1 := h.1
  have a2 := h.2
  have b1 := h'.1
  have b2 := h'.2
  refine ⟨?_, ?_, ?_⟩
  · have : f * g - e.1 * d.1 = (f - e.1) * g + e.1 * (g - d.1) := by ring
    rw [this]
    refine le_trans (norm_add_le _ _) ?_
    rw [norm_mul, norm_mul]
    have k1 : ‖f - e.1‖ * ‖g‖ ≤ (q₁ * e.2.2 - e.2.1) * (q₂ * d.2.2) :=
      mul_le_mul a2 hg (norm_nonneg _) (le_trans (norm_nonneg _) a2)
    have k2 : ‖e.1‖ * ‖g - d.1‖ ≤ e.2.1 * (q₂ * d.2.2 - d.2.1) :=
      mul_le_mul a1 b2 (norm_nonneg _) (le_trans (norm_nonneg _) a1)
    nlinarith
  · have := mul_le_mul hf hg (norm_nonneg _) (le_trans (norm_nonneg _) hf)
    nlinarith
  · rw [norm_mul]
    exact mul_le_mul a1 b1 (norm_nonneg _) (le_trans (norm_nonneg _) a1)

theorem rq_dot {A : NetArith K} {S : ℕ} {γ u : ℝ} (ac : AccurateNet A S γ u) {q₁ q₂ : ℝ} (idx : List ℕ) (l : List (K × K)) (l' : List (Tri K × Tri K))
    (h : List.Forall₂ (fun p p' => Rq q₁ p.1 p'.1 ∧ Rq q₂ p.2 p'.2) l l') (hl : l.length ≤ S) :
    Rq (q₁ * q₂ * (1 + γ)) (A.dot idx l) (l'.map (fun p => p.1 * p.2)).sum := by
  have key : ‖(l.map (fun p : K × K => p.1 * p.2)).sum - (l'.map (fun p : Tri K × Tri K => p.1 * p.2)).sum.1‖ ≤
        q₁ * q₂ * (l'.map (fun p : Tri K × Tri K => p.1 * p.2)).sum.2.2 - (l'.map (fun p : Tri K × Tri K => p.1 * p.2)).sum.2.1 ∧
      (l.map (fun p : K × K => ‖p.1‖ * ‖p.2‖)).sum ≤ q₁ * q₂ * (l'.map (fun p : Tri K × Tri K => p.1 * p.2)).sum.2.2 ∧
      ‖(l'.map (fun p : Tri K × Tri K => p.1 * p.2)).sum.1‖ ≤ (l'.map (fun p : Tri K × Tri K => p.1 * p.2)).sum.2.1 := by
    clear hl
    induction h with
    | nil => simp
    | @cons p p' l l' hp _ ih =>
      obtain ⟨i1, i2, i3⟩ := ih
      obtain ⟨m1, m2, m3⟩ := Rq.mul hp.1 hp.2
      simp only [List.map_cons, List.sum_cons, Prod.fst_add, Prod.snd_add]
      refine ⟨?_, by linarith, le_trans (norm_add_le _ _) (add_le_add m3 i3)⟩
      rw [add_sub_add_comm]
      refine le_trans (norm_add_le _ _) ?_
      linarith
  obtain ⟨k1, k2, k3⟩ := key
  refine ⟨k3, ?_⟩
  have h1 := ac.dot idx l hl
  have h2 := mul_le_mul_of_nonneg_left k2 ac.gamma
  have h3 := norm_sub_le_norm_sub_add_norm_sub (A.dot idx l) (l.map (fun p : K × K => p.1 * p.2)).sum (l'.map (fun p : Tri K × Tri K => p.1 * p.2)).sum.1
  nlinarith

theorem rq_sum {A : NetArith K} {S : ℕ} {γ u : ℝ} (ac : AccurateNet A S γ u) {q : ℝ} (idx : List ℕ) (l : List K) (l' : List (Tri K))
    (h : List.Forall₂ (Rq q) l l') (hl : l.length ≤ S) : Rq (q * (1 + γ)) (A.sum idx l) l'.sum := by
  have key : ‖l.sum - l'.sum.1‖ ≤ q * l'.sum.2.2 - l'.sum.2.1 ∧ (l.map (fun x => ‖x‖)).sum ≤ q * l'.sum.2.2 ∧ ‖l'.sum.1‖ ≤ l'.sum.2.1 := by
    clear hl
    induction h with
    | nil => simp
    | @cons p p' l l' hp _ ih =>
      obtain ⟨i1, i2, i3⟩ := ih
      have hp1 := hp.1
      have hp2 := hp.2
      have hp3 := hp.abs
      simp only [List.map_cons, List.sum_cons, Prod.fst_add, Prod.snd_add]
      refine ⟨?_, by linarith, le_trans (norm_add_le _ _) (add_le_add hp1 i3)⟩
      rw [add_sub_add_comm]
      refine le_trans (norm_add_le _ _) ?_
      linarith
  obtain ⟨k1, k2, k3⟩ := key
  refine ⟨k3, ?_⟩
  have h1 := ac.sum idx l hl
  have h2 := mul_le_mul_of_nonneg_left k2 ac.gamma
  have h3 := norm_sub_le_norm_sub_add_norm_sub (A.sum idx l) l.sum l'.sum.1
  nlinarith

theorem rq_add {A : NetArith K} {S : ℕ} {γ u : ℝ} (ac : AccurateNet A S γ u) {q : ℝ} (idx : List ℕ) (f g : K) (e d : Tri K) (h : Rq q f e) (h' : Rq q g d) :
    Rq (q * (1 + u)) (A.add idx f g) (e + d) := by
  have a1 := h.1
  have a2 := h.2
  have b1 := h'.1
  have b2 := h'.2
  refine ⟨le_trans (norm_add_le _ _) (add_le_add a1 b1), ?_⟩
  simp only [Prod.fst_add, Prod.snd_add]
  have h1 := ac.add idx f g
  have h2 : ‖f + g‖ ≤ q * e.2.2 + q * d.2.2 := le_trans (norm_add_le _ _) (add_le_add h.abs h'.abs)
  have h3 := mul_le_mul_of_nonneg_left h2 ac.unit
  have h4 := norm_sub_le_norm_sub_add_norm_sub (A.add idx f g) (f + g) (e.1 + d.1)
  have h5 : ‖f + g - (e.1 + d.1)‖ ≤ ‖f - e.1‖ + ‖g - d.1‖ := by
    rw [add_sub_add_comm]
    exact norm_add_le _ _
  nlinarith

/-! ### Tensors -/

/-- tensors of one shape with approximating entries -/
def TR (q : ℝ) (t : Tensor K) (t' : Tensor (Tri K)) : Prop := t'.shape = t.shape ∧ ∀ idx, Rq q (t.get idx) (t'.get idx)

theorem TR.mono {q q' : ℝ} {t : Tensor K} {t' : Tensor (Tri K)} (h : TR q t t') (hq : 0 < q) (hqq : q ≤ q') : TR q' t t' :=
  ⟨h.1, fun idx => (h.2 idx).mono hq hqq⟩

/-- the same exception, or related results -/
inductive ExRel {α β : Type} (Q : α → β → Prop) : Except Err α → Except Err β → Prop
  | ok (a : α) (b : β) (h : Q a b) : ExRel Q (.ok a) (.ok b)
  | error (e : Err) : ExRel Q (.error e) (.error e)

theorem ExRel.mono {α β : Type} {Q Q' : α → β → Prop} {x : Except Err α} {y : Except Err β} (h : ExRel Q x y) (hQ : ∀ a b, Q a b → Q' a b) : ExRel Q' x y := by
  cases h with
  | ok a b h => exact .ok a b (hQ a b h)
  | error e => exact .error e

theorem ExRel.bind {α β α' β' : Type} {Q : α → β → Prop} {Q' : α' → β' → Prop} {x : Except Err α} {y : Except Err β} {f : α → Except Err α'} {f' : β → Except Err β'}
    (h : ExRel Q x y) (hf : ∀ a b, x = .ok a → y = .ok b → Q a b → ExRel Q' (f a) (f' b)) : ExRel Q' (x >>= f) (y >>= f') := by
  cases h with
  | ok a b h => exact hf a b rfl rfl h
  | error e => exact .error e

theorem ExRel.same {α α' β' : Type} {Q' : α' → β' → Prop} (x : Except Err α) {f : α → Except Err α'} {f' : α → Except Err β'}
    (hf : ∀ a, x = .ok a → ExRel Q' (f a) (f' a)) : ExRel Q' (x >>= f) (x >>= f') := by
  cases x with
  | ok a => exact hf a rfl
  | error e => exact .error e

omit [RCLike K] in
theorem envs_length (size : Char → ℕ) (S : ℕ) (hS : 1 ≤ S) (cs : List Char) (h : cs.length ≤ 1) (hs : ∀ c ∈ cs, size c ≤ S) (env : Env) :
    (envsOver size cs env).length ≤ S := by
  match cs, h with
  | [], _ => simpa [envsOver] using hS
  | [c], _ => simpa [envsOver, List.length_flatMap] using hs c (by simp)

omit [RCLike K] in
theorem einOk2 (i j out : List Char) {a b : Tensor K} {a' b' : Tensor (Tri K)} (ha : a'.shape = a.shape) (hb : b'.shape = b.shape) :
    EinOk [i, j] out [a', b'] ↔ EinOk [i, j] out [a, b] := by
  simp only [EinOk, einUses, List.zip_cons_cons, List.zip_nil_right, List.flatMap_cons, List.flatMap_nil, Tensor.ndim, ha, hb, List.mem_cons, List.not_mem_nil, or_false,
    forall_eq_or_imp, forall_eq, List.length_cons, List.length_nil]

omit [RCLike K] in
theorem einUses2 (i j : List Char) {a b : Tensor K} {a' b' : Tensor (Tri K)} (ha : a'.shape = a.shape) (hb : b'.shape = b.shape) :
    einUses [i, j] [a', b'] = einUses [i, j] [a, b] := by
  simp [einUses, ha, hb]

theorem rel_ein2 {A : NetArith K} {S : ℕ} {γ u : ℝ} (ac : AccurateNet A S γ u) (hS : 1 ≤ S) {q₁ q₂ : ℝ} (i j out : List Char) {a b : Tensor K} {a' b' : Tensor (Tri K)}
    (ha : TR q₁ a a') (hb : TR q₂ b b') (h1 : (einInner [i, j] out).length ≤ 1) (h2 : ∀ c ∈ einInner [i, j] out, letterSize (einUses [i, j] [a, b]) c ≤ S) :
    ExRel (TR (q₁ * q₂ * (1 + γ))) (A.ein2 i j out a b) (einsum [i, j] out [a', b']) := by
  rw [einsum2_eq]
  unfold NetArith.ein2
  by_cases h : EinOk [i, j] out [a, b]
  · rw [if_pos h, if_pos ((einOk2 i j out ha.1 hb.1).2 h)]
    refine .ok _ _ ⟨by simp only [einUses2 i j ha.1 hb.1], fun idx => ?_⟩
    simp only [einUses2 i j ha.1 hb.1]
    have := rq_dot ac idx ((envsOver (letterSize (einUses [i, j] [a, b])) (einInner [i, j] out) (Env.ofOut out idx)).map (fun env =>
        (a.get (Tensor.clampIdx a.shape (i.map env)), b.get (Tensor.clampIdx b.shape (j.map env)))))
      ((envsOver (letterSize (einUses [i, j] [a, b])) (einInner [i, j] out) (Env.ofOut out idx)).map (fun env =>
        (a'.get (Tensor.clampIdx a'.shape (i.map env)), b'.get (Tensor.clampIdx b'.shape (j.map env))))) (q₁ := q₁) (q₂ := q₂) (by
        rw [List.forall₂_map_left_iff, List.forall₂_map_right_iff, List.forall₂_same]
        intro env _
        rw [ha.1, hb.1]
        exact ⟨ha.2 _, hb.2 _⟩) (by rw [List.length_map]; exact envs_length _ S hS _ h1 h2 _)
    rw [List.map_map] at this
    exact this
  · rw [if_neg h, if_neg (fun h' => h ((einOk2 i j out ha.1 hb.1).1 h'))]
    exact .error _

theorem rel_ein1 {A : NetArith K} {S : ℕ} {γ u : ℝ} (ac : AccurateNet A S γ u) (hS : 1 ≤ S) {q : ℝ} (i out : List Char) {a : Tensor K} {a' : Tensor (Tri K)}
    (ha : TR q a a') (h1 : (einInner [i] out).length ≤ 1) (h2 : ∀ c ∈ einInner [i] out, letterSize (einUses [i] [a]) c ≤ S) :
    ExRel (TR (q * (1 + γ))) (A.ein1 i out a) (einsum [i] out [a']) := by
  have hu : einUses [i] [a'] = einUses [i] [a] := by simp [einUses, ha.1]
  have ho : EinOk [i] out [a'] ↔ EinOk [i] out [a] := by
    simp only [EinOk, einUses, List.zip_cons_cons, List.zip_nil_right, List.flatMap_cons, List.flatMap_nil, Tensor.ndim, ha.1, List.mem_cons, List.not_mem_nil, or_false,
      forall_eq, List.length_cons, List.length_nil]
  rw [einsum1_eq]
  unfold NetArith.ein1
  by_cases h : EinOk [i] out [a]
  · rw [if_pos h, if_pos (ho.2 h)]
    refine .ok _ _ ⟨by simp only [hu], fun idx => ?_⟩
    simp only [hu]
    refine rq_sum ac idx _ _ ?_ (by rw [List.length_map]; exact envs_length _ S hS _ h1 h2 _)
    rw [List.forall₂_map_left_iff, List.forall₂_map_right_iff, List.forall₂_same]
    intro env _
    rw [ha.1]
    exact ha.2 _
  · rw [if_neg h, if_neg (fun h' => h (ho.1 h'))]
    exact .error _

theorem rel_bmm {A : NetArith K} {S : ℕ} {γ u : ℝ} (ac : AccurateNet A S γ u) {q₁ q₂ : ℝ} {a b : Tensor K} {a' b' : Tensor (Tri K)}
    (ha : TR q₁ a a') (hb : TR q₂ b b') (h : a.shape.getD 2 0 ≤ S ∨ b.shape.getD 1 0 ≤ S) :
    ExRel (TR (q₁ * q₂ * (1 + γ))) (A.bmm a b) (Tensor.bmm a' b') := by
  unfold NetArith.bmm Tensor.bmm
  rw [ha.1, hb.1]
  split
  · rename_i B n m B' m' p h1 h2
    simp only [h1, h2]
    by_cases hc : B = B' ∧ m = m'
    · rw [if_pos hc, if_pos hc]
      refine .ok _ _ ⟨rfl, fun idx => ?_⟩
      simp only
      rw [← sum_list_range]
      have hm : m ≤ S := by
        rcases h with h | h
        · simpa [h1] using h
        · rw [hc.2]; simpa [h2] using h
      have := rq_dot ac idx ((List.range m).map (fun k => (a.get [idx.getD 0 0, idx.getD 1 0, k], b.get [idx.getD 0 0, k, idx.getD 2 0])))
        ((List.range m).map (fun k => (a'.get [idx.getD 0 0, idx.getD 1 0, k], b'.get [idx.getD 0 0, k, idx.getD 2 0]))) (q₁ := q₁) (q₂ := q₂) (by
          rw [List.forall₂_map_left_iff, List.forall₂_map_right_iff, List.forall₂_same]
          intro k _
          exact ⟨ha.2 _, hb.2 _⟩) (by simpa using hm)
      rw [List.map_map] at this
      exact this
    · rw [if_neg hc, if_neg hc]
      exact .error _
  · rename_i h'
    split
    · rename_i h1 h2
      exact absurd h2 (fun h2 => h' _ _ _ _ _ _ h1 h2)
    · exact .error _

theorem TR.unsqueeze {q : ℝ} {t : Tensor K} {t' : Tensor (Tri K)} (h : TR q t t') (d : ℕ) : TR q (t.unsqueeze d) (t'.unsqueeze d) :=
  ⟨by simp [Tensor.unsqueeze, h.1], fun idx => h.2 _⟩

theorem TR.squeeze {q : ℝ} {t : Tensor K} {t' : Tensor (Tri K)} (h : TR q t t') (d : ℕ) : TR q (t.squeeze d) (t'.squeeze d) := by
  unfold Tensor.squeeze
  rw [h.1]
  split
  · exact ⟨by simp, fun idx => h.2 _⟩
  · exact h

theorem TR.sliceAx {q : ℝ} {t : Tensor K} {t' : Tensor (Tri K)} (h : TR q t t') (d i s n : ℕ) : TR q (t.sliceAx d i s n) (t'.sliceAx d i s n) :=
  ⟨by simp [Tensor.sliceAx, h.1], fun idx => h.2 _⟩

theorem TR.select {q : ℝ} {t : Tensor K} {t' : Tensor (Tri K)} (h : TR q t t') (d i : ℕ) : TR q (t.select d i) (t'.select d i) :=
  ⟨by simp [Tensor.select, h.1], fun idx => h.2 _⟩

theorem TR.pickInput {q : ℝ} {t : Tensor K} {t' : Tensor (Tri K)} (h : TR q t t') (i n : ℕ) : TR q (pickInput t i n) (pickInput t' i n) := by
  unfold TorchMPS.pickInput
  split
  · exact h.select _ _
  · exact h.sliceAx _ _ _ _

theorem TR.cat {q : ℝ} {a b : Tensor K} {a' b' : Tensor (Tri K)} (ha : TR q a a') (hb : TR q b b') (d : ℕ) : ExRel (TR q) (a.cat b d) (a'.cat b' d) := by
  unfold Tensor.cat
  rw [ha.1, hb.1]
  split
  · refine .ok _ _ ⟨rfl, fun idx => ?_⟩
    simp only
    split
    · exact ha.2 _
    · exact hb.2 _
  · exact .error _

theorem TR.expand {q : ℝ} {t : Tensor K} {t' : Tensor (Tri K)} (h : TR q t t') (s : Shape) : ExRel (TR q) (t.expand s) (t'.expand s) := by
  unfold Tensor.expand
  rw [h.1]
  split
  · exact .ok _ _ ⟨rfl, fun idx => h.2 _⟩
  · exact .error _

theorem TR.view {q : ℝ} {t : Tensor K} {t' : Tensor (Tri K)} (h : TR q t t') (s : Shape) : ExRel (TR q) (t.view s) (t'.view s) := by
  unfold Tensor.view
  rw [h.1]
  split
  · exact .ok _ _ ⟨rfl, fun idx => h.2 _⟩
  · exact .error _

end TorchMPS
