import Mathlib.Algebra.BigOperators.Field
import Verif.Props.Slim
/-
`get_log_norm`: the density matrix is always a finite sum of weighted rank one matrices.
-/
namespace TorchMPS
open Spec
variable {K : Type}

/-- the tensor is the matrix `∑ x, W x • u x (u x)†` -/
structure IsFamily [RCLike K] (dm : Tensor K) (D : ℕ) {X : Type} [Fintype X] (W : X → ℝ)
    (u : X → Fin D → K) : Prop where
  shape : dm.shape = [D, D]
  get : ∀ r q : Fin D, dm.get [r, q] = ∑ x, (W x : K) * (u x r * star (u x q))

theorem sum_diag [AddCommMonoid K] (d : ℕ) (f : ℕ → ℕ → K) (h : ∀ i < d, ∀ j < d, i ≠ j → f i j = 0) :
    ∑ i ∈ Finset.range d, ∑ j ∈ Finset.range d, f i j = ∑ i ∈ Finset.range d, f i i := by
  refine Finset.sum_congr rfl fun i hi => ?_
  rw [Finset.sum_eq_single i]
  · intro j hj hne
    exact h i (Finset.mem_range.1 hi) j (Finset.mem_range.1 hj) (Ne.symm hne)
  · intro hn; exact absurd hi hn

theorem transferOp_spec [RCLike K] (lamb : Option (Tensor K)) (d D : ℕ) (Λ : ℕ → ℕ → K) (dm ct : Tensor K)
    (hL : LambdaIs lamb d Λ) (hdm : dm.shape = [D, D]) (hct : ct.shape = [d, D, D]) :
    ∃ o, transferOp lamb dm ct = .ok o ∧ o.shape = [D, D] ∧ ∀ r < D, ∀ q < D, o.get [r, q] =
      ∑ i ∈ Finset.range d, ∑ j ∈ Finset.range d, ∑ l ∈ Finset.range D, ∑ p ∈ Finset.range D,
        Λ i j * (ct.get [i, l, r] * (dm.get [l, p] * star (ct.get [j, p, q]))) := by
  cases lamb with
  | none =>
    obtain ⟨o, h1, h2, h3⟩ := einsum_transfer ct dm (conjT ct) d D D D D hct hdm hct
    refine ⟨o, h1, h2, ?_⟩
    intro r hr q hq
    rw [h3 r hr q hq, Finset.sum_comm, sum_diag]
    · refine Finset.sum_congr rfl fun i hi => ?_
      rw [hL i (Finset.mem_range.1 hi) i (Finset.mem_range.1 hi), if_pos rfl]
      simp [conjT]
    · intro i hi j hj hne
      rw [hL i hi j hj, if_neg hne]; simp
  | some lam =>
    rcases hL with ⟨hs, hL⟩ | ⟨hs, hL⟩ | ⟨hs, hL⟩
    · obtain ⟨o, h1, h2, h3⟩ := einsum_transfer ct dm (conjT ct) d D D D D hct hdm hct
      refine ⟨⟨o.shape, fun idx => lam.get [] * o.get idx⟩, ?_, h2, ?_⟩
      · simp only [transferOp, hs, h1]; rfl
      · intro r hr q hq
        simp only
        rw [h3 r hr q hq, Finset.sum_comm, sum_diag, Finset.mul_sum]
        · refine Finset.sum_congr rfl fun i hi => ?_
          rw [hL i (Finset.mem_range.1 hi) i (Finset.mem_range.1 hi), if_pos rfl]
          simp only [conjT, Finset.mul_sum]
        · intro i hi j hj hne
          rw [hL i hi j hj, if_neg hne]; simp
    · obtain ⟨o, h1, h2, h3⟩ := einsum_transfer_diag lam ct dm (conjT ct) d D D D D hs hct hdm hct
      refine ⟨o, ?_, h2, ?_⟩
      · simp only [transferOp, hs, h1]
      · intro r hr q hq
        rw [h3 r hr q hq, Finset.sum_comm, sum_diag]
        · refine Finset.sum_congr rfl fun i hi => ?_
          rw [hL i (Finset.mem_range.1 hi) i (Finset.mem_range.1 hi), if_pos rfl]
          simp only [conjT]
        · intro i hi j hj hne
          rw [hL i hi j hj, if_neg hne]; simp
    · obtain ⟨o, h1, h2, h3⟩ := einsum_transfer_mat lam ct dm (conjT ct) d D D D D hs hct hdm hct
      refine ⟨o, ?_, h2, ?_⟩
      · simp only [transferOp, hs, h1]
      · intro r hr q hq
        rw [h3 r hr q hq]
        refine Finset.sum_congr rfl fun i hi => ?_
        rw [Finset.sum_comm]
        refine Finset.sum_congr rfl fun j hj => ?_
        rw [hL i (Finset.mem_range.1 hi) j (Finset.mem_range.1 hj)]
        simp only [conjT]

/-- the matrix `∑ k, v k * ct[k]` of a rank-3 core -/
def feat3 [RCLike K] (ct : Tensor K) (d D : ℕ) (v : ℕ → K) : Matrix (Fin D) (Fin D) K :=
  ∑ k ∈ Finset.range d, v k • Matrix.of fun i j : Fin D => ct.get [k, i, j]

theorem vecMul_feat3 [RCLike K] (ct : Tensor K) (d D : ℕ) (v : ℕ → K) (u : Fin D → K) (r : Fin D) :
    Matrix.vecMul u (feat3 ct d D v) r =
      ∑ k ∈ Finset.range d, ∑ l : Fin D, v k * (u l * ct.get [k, l, r]) := by
  simp only [Matrix.vecMul, dotProduct, feat3, Matrix.sum_apply, Matrix.smul_apply, Matrix.of_apply,
    smul_eq_mul, Finset.mul_sum]
  rw [Finset.sum_comm]
  refine Finset.sum_congr rfl fun k _ => Finset.sum_congr rfl fun l _ => ?_
  ring

theorem sum_reorder6 {A B C X : Type} [AddCommMonoid K] (sA : Finset A) (sB : Finset B) (sC : Finset C)
    (sX : Finset X) (f : A → A → B → B → C → X → K) :
    ∑ i ∈ sA, ∑ j ∈ sA, ∑ l ∈ sB, ∑ p ∈ sB, ∑ a ∈ sC, ∑ x ∈ sX, f i j l p a x =
      ∑ x ∈ sX, ∑ a ∈ sC, ∑ j ∈ sA, ∑ p ∈ sB, ∑ i ∈ sA, ∑ l ∈ sB, f i j l p a x := by
  simp only [Finset.sum_sigma']
  refine Finset.sum_nbij' (fun t => ⟨t.2.2.2.2.2, t.2.2.2.2.1, t.2.1, t.2.2.2.1, t.1, t.2.2.1⟩)
    (fun t => ⟨t.2.2.2.2.1, t.2.2.1, t.2.2.2.2.2, t.2.2.2.1, t.2.1, t.1⟩) ?_ ?_ ?_ ?_ ?_ <;>
    simp +contextual

theorem transferOp_family [RCLike K] (lamb : Option (Tensor K)) (d D : ℕ) (Λ : ℕ → ℕ → K) (dm ct : Tensor K)
    (hL : LambdaIs lamb d Λ) {ι : Type} [Fintype ι] (w : ι → ℝ) (v : ι → ℕ → K)
    (hΛ : ∀ i < d, ∀ j < d, Λ i j = ∑ a, (w a : K) * (v a i * star (v a j)))
    {X : Type} [Fintype X] (W : X → ℝ) (u : X → Fin D → K)
    (hdm : IsFamily dm D W u) (hct : ct.shape = [d, D, D]) :
    ∃ o, transferOp lamb dm ct = .ok o ∧ IsFamily o D (fun p : X × ι => W p.1 * w p.2)
      (fun p => Matrix.vecMul (u p.1) (feat3 ct d D (v p.2))) := by
  obtain ⟨o, h1, h2, h3⟩ := transferOp_spec lamb d D Λ dm ct hL hdm.shape hct
  refine ⟨o, h1, h2, ?_⟩
  intro r q
  rw [h3 r r.2 q q.2]
  have e : ∀ i ∈ Finset.range d, ∀ j ∈ Finset.range d,
      ∑ l ∈ Finset.range D, ∑ p ∈ Finset.range D,
        Λ i j * (ct.get [i, l, r] * (dm.get [l, p] * star (ct.get [j, p, q]))) =
      ∑ l : Fin D, ∑ p : Fin D, ∑ a : ι, ∑ x : X,
        ((w a : K) * (v a i * star (v a j))) * (ct.get [i, l, r] *
          (((W x : K) * (u x l * star (u x p))) * star (ct.get [j, p, q]))) := by
    intro i hi j hj
    rw [← Fin.sum_univ_eq_sum_range (fun l => ∑ p ∈ Finset.range D,
        Λ i j * (ct.get [i, l, r] * (dm.get [l, p] * star (ct.get [j, p, q])))) D]
    refine Finset.sum_congr rfl fun l _ => ?_
    rw [← Fin.sum_univ_eq_sum_range (fun p => 
        Λ i j * (ct.get [i, l, r] * (dm.get [l, p] * star (ct.get [j, p, q])))) D]
    refine Finset.sum_congr rfl fun p _ => ?_
    rw [hdm.get l p, hΛ i (Finset.mem_range.1 hi) j (Finset.mem_range.1 hj)]
    simp only [Finset.sum_mul, Finset.mul_sum]
    rw [Finset.sum_comm]
  rw [Finset.sum_congr rfl fun i hi => Finset.sum_congr rfl fun j hj => e i hi j hj, sum_reorder6,
    Fintype.sum_prod_type]
  refine Finset.sum_congr rfl fun x _ => Finset.sum_congr rfl fun a _ => ?_
  simp only [vecMul_feat3, star_sum, star_mul', Finset.sum_mul, Finset.mul_sum]
  refine Finset.sum_congr rfl fun i _ => Finset.sum_congr rfl fun l _ => Finset.sum_congr rfl fun j _ =>
    Finset.sum_congr rfl fun p _ => ?_
  push_cast
  ring

/-- squared norm of a vector -/
noncomputable def vecNormSq [RCLike K] {D : ℕ} (u : Fin D → K) : ℝ := ∑ i, ‖u i‖ ^ 2

theorem mul_star_self_eq [RCLike K] (z : K) : z * star z = ((‖z‖ ^ 2 : ℝ) : K) := by
  rw [RCLike.star_def, RCLike.mul_conj]; push_cast; rfl

theorem family_trace [RCLike K] {dm : Tensor K} {D : ℕ} {X : Type} [Fintype X] {W : X → ℝ}
    {u : X → Fin D → K} (h : IsFamily dm D W u) :
    hermitianTrace (some dm) = .ok (some (∑ x, W x * vecNormSq (u x))) := by
  have ht : traceT dm = ((∑ x, W x * vecNormSq (u x) : ℝ) : K) := by
    rw [traceT, h.shape]
    simp only [min_self]
    rw [← Fin.sum_univ_eq_sum_range (fun i => dm.get [i, i]) D]
    rw [Finset.sum_congr rfl fun i _ => h.get i i, Finset.sum_comm]
    push_cast
    refine Finset.sum_congr rfl fun x _ => ?_
    rw [vecNormSq, ← Finset.mul_sum]
    congr 1
    push_cast
    refine Finset.sum_congr rfl fun i _ => ?_
    rw [mul_star_self_eq]; push_cast; rfl
  rw [hermitianTrace, ht, realify_of_im_zero _ (by simp)]
  simp

theorem family_scale [RCLike K] {dm : Tensor K} {D : ℕ} {X : Type} [Fintype X] {W : X → ℝ}
    {u : X → Fin D → K} (h : IsFamily dm D W u) (t : ℝ) :
    IsFamily ⟨dm.shape, fun idx => dm.get idx / (t : K)⟩ D (fun x => W x / t) u := by
  refine ⟨h.shape, ?_⟩
  intro r q
  simp only
  rw [h.get r q, Finset.sum_div]
  refine Finset.sum_congr rfl fun x _ => ?_
  push_cast
  ring

/-- total weight of all continuations of a row vector through the remaining sites -/
noncomputable def totM [RCLike K] {D : ℕ} {ι : Type} [Fintype ι] (w : ι → ℝ) (r : Fin D → K) :
    List (ι → Matrix (Fin D) (Fin D) K) → (Fin D → K) → ℝ
  | [], l => ‖dotProduct l r‖ ^ 2
  | M :: Ms, l => ∑ a, w a * totM w r Ms (Matrix.vecMul l (M a))

theorem totM_nonneg [RCLike K] {D : ℕ} {ι : Type} [Fintype ι] (w : ι → ℝ) (hw : ∀ a, 0 ≤ w a) (r : Fin D → K)
    (Ms : List (ι → Matrix (Fin D) (Fin D) K)) (l : Fin D → K) : 0 ≤ totM w r Ms l := by
  induction Ms generalizing l with
  | nil => exact sq_nonneg _
  | cons M Ms ih => exact Finset.sum_nonneg fun a _ => mul_nonneg (hw a) (ih _)

theorem totM_zero [RCLike K] {D : ℕ} {ι : Type} [Fintype ι] (w : ι → ℝ) (r : Fin D → K)
    (Ms : List (ι → Matrix (Fin D) (Fin D) K)) : totM w r Ms 0 = 0 := by
  induction Ms with
  | nil => simp [totM]
  | cons M Ms ih => simp [totM, ih]

theorem totM_ofFn [RCLike K] {D : ℕ} {ι : Type} [Fintype ι] (w : ι → ℝ) (r : Fin D → K) (n : ℕ)
    (M : Fin n → ι → Matrix (Fin D) (Fin D) K) (l : Fin D → K) :
    totM w r (List.ofFn M) l = ∑ x : Fin n → ι, (∏ s, w (x s)) *
      ‖amplitude l r (List.ofFn fun s => M s (x s))‖ ^ 2 := by
  induction n generalizing l with
  | zero => simp [totM, amplitude]
  | succ n ih =>
    rw [List.ofFn_succ, totM]
    rw [← (Fin.consEquiv (fun _ : Fin (n + 1) => ι)).sum_comp, Fintype.sum_prod_type]
    refine Finset.sum_congr rfl fun a _ => ?_
    rw [ih, Finset.mul_sum]
    refine Finset.sum_congr rfl fun x _ => ?_
    simp only [Fin.consEquiv, Equiv.coe_fn_mk, Fin.prod_univ_succ, Fin.cons_zero, Fin.cons_succ,
      List.ofFn_succ]
    rw [mul_assoc]
    congr 3
    rw [amplitude, amplitude, List.prod_cons, ← Matrix.mulVec_mulVec, Matrix.dotProduct_mulVec l]

/-- the final correction computed from the density matrix is the real number `c` -/
def FinalIs [RCLike K] (dm : Tensor K) (D : ℕ) (r : Fin D → K) (c : ℝ) : Prop :=
  dm.shape = [D, D] ∧ ∑ i : Fin D, ∑ j : Fin D, r i * (dm.get [i, j] * star (r j)) = (c : K)

theorem family_final [RCLike K] {dm : Tensor K} {D : ℕ} {X : Type} [Fintype X] {W : X → ℝ}
    {u : X → Fin D → K} (h : IsFamily dm D W u) (r : Fin D → K) :
    FinalIs dm D r (∑ x, W x * ‖dotProduct (u x) r‖ ^ 2) := by
  refine ⟨h.shape, ?_⟩
  have : ∀ x, (W x : K) * ((‖dotProduct (u x) r‖ ^ 2 : ℝ) : K) =
      ∑ i, ∑ j, r i * ((W x : K) * (u x i * star (u x j)) * star (r j)) := by
    intro x
    rw [← mul_star_self_eq]
    simp only [dotProduct, star_sum, star_mul', Finset.sum_mul, Finset.mul_sum]
    rw [Finset.sum_comm]
    refine Finset.sum_congr rfl fun i _ => Finset.sum_congr rfl fun j _ => ?_
    ring
  have e : ((∑ x, W x * ‖dotProduct (u x) r‖ ^ 2 : ℝ) : K) =
      ∑ x, (W x : K) * ((‖dotProduct (u x) r‖ ^ 2 : ℝ) : K) := by push_cast; rfl
  rw [e, Finset.sum_congr rfl fun x _ => this x]
  simp only [h.get, Finset.sum_mul, Finset.mul_sum]
  rw [Finset.sum_congr rfl fun i _ => Finset.sum_comm, Finset.sum_comm]

theorem transferStep_none [RCLike K] (lamb : Option (Tensor K)) (l : Option ℝ) (cts : List (Tensor K)) :
    cts.foldlM (transferStep lamb) ((none : Option (Tensor K)), l) = .ok (none, l) ∨
    (isComplex K ∧ cts.foldlM (transferStep lamb) ((none : Option (Tensor K)), l) = .error .assertion) := by
  induction cts with
  | nil => exact Or.inl rfl
  | cons ct cts ih =>
    rw [List.foldlM_cons, transferStep, hermitianTrace, realify]
    by_cases hc : isComplex K
    · right; rw [if_pos hc]; exact ⟨hc, rfl⟩
    · rw [if_neg hc]; exact ih

theorem foldl_family [RCLike K] (lamb : Option (Tensor K)) (d D : ℕ) (Λ : ℕ → ℕ → K)
    (hL : LambdaIs lamb d Λ) {ι : Type} [Fintype ι] (w : ι → ℝ) (hw : ∀ a, 0 ≤ w a) (v : ι → ℕ → K)
    (hΛ : ∀ i < d, ∀ j < d, Λ i j = ∑ a, (w a : K) * (v a i * star (v a j))) (r : Fin D → K)
    (cts : List (Tensor K)) (hct : ∀ ct ∈ cts, ct.shape = [d, D, D])
    {X : Type} [Fintype X] (W : X → ℝ) (hW : ∀ x, 0 ≤ W x) (u : X → Fin D → K) (dm : Tensor K)
    (hdm : IsFamily dm D W u) (l0 : ℝ) (S : ℝ)
    (hS : S = ∑ x, W x * totM w r (cts.map fun ct a => feat3 ct d D (v a)) (u x)) :
    (S ≠ 0 → ∃ dm' l' c, cts.foldlM (transferStep lamb) (some dm, some l0) = .ok (some dm', some l') ∧
      0 < c ∧ FinalIs dm' D r c ∧ l' + Real.log c = l0 + Real.log S) ∧
    (S = 0 → (∃ dm' l', cts.foldlM (transferStep lamb) (some dm, some l0) = .ok (some dm', some l') ∧
        FinalIs dm' D r 0) ∨
      (∃ l', cts.foldlM (transferStep lamb) (some dm, some l0) = .ok (none, l')) ∨
      (isComplex K ∧ cts.foldlM (transferStep lamb) (some dm, some l0) = .error .assertion)) := by
  induction cts generalizing X dm l0 S with
  | nil =>
    have hf := family_final hdm r
    simp only [List.map_nil, totM] at hS
    rw [← hS] at hf
    have hS0 : 0 ≤ S := by
      rw [hS]; exact Finset.sum_nonneg fun x _ => mul_nonneg (hW x) (sq_nonneg _)
    refine ⟨fun h => ⟨dm, l0, S, rfl, lt_of_le_of_ne hS0 (Ne.symm h), hf, rfl⟩, ?_⟩
    rintro rfl
    exact Or.inl ⟨dm, l0, rfl, hf⟩
  | cons ct cts ih =>
    obtain ⟨o, ho, hfam⟩ := transferOp_family lamb d D Λ dm ct hL w v hΛ W u hdm (hct ct (by simp))
    have htr := family_trace hfam
    set tr := ∑ x : X × ι, W x.1 * w x.2 * vecNormSq (Matrix.vecMul (u x.1) (feat3 ct d D (v x.2))) with htrd
    have htr0 : 0 ≤ tr := Finset.sum_nonneg fun x _ =>
      mul_nonneg (mul_nonneg (hW _) (hw _)) (Finset.sum_nonneg fun _ _ => sq_nonneg _)
    have hS' : S = ∑ p : X × ι, W p.1 * w p.2 * totM w r (cts.map fun ct a => feat3 ct d D (v a))
        (Matrix.vecMul (u p.1) (feat3 ct d D (v p.2))) := by
      rw [hS, Fintype.sum_prod_type]
      refine Finset.sum_congr rfl fun x _ => ?_
      simp only [List.map_cons, totM, Finset.mul_sum]
      refine Finset.sum_congr rfl fun a _ => ?_
      ring
    have hstep : transferStep lamb (some dm, some l0) ct =
        if tr = 0 then .ok (none, none)
        else .ok (some ⟨o.shape, fun idx => o.get idx / (tr : K)⟩, some (l0 + Real.log tr)) := by
      simp only [transferStep, ho, bind, Except.bind, htr, pure, Except.pure]
      split
      · rfl
      · rename_i h
        rw [if_pos (lt_of_le_of_ne htr0 (Ne.symm h))]; rfl
    by_cases h0 : tr = 0
    · have hz : S = 0 := by
        rw [hS']
        refine Finset.sum_eq_zero fun p _ => ?_
        have := (Finset.sum_eq_zero_iff_of_nonneg (fun x _ =>
          mul_nonneg (mul_nonneg (hW x.1) (hw x.2)) (Finset.sum_nonneg fun _ _ => sq_nonneg _))).1 h0 p
          (Finset.mem_univ p)
        rcases mul_eq_zero.1 this with h | h
        · rw [h, zero_mul]
        · have hv : Matrix.vecMul (u p.1) (feat3 ct d D (v p.2)) = 0 := by
            funext i
            have := (Finset.sum_eq_zero_iff_of_nonneg (fun i _ => sq_nonneg _)).1 h i (Finset.mem_univ i)
            simpa using this
          rw [hv, totM_zero, mul_zero]
      refine ⟨fun h => absurd hz h, fun _ => Or.inr ?_⟩
      rw [List.foldlM_cons, hstep, if_pos h0]
      rcases transferStep_none (K := K) lamb none cts with h | h
      · exact Or.inl ⟨_, h⟩
      · exact Or.inr h
    · rw [List.foldlM_cons, hstep, if_neg h0]
      have hpos : 0 < tr := lt_of_le_of_ne htr0 (Ne.symm h0)
      have := ih (fun c hc => hct c (by simp [hc])) (fun p : X × ι => W p.1 * w p.2 / tr)
        (fun p => div_nonneg (mul_nonneg (hW _) (hw _)) htr0) _ _ (family_scale hfam tr) (l0 + Real.log tr)
        (S / tr) (by
          rw [hS', Finset.sum_div]
          exact Finset.sum_congr rfl fun p _ => by ring)
      refine ⟨fun h => ?_, fun h => this.2 (by rw [h, zero_div])⟩
      obtain ⟨dm', l', c, e1, e2, e3, e4⟩ := this.1 (div_ne_zero h h0)
      refine ⟨dm', l', c, e1, e2, e3, ?_⟩
      rw [e4, Real.log_div h h0]; ring

end TorchMPS
