import Verif.Props.Embeddings
import Mathlib.Data.Nat.Choose.Sum
/-
C31, C32, C35 - C38: rescaled and one-hot embeddings, continuous domains, feature maps, lambda matrices, constructors.
-/
namespace TorchMPS
open Spec
variable {K : Type}

/-! ### C35 -/

/-- C35: on values in `[0, d)`, `onehot_embed` appends an axis of size `d` with entry 1 at the value, 0 elsewhere. -/
theorem C35_onehot_entries [RCLike K] (d : ℕ) :
    EmbedsInts (onehotEmbed (K := K) d) d d (fun x k => if k = x then 1 else 0) := by
  classical
  intro t ht
  refine ⟨⟨t.shape ++ [d], fun idx => if t.get idx.dropLast = (idx.getLastD 0 : ℤ) then 1 else 0⟩, ?_, rfl, ?_⟩
  · simp only [onehotEmbed]
    rw [if_pos ht]
  · intro idx hidx k hk
    have h0 := (ht idx hidx).1
    simp only [List.dropLast_concat, List.getLastD_concat]
    have : (t.get idx = (k : ℤ)) ↔ (k = (t.get idx).toNat) := by omega
    simp only [this]

/-- C35: a value outside `[0, d)` makes `onehot_embed` raise RuntimeError. -/
theorem C35_onehot_raises [RCLike K] (d : ℕ) (t : Tensor ℤ) (idx : List ℕ) (hidx : InRange idx t.shape)
    (h : t.get idx < 0 ∨ (d : ℤ) ≤ t.get idx) : onehotEmbed (K := K) d (.ints t) = .error .runtime := by
  classical
  simp only [onehotEmbed]
  rw [if_neg]
  intro hall
  have := hall idx hidx
  omega

theorem gram_onehot [RCLike K] (d i j : ℕ) (hi : i < d) :
    gram (K := K) (fun _ : Fin d => (1 : ℝ)) (fun a k => if k = (a : ℕ) then 1 else 0) i j = if i = j then 1 else 0 := by
  unfold gram
  rw [Finset.sum_eq_single ⟨i, hi⟩]
  · by_cases h : i = j
    · simp [h]
    · simp [h, Ne.symm h]
  · intro b _ hb
    have : ¬ i = (b : ℕ) := fun h => hb (Fin.ext h.symm)
    simp [this]
  · intro h; exact absurd (Finset.mem_univ _) h

theorem onehot_exact [RCLike K] (d : ℕ) : ExactCompression (K := K)
    (gram (fun _ : Fin d => (1 : ℝ)) (fun a k => if k = (a : ℕ) then 1 else 0)) d := by
  right
  refine ⟨fun i hi j hj hij => ?_, Or.inr fun i hi j hj => ?_⟩
  · rw [gram_onehot d i j hi, if_neg hij]
  · rw [gram_onehot d i i hi, gram_onehot d j j hj, if_pos rfl, if_pos rfl]

/-- C35: the lambda matrix of the one-hot embedding of a domain of size `d > 0` is the scalar 1. -/
theorem C35_onehot_lambda [RCLike K] (d : ℕ) (hd : 0 < d) : ∃ e lam,
    Embedding.fixed (onehotEmbed (K := K) d) (.discrete d) = .ok e ∧ e.lamb = some lam ∧ lam.shape = [] ∧ lam.get [] = 1 := by
  classical
  obtain ⟨t, h1, h2, h3⟩ := rawLambda_ints (onehotEmbed (K := K) d) d d _ (C35_onehot_entries d) 1000
  have ht : ∀ i < d, ∀ j < d, t.get [i, j] = if i = j then 1 else 0 := fun i hi j hj => by
    rw [h3 i hi j hj]; exact gram_onehot d i j hi
  have hmean : diagMean t d = 1 := by
    unfold diagMean
    rw [Finset.sum_congr rfl fun i hi => by rw [ht i (Finset.mem_range.1 hi) i (Finset.mem_range.1 hi), if_pos rfl]]
    have : (d : K) ≠ 0 := by exact_mod_cast hd.ne'
    simp [this]
  have hclose : ∀ a : K, closeTo a a := fun a => by
    unfold closeTo
    rw [sub_self, norm_zero]
    positivity
  refine ⟨⟨false, onehotEmbed d, .discrete d, some (compressLambda t)⟩, compressLambda t, ?_, rfl, ?_⟩
  · simp [Embedding.fixed, makeLambda, h1, bind, Except.bind, pure, Except.pure]
  · unfold compressLambda
    have hsh : t.shape.getD 0 0 = d := by simp [h2]
    simp only [hsh]
    rw [if_pos, if_pos]
    · exact ⟨rfl, hmean⟩
    · intro i hi
      rw [hmean, ht i hi i hi, if_pos rfl]
      exact hclose 1
    · intro i hi j hj
      rw [ht i hi j hj, ht i hi i hi, if_pos rfl]
      exact hclose _

/-- the hypotheses of C28 hold for `posModel` with the one-hot embedding -/
example : ∃ e : Embedding ℝ, ∃ v, ValidModel { posModel with embedding := some e } 2 2 2 ∧ e.domain = .discrete (2 : ℕ) ∧
    EmbedsInts e.embFun 2 2 v ∧ Fresh e ∧ ExactCompression (gram (fun _ : Fin 2 => (1 : ℝ)) (fun a => v a)) 2 := by
  obtain ⟨e, -, h2, h3, h4⟩ := fixed_ok (onehotEmbed (K := ℝ) 2) 2 2 _ (C35_onehot_entries 2)
  exact ⟨e, _, ⟨rfl, rfl, by simp [posModel], by norm_num⟩, h3, by rw [h2]; exact C35_onehot_entries 2, h4, onehot_exact 2⟩

/-- a lambda matrix which is neither diagonal nor compressed: feature vectors `(1, 1)` and `(1, 2)` -/
example : ExactCompression (gram (fun _ : Fin 2 => (1 : ℝ)) (fun a k => if k = 0 then (1 : ℝ) else a + 1)) 2 := by
  left
  refine ⟨0, by norm_num, 1, by norm_num, ?_⟩
  norm_num [closeTo, gram, Fin.sum_univ_two]

/-! ### C31 -/

theorem weightedNormSq_scale [RCLike K] {ι : Type} [Fintype ι] (core bound : Tensor K) (n d D : ℕ) (w : ι → ℝ)
    (v : ι → ℕ → K) (c : K) :
    weightedNormSq core bound n d D w (fun a k => c * v a k) = ‖c ^ n‖ ^ 2 * weightedNormSq core bound n d D w v := by
  unfold weightedNormSq
  rw [Finset.mul_sum]
  refine Finset.sum_congr rfl fun x _ => ?_
  have h1 : (fun s : Fin n => featMat core d D s (fun k => c * v (x s) k)) =
      fun s : Fin n => c • featMat core d D s (v (x s)) := by
    funext s
    unfold featMat
    rw [Finset.smul_sum]
    exact Finset.sum_congr rfl fun k _ => by rw [smul_smul]
  rw [h1]
  have h2 : ∀ (n : ℕ) (M : Fin n → Matrix (Fin D) (Fin D) K), (List.ofFn fun s => c • M s).prod = c ^ n • (List.ofFn M).prod := by
    intro n
    induction n with
    | zero => intro M; simp
    | succ n ih =>
      intro M
      rw [List.ofFn_succ, List.prod_cons, ih, List.ofFn_succ, List.prod_cons, smul_mul_smul_comm, pow_succ']
  unfold amplitude
  rw [h2, Matrix.smul_mulVec, dotProduct_smul, smul_eq_mul, norm_mul, mul_pow]
  ring

/-- C31: multiplying the feature map by a non-zero constant `c` changes no outcome of a bias-free model. `v`, `w`: the
feature vectors and weights making up the lambda matrix. -/
theorem C31_rescaled_embedding [RCLike K] (m : ProbMPS K) (n d D : ℕ) (hm : ValidModel m n d D) (hb : m.bias = none)
    (e e' : Embedding K) (he : m.embedding = some e) (c : K) (hc : c ≠ 0)
    (x : SeqInput K) (B : ℕ) (hx2 : 2 ≤ x.shape.length) (hxB : x.shape.getD 0 0 = B)
    (hxn : x.shape.getD 1 0 = n) (o o' : Tensor K) (ho : e.embFun x = .ok o) (ho' : e'.embFun x = .ok o')
    (hos : o.shape = [B, n, d]) (hos' : o'.shape = [B, n, d])
    (hscale : ∀ b < B, ∀ s < n, ∀ k < d, o'.get [b, s, k] = c * o.get [b, s, k])
    (lam lam' : Tensor K) (hlam : UsesLambda e lam) (hlam' : UsesLambda e' lam')
    {ι : Type} [Fintype ι] (w : ι → ℝ) (hw : ∀ a, 0 ≤ w a) (v : ι → ℕ → K) (hL : LambdaIs (some lam) d (gram w v))
    (hL' : LambdaIs (some lam') d (gram w (fun a k => c * v a k))) (slim par : Bool) (hslim : SlimOK m slim B n) :
    let m' := { m with embedding := some e' }
    ((m.forward x slim par).1 = .error .assertion ∧ (m'.forward x slim par).1 = .error .assertion) ∨
    ∃ out out', (m.forward x slim par).1 = .ok out ∧ (m'.forward x slim par).1 = .ok out' ∧
      out.shape = [B] ∧ out'.shape = [B] ∧ ∀ b < B, out'.get [b] = out.get [b] := by
  intro m'
  have hm' : ValidModel m' n d D := ⟨hm.core, hm.edge, hm.bias, hm.pos⟩
  have hk : c ^ n ≠ 0 := pow_ne_zero n hc
  obtain ⟨-, h1, h2⟩ := forward_embedded_gen m n d D hm e he x B hx2 hxB hxn o ho hos lam hlam w hw v hL _ rfl slim par
    hslim
  obtain ⟨-, h1', h2'⟩ := forward_embedded_gen m' n d D hm' e' rfl x B hx2 hxB hxn o' ho' hos' lam' hlam' w hw _ hL' _ rfl
    slim par hslim
  have hZ : weightedNormSq (addBias m'.core m'.bias) m'.edge n d D w (fun a k => c * v a k) =
      ‖c ^ n‖ ^ 2 * weightedNormSq (addBias m.core m.bias) m.edge n d D w v := weightedNormSq_scale ..
  rw [hZ] at h1' h2'
  have hT : ∀ b < B, (transMats m' (.floats o') n d D b).prod = c ^ n • (transMats m (.floats o) n d D b).prod := by
    intro b hbB
    have : transMats m' (.floats o') n d D b =
        (List.range n).map (fun s => c • ((1 : (Matrix (Fin D) (Fin D) K)ˣ)⁻¹.val *
          (inputMat (.floats o) m.core d D b s + biasMat m D) * (1 : (Matrix (Fin D) (Fin D) K)ˣ).val)) := by
      unfold transMats
      refine List.map_congr_left fun s hs => ?_
      have hs := List.mem_range.1 hs
      have hbm : biasMat m D = 0 := by simp [biasMat, hb]
      have hbm' : biasMat m' D = 0 := hbm
      rw [hbm, hbm']
      simp only [inv_one, Units.val_one, one_mul, mul_one, add_zero, inputMat, featMat, Finset.smul_sum, smul_smul]
      refine Finset.sum_congr rfl fun k hk => ?_
      rw [hscale b hbB s hs k (Finset.mem_range.1 hk)]
    rw [this, prod_gauge (fun _ => c) (fun _ => 1)]
    simp [transMats]
  have hψ : ∀ b < B, psi m' (.floats o') n d D b = c ^ n * psi m (.floats o) n d D b := by
    intro b hbB
    unfold psi amplitude
    rw [hT b hbB, Matrix.smul_mulVec, dotProduct_smul, smul_eq_mul]
  have hacc : ∀ b < B, (Accepts m' (.floats o') n d D slim par b ↔ Accepts m (.floats o) n d D slim par b) := by
    intro b hbB
    unfold Accepts
    rw [hψ b hbB, hT b hbB]
    split
    · refine or_congr Iff.rfl (not_congr ?_)
      rw [Matrix.vecMul_smul, smul_eq_zero_iff_right hk]
    · split
      · refine or_congr Iff.rfl (not_congr ?_)
        rw [smul_eq_zero_iff_right hk]
      · rw [Ne, Ne, mul_eq_zero, not_or]
        exact ⟨fun h => h.2, fun h0 => ⟨hk, h0⟩⟩
  by_cases hall : weightedNormSq (addBias m.core m.bias) m.edge n d D w v ≠ 0 ∧
      ∀ b < B, Accepts m (.floats o) n d D slim par b
  · right
    obtain ⟨out, k1, k2, k3⟩ := h1 hall
    obtain ⟨out', k1', k2', k3'⟩ := h1' ⟨mul_ne_zero (pow_ne_zero 2 (norm_ne_zero_iff.2 hk)) hall.1,
      fun b hb => (hacc b hb).2 (hall.2 b hb)⟩
    refine ⟨out, out', k1, k1', k2, k2', fun b hb => ?_⟩
    rw [k3 b hb, k3' b hb, hψ b hb, bornLog_scale _ _ hk]
  · left
    refine ⟨h2 hall, h2' fun h => hall ⟨fun h0 => h.1 (by rw [h0, mul_zero]), fun b hb => (hacc b hb).1 (h.2 b hb)⟩⟩

/-- C31: with the one-hot embedding of a domain of size `d > 0` a model (with or without bias) behaves exactly like
the same model without embedding. -/
theorem C31_onehot_same [RCLike K] (m : ProbMPS K) (n d D : ℕ) (hm : ValidModel m n d D)
    (he : m.embedding = none) (e : Embedding K)
    (hfix : Embedding.fixed (onehotEmbed (K := K) d) (.discrete d) = .ok e) (t : Tensor ℤ) (B : ℕ)
    (hx : ValidInput (.ints t : SeqInput K) B n d) (slim par : Bool) (hslim : SlimOK m slim B n) :
    let m' := { m with embedding := some e }
    ((m.forward (.ints t) slim par).1 = .error .assertion ∧ (m'.forward (.ints t) slim par).1 = .error .assertion) ∨
    ∃ out out', (m.forward (.ints t) slim par).1 = .ok out ∧ (m'.forward (.ints t) slim par).1 = .ok out' ∧
      out.shape = [B] ∧ out'.shape = [B] ∧ ∀ b < B, out'.get [b] = out.get [b] := by
  intro m'
  have hm' : ValidModel m' n d D := ⟨hm.core, hm.edge, hm.bias, hm.pos⟩
  have hf := C35_onehot_entries (K := K) d
  have hobj : e.embFun = onehotEmbed d ∧ e.domain = .discrete d := by
    obtain ⟨e', k1, k2, k3, -⟩ := fixed_ok (onehotEmbed (K := K) d) d d _ hf
    rw [hfix] at k1
    cases k1
    exact ⟨k2, k3⟩
  have hfresh : Fresh e := Or.inr (by rw [hobj.1, hobj.2]; exact hfix)
  obtain ⟨lam, hlam, hL⟩ := usesLambda_ints e d d (fun x k => if k = x then 1 else 0) hobj.2 (by rw [hobj.1]; exact hf) hfresh (onehot_exact d)
  obtain ⟨hts, htv⟩ := hx
  obtain ⟨o, ho, hos, hog⟩ := hf t (by
    rw [hts]
    intro idx hidx
    match idx, hidx with
    | [b, s], h => simp at h; exact htv b h.1 s h.2)
  have hos' : o.shape = [B, n, d] := by rw [hos, hts]; rfl
  have hW : weightedNormSq (addBias m'.core m'.bias) m'.edge n d D (fun _ : Fin d => (1 : ℝ))
      (fun a k => if k = (a : ℕ) then 1 else 0) = modelZ m n d D := by
    rw [weightedNormSq_unit]
    exact normSq_addBias m n d D hm
  obtain ⟨-, h1', h2'⟩ := forward_embedded_gen m' n d D hm' e rfl (.ints t) B (by simp [SeqInput.shape, hts])
    (by simp [SeqInput.shape, hts]) (by simp [SeqInput.shape, hts]) o (by rw [hobj.1]; exact ho) hos' lam hlam
    (fun _ : Fin d => (1 : ℝ)) (fun _ => zero_le_one) (fun a k => if k = (a : ℕ) then 1 else 0) hL _ hW slim par hslim
  obtain ⟨-, h1, h2⟩ := C21_forward_exact m n d D hm he (.ints t) B ⟨hts, htv⟩ slim par hslim
  have hT : ∀ b < B, transMats m' (.floats o) n d D b = transMats m (.ints t) n d D b := by
    intro b hb
    unfold transMats
    refine List.map_congr_left fun s hs => ?_
    have hs := List.mem_range.1 hs
    have hlt : (t.get [b, s]).toNat < d := by have := htv b hb s hs; omega
    have : inputMat (.floats o) m'.core d D b s = inputMat (.ints t : SeqInput K) m.core d D b s := by
      have hu := featMat_unit m.core d D s ⟨(t.get [b, s]).toNat, hlt⟩
      simp only [inputMat]
      rw [← hu]
      unfold featMat
      refine Finset.sum_congr rfl fun k hk => ?_
      have := hog [b, s] (by simp [hts, hb, hs]) k (Finset.mem_range.1 hk)
      simp only [List.cons_append, List.nil_append] at this
      exact congrArg (· • coreMat m.core D s k) this
    rw [this]
    rfl
  have hacc : ∀ b < B, (Accepts m' (.floats o) n d D slim par b ↔ Accepts m (.ints t) n d D slim par b) := by
    intro b hb
    unfold Accepts psi
    rw [hT b hb]
  by_cases hall : modelZ m n d D ≠ 0 ∧ ∀ b < B, Accepts m (.ints t) n d D slim par b
  · right
    obtain ⟨out, k1, k2, k3⟩ := h1 hall
    obtain ⟨out', k1', k2', k3'⟩ := h1' ⟨hall.1, fun b hb => (hacc b hb).2 (hall.2 b hb)⟩
    refine ⟨out, out', k1, k1', k2, k2', fun b hb => ?_⟩
    rw [k3 b hb, k3' b hb]
    unfold psi
    rw [hT b hb]
  · left
    exact ⟨h2 hall, h2' fun h => hall ⟨h.1, fun b hb => (hacc b hb).1 (h.2 b hb)⟩⟩

/-! ### C32 -/

theorem trapWeight_sum (lo hi : ℝ) (N : ℕ) (hN : N ≠ 0) :
    ∑ a : Fin (N + 1), trapWeight lo hi N a = hi - lo := by
  have h := trapz_eq (K := ℝ) lo hi N hN (fun _ => 1)
  rw [Fin.sum_univ_eq_sum_range (fun k => trapWeight lo hi N k)]
  simp only [RCLike.ofReal_real_eq_id, id, mul_one] at h
  rw [← h, trapz, Nat.add_sub_cancel]
  have : ∀ k ∈ Finset.range N, ((linspace lo hi (N + 1) (k + 1) - linspace lo hi (N + 1) k : ℝ) : ℝ) * (1 + 1) / 2 =
      (hi - lo) / N := by
    intro k _
    rw [linspace_grid _ _ _ _ hN, linspace_grid _ _ _ _ hN, gridPoint, gridPoint]
    push_cast
    ring
  simp only [RCLike.ofReal_real_eq_id, id]
  rw [Finset.sum_congr rfl this]
  have hN' : (N : ℝ) ≠ 0 := by exact_mod_cast hN
  simp only [Finset.sum_const, Finset.card_range, nsmul_eq_mul]
  field_simp

/-- C32: the trapezoidal weights are positive and add up to the length of the interval. -/
theorem C32_weights (lo hi : ℝ) (hlt : lo < hi) (N : ℕ) (hN : N ≠ 0) :
    (∀ k, 0 < trapWeight lo hi N k) ∧ ∑ a : Fin (N + 1), trapWeight lo hi N a = hi - lo := by
  refine ⟨fun k => ?_, trapWeight_sum lo hi N hN⟩
  have hN' : (0 : ℝ) < N := by exact_mod_cast Nat.pos_of_ne_zero hN
  have : 0 < (hi - lo) / N := div_pos (by linarith) hN'
  unfold trapWeight
  split <;> linarith

/-- C32: with a fixed embedding of `[lo, hi]` whose lambda matrix was computed by `make_lambda` with `N + 1` points (the
constructor uses 1000) and survived compression exactly, the densities of a bias-free model, multiplied by the
trapezoidal weights of the grid in every position, sum to one. -/
theorem C32_trapezoid_normalised [RCLike K] (m : ProbMPS K) (n d D N : ℕ) (hN : N ≠ 0) (hm : ValidModel m n d D)
    (hb : m.bias = none) (e : Embedding K) (he : m.embedding = some e) (lo hi : ℝ) (hlt : lo < hi)
    (v : ℝ → ℕ → K) (hf : EmbedsReals e.embFun lo hi d v) (htr : e.trainable = false)
    (lam : Tensor K) (hlam : makeLambda e.embFun (.continuous hi lo) (N + 1) = .ok lam) (hst : e.lamb = some lam)
    (hex : ExactCompression (gram (fun a : Fin (N + 1) => trapWeight lo hi N a)
      (fun a => v (gridPoint lo hi N a))) d) (slim par : Bool)
    (h0 : embZ m n d D (fun a : Fin (N + 1) => trapWeight lo hi N a) (fun a => v (gridPoint lo hi N a)) ≠ 0) :
    ∑ x : Fin n → Fin (N + 1), (∏ s, trapWeight lo hi N (x s)) *
      densSeq m slim par (fun s => gridPoint lo hi N (x s)) = 1 := by
  obtain ⟨t, h1, h2, h3⟩ := rawLambda_reals e.embFun lo hi hlt d v hf N hN
  have hlt' : lam = compressLambda t := by
    simp only [makeLambda, h1, bind, Except.bind, pure, Except.pure, Except.ok.injEq] at hlam
    exact hlam.symm
  have hL : LambdaIs (some lam) d _ := hlt' ▸ compress_exact t d h2 _ h3 hex
  have hw := (C32_weights lo hi hlt N hN).1
  have hW := weightedNormSq_addBias m n d D hm (fun a : Fin (N + 1) => trapWeight lo hi N a)
    (fun a => v (gridPoint lo hi N a)) (Or.inl hb)
  refine sum_embedded m n d D (fun a : Fin (N + 1) => trapWeight lo hi N a)
    (fun a => v (gridPoint lo hi N a)) h0 (fun x => densSeq m slim par (fun s => gridPoint lo hi N (x s))) ?_
  intro x
  have hxr : ∀ idx, InRange idx [1, n] → lo ≤ (match idx with
      | [_, s] => if h : s < n then gridPoint lo hi N (x ⟨s, h⟩) else 0
      | _ => 0 : ℝ) ∧ (match idx with
      | [_, s] => if h : s < n then gridPoint lo hi N (x ⟨s, h⟩) else 0
      | _ => 0 : ℝ) ≤ hi := by
    intro idx hidx
    match idx, hidx with
    | [a, s], h =>
      have hs : s < n := by simp at h; exact h.2
      simp only [hs, dif_pos]
      exact gridPoint_mem lo hi hlt N _ hN (x ⟨s, hs⟩).2
  obtain ⟨o, k1, k2, k3⟩ := hf [1, n] _ hxr
  refine prob_embedded m n d D hm e he (singleReal fun s => gridPoint lo hi N (x s)) rfl o k1 k2 _ ?_ lam
    (by unfold UsesLambda; rw [if_neg (by simp [htr])]; exact hst)
    (fun a : Fin (N + 1) => trapWeight lo hi N a) (fun a => (hw a).le) _ hL _ hW h0
    slim par (fun _ => hb)
  intro s k hk
  have := k3 [0, s] (by simp) k hk
  simpa using this

/-! ### C36 -/

theorem trigComp_sq (d : ℕ) (x : ℝ) (s : ℕ) : trigComp d x s ^ 2 =
    (Real.sin (x * Real.pi / 2) ^ 2) ^ s * (Real.cos (x * Real.pi / 2) ^ 2) ^ (d - 1 - s) * ((d - 1).choose s : ℝ) := by
  unfold trigComp
  rw [mul_pow, mul_pow, Real.sq_sqrt (by positivity), show d - s - 1 = d - 1 - s by omega]
  ring

/-- C36: for every dimension `d ≥ 1` and every tensor of reals, `trig_embed` appends an axis of size `d` holding
`√C(d-1, j) cos^(d-1-j)(πx/2) sin^j(πx/2)`. -/
theorem C36_trig_embed_entries [RCLike K] (d : ℕ) (hd : 0 < d) (lo hi : ℝ) :
    EmbedsReals (trigEmbed (K := K) d) lo hi d (fun x j => ((Real.sqrt ((d - 1).choose j : ℝ) *
      Real.cos (Real.pi * x / 2) ^ (d - 1 - j) * Real.sin (Real.pi * x / 2) ^ j : ℝ) : K)) := by
  intro sh x _
  refine ⟨⟨sh ++ [d], fun idx => (trigComp d (RCLike.re ((x idx.dropLast : ℝ) : K)) (idx.getLastD 0) : K)⟩, ?_, rfl, ?_⟩
  · simp only [trigEmbed]
    rw [if_neg (by omega)]
  · intro idx _ k _
    simp only [List.dropLast_concat, List.getLastD_concat, RCLike.ofReal_re]
    unfold trigComp
    rw [show d - k - 1 = d - 1 - k by omega, mul_comm (x idx) Real.pi]
    congr 1
    ring

/-- C36: these feature vectors have Euclidean norm 1. -/
theorem C36_trig_unit_norm (d : ℕ) (hd : 0 < d) (x : ℝ) : ∑ j ∈ Finset.range d, (Real.sqrt ((d - 1).choose j : ℝ) *
      Real.cos (Real.pi * x / 2) ^ (d - 1 - j) * Real.sin (Real.pi * x / 2) ^ j) ^ 2 = 1 := by
  have h : ∀ j ∈ Finset.range d, (Real.sqrt ((d - 1).choose j : ℝ) *
      Real.cos (Real.pi * x / 2) ^ (d - 1 - j) * Real.sin (Real.pi * x / 2) ^ j) ^ 2 = trigComp d x j ^ 2 := by
    intro j _
    unfold trigComp
    rw [show d - j - 1 = d - 1 - j by omega, mul_comm Real.pi x]
    ring
  rw [Finset.sum_congr rfl h, Finset.sum_congr rfl fun j _ => trigComp_sq d x j]
  obtain ⟨k, rfl⟩ : ∃ k, d = k + 1 := ⟨d - 1, by omega⟩
  simp only [Nat.add_sub_cancel]
  rw [← add_pow, Real.sin_sq_add_cos_sq, one_pow]

/-- C36: `sincos_embed` (dimension 2) is `(cos(πx/2), sin(πx/2))`. -/
theorem C36_sincos [RCLike K] (lo hi : ℝ) : EmbedsReals (trigEmbed (K := K) 2) lo hi 2
    (fun x j => ((if j = 0 then Real.cos (Real.pi * x / 2) else Real.sin (Real.pi * x / 2) : ℝ) : K)) := by
  intro sh x hx
  obtain ⟨o, h1, h2, h3⟩ := C36_trig_embed_entries (K := K) 2 (by norm_num) lo hi sh x hx
  refine ⟨o, h1, h2, fun idx hidx k hk => ?_⟩
  rw [h3 idx hidx k hk]
  interval_cases k <;> simp

/-! ### C37 -/

/-- C37: the (uncompressed) lambda matrix of every embedding function - no assumption on the function - is Hermitian and
positive semidefinite; continuous domains are non-empty intervals, with at least two points. -/
theorem C37_lambda_hermitian_psd [RCLike K] (f : EmbFun K) (dom : DataDomain) (np : ℕ) (t : Tensor K)
    (h : rawLambda f dom np = .ok t) (hdom : ∀ hi lo, dom = .continuous hi lo → lo < hi ∧ 2 ≤ np) :
    ∃ d, t.shape = [d, d] ∧ (∀ i < d, ∀ j < d, t.get [i, j] = star (t.get [j, i])) ∧
      ∀ z : ℕ → K, ∃ r : ℝ, 0 ≤ r ∧
        ∑ i ∈ Finset.range d, ∑ j ∈ Finset.range d, star (z i) * t.get [i, j] * z j = (r : K) := by
  obtain ⟨d, N, o, w, -, -, h3, -, hw, -, -, hg⟩ := rawLambda_gram f dom np t h hdom
  refine ⟨d, h3, ?_, ?_⟩
  · intro i hi j hj
    rw [hg i hi j hj, hg j hj i hi, gram, gram, star_sum]
    refine Finset.sum_congr rfl fun a _ => ?_
    simp only [star_mul', star_star, RCLike.star_def, RCLike.conj_ofReal, RingHomCompTriple.comp_apply,
      RingHom.id_apply]
    ring
  · intro z
    refine ⟨∑ a, w a * ‖∑ i ∈ Finset.range d, star (z i) * o.get [(a : ℕ), i]‖ ^ 2,
      Finset.sum_nonneg fun a _ => mul_nonneg (hw a) (sq_nonneg _), ?_⟩
    have h1 : ∀ i ∈ Finset.range d, ∀ j ∈ Finset.range d, star (z i) * t.get [i, j] * z j =
        ∑ a, (w a : K) * ((star (z i) * o.get [(a : ℕ), i]) * star (star (z j) * o.get [(a : ℕ), j])) := by
      intro i hi j hj
      rw [hg i (Finset.mem_range.1 hi) j (Finset.mem_range.1 hj), gram, Finset.mul_sum, Finset.sum_mul]
      refine Finset.sum_congr rfl fun a _ => ?_
      rw [star_mul', star_star]
      ring
    rw [Finset.sum_congr rfl fun i hi => Finset.sum_congr rfl fun j hj => h1 i hi j hj]
    rw [Finset.sum_congr rfl fun i hi => Finset.sum_comm, Finset.sum_comm]
    push_cast
    refine Finset.sum_congr rfl fun a _ => ?_
    rw [← RCLike.mul_conj, ← RCLike.star_def, star_sum, Finset.sum_mul_sum, Finset.mul_sum]
    refine Finset.sum_congr rfl fun i _ => ?_
    rw [Finset.mul_sum]

/-! ### C38 -/

/-- C38: a continuous domain is accepted exactly when `max_val > min_val`; a missing `min_val` is a TypeError. -/
theorem C38_domain_continuous (hi : ℝ) (lo : Option ℝ) :
    (∀ l, lo = some l → l < hi → DataDomain.mkContinuous hi lo = .ok (.continuous hi l)) ∧
    (∀ l, lo = some l → hi ≤ l → DataDomain.mkContinuous hi lo = .error .assertion) ∧
    (lo = none → DataDomain.mkContinuous hi lo = .error .type) := by
  refine ⟨?_, ?_, ?_⟩
  · rintro l rfl h
    simp [DataDomain.mkContinuous, h, pure, Except.pure]
  · rintro l rfl h
    simp [DataDomain.mkContinuous, not_lt.2 h]
  · rintro rfl; rfl

/-- C38: a discrete domain is accepted exactly when `max_val ≥ 0`, whatever `min_val` is. -/
theorem C38_domain_discrete (n : ℤ) (lo : Option ℝ) :
    (0 ≤ n → DataDomain.mkDiscrete n lo = .ok (.discrete n)) ∧
    (n < 0 → DataDomain.mkDiscrete n lo = .error .assertion) := by
  refine ⟨fun h => ?_, fun h => ?_⟩
  · simp [DataDomain.mkDiscrete, h]
  · simp [DataDomain.mkDiscrete, not_le.2 h]

/-- C38: `init_mlp_embed` with a list of hidden widths builds one linear layer per consecutive pair of
`1, hidden..., output_dim`, so exactly `num_layers` of them, chained; it raises AssertionError iff the list does not
have `num_layers - 1` entries. The default domain is the unit interval. -/
theorem C38_mlp_list (out : ℕ) (L : ℤ) (hidden : List ℕ) (dom : Option DataDomain) :
    ((hidden.length : ℤ) = L - 1 → initMlpEmbed out L (.list hidden) dom =
      .ok ((1 :: hidden).zip (hidden ++ [out]), dom.getD (.continuous 1 0)) ∧
      (((1 :: hidden).zip (hidden ++ [out])).length : ℤ) = L) ∧
    ((hidden.length : ℤ) ≠ L - 1 → initMlpEmbed out L (.list hidden) dom = .error .assertion) := by
  constructor
  · intro h
    constructor
    · unfold initMlpEmbed
      simp only [bind, Except.bind]
      rw [assert_true _ h]
      simp only [pure, Except.pure]
      congr 2
      have hL : L.toNat = hidden.length + 1 := by omega
      rw [hL]
      refine List.ext_getElem (by simp) ?_
      intro i h1 h2
      have hi : i < hidden.length + 1 := by simpa using h1
      simp only [List.getElem_map, List.getElem_range, List.getElem_zip]
      have e1 : ([1] ++ hidden ++ [out]).getD i 0 = (1 :: hidden)[i]'(by simpa using hi) := by
        rw [List.getD_eq_getElem?_getD, List.getElem?_append_left (by simpa using hi)]
        simp [List.getElem?_eq_getElem, hi]
      have e2 : ([1] ++ hidden ++ [out]).getD (i + 1) 0 = (hidden ++ [out])[i]'(by simpa using hi) := by
        rw [List.getD_eq_getElem?_getD, List.append_assoc, List.singleton_append, List.getElem?_cons_succ,
          List.getElem?_eq_getElem (by simpa using hi)]
        rfl
      rw [e1, e2]
    · simp; omega
  · intro h
    unfold initMlpEmbed
    simp only [bind, Except.bind]
    rw [assert_false _ h]

/-- C38: an integer `hidden_dims` stands for `num_layers - 1` equal hidden widths. -/
theorem C38_mlp_int (out n : ℕ) (L : ℤ) (dom : Option DataDomain) :
    initMlpEmbed out L (.int n) dom = initMlpEmbed out L (.list (List.replicate (L - 1).toNat n)) dom := rfl

example : initMlpEmbed 5 3 (.list [100, 7]) none = .ok ([(1, 100), (100, 7), (7, 5)], .continuous 1 0) := by
  rw [((C38_mlp_list 5 3 [100, 7] none).1 (by norm_num)).1]; rfl

end TorchMPS
