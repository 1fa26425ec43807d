import Verif.Lemmas.Embeddings
import Verif.Props.ProbMps2
/-
C28 - C32: normalisation of models with an embedding.
-/
namespace TorchMPS
open Spec
variable {K : Type}

/-- an embedding object in the state in which it is constructed or left by `forward`: fixed embeddings hold
the lambda matrix computed by their constructor, trainable ones are unrestricted -/
def Spec.Fresh [RCLike K] (e : Embedding K) : Prop :=
  e.trainable = true ∨ Embedding.fixed e.embFun e.domain = .ok e

theorem usesLambda_of_makeLambda [RCLike K] (e : Embedding K) (hf : Fresh e) (t : Tensor K)
    (h : rawLambda e.embFun e.domain 1000 = .ok t) : UsesLambda e (compressLambda t) := by
  have hml : makeLambda e.embFun e.domain 1000 = .ok (compressLambda t) := by
    simp [makeLambda, h, bind, Except.bind, pure, Except.pure]
  unfold UsesLambda
  rcases hf with ht | hfix
  · rw [if_pos ht]; exact hml
  · have h2 : e.trainable = false ∧ e.lamb = some (compressLambda t) := by
      unfold Embedding.fixed at hfix
      rw [hml] at hfix
      simp only [bind, Except.bind, pure, Except.pure, Except.ok.injEq] at hfix
      rw [← hfix]
      exact ⟨rfl, rfl⟩
    rw [if_neg (by simp [h2.1])]
    exact h2.2

theorem usesLambda_ints [RCLike K] (e : Embedding K) (N d : ℕ) (v : ℕ → ℕ → K) (hdom : e.domain = .discrete N)
    (hf : EmbedsInts e.embFun N d v) (hfresh : Fresh e)
    (hex : ExactCompression (gram (fun _ : Fin N => (1 : ℝ)) (fun a => v a)) d) :
    ∃ lam, UsesLambda e lam ∧ LambdaIs (some lam) d (gram (fun _ : Fin N => (1 : ℝ)) (fun a => v a)) := by
  obtain ⟨t, h1, h2, h3⟩ := rawLambda_ints e.embFun N d v hf 1000
  rw [← hdom] at h1
  exact ⟨_, usesLambda_of_makeLambda e hfresh t h1, compress_exact t d h2 _ h3 hex⟩

theorem usesLambda_reals [RCLike K] (e : Embedding K) (lo hi : ℝ) (hlt : lo < hi) (d : ℕ) (v : ℝ → ℕ → K)
    (hdom : e.domain = .continuous hi lo) (hf : EmbedsReals e.embFun lo hi d v) (hfresh : Fresh e)
    (hex : ExactCompression (gram (fun a : Fin 1000 => trapWeight lo hi 999 a)
      (fun a => v (gridPoint lo hi 999 a))) d) :
    ∃ lam, UsesLambda e lam ∧ LambdaIs (some lam) d (gram (fun a : Fin 1000 => trapWeight lo hi 999 a)
      (fun a => v (gridPoint lo hi 999 a))) := by
  obtain ⟨t, h1, h2, h3⟩ := rawLambda_reals e.embFun lo hi hlt d v hf 999 (by norm_num)
  rw [← hdom] at h1
  exact ⟨_, usesLambda_of_makeLambda e hfresh t h1, compress_exact t d h2 _ h3 hex⟩

theorem psi_floats [RCLike K] (m : ProbMPS K) (n d D b : ℕ) (o : Tensor K) (v : Fin n → ℕ → K)
    (h : ∀ s : Fin n, ∀ k < d, o.get [b, s, k] = v s k) :
    psi m (.floats o) n d D b = psiFeat m n d D v := by
  unfold psi psiFeat transMats
  congr 1
  refine List.ext_getElem (by simp) ?_
  intro s h1 h2
  have hs : s < n := by simpa using h1
  simp only [List.getElem_map, List.getElem_range, List.getElem_ofFn, inputMat]
  congr 1
  unfold featMat
  exact Finset.sum_congr rfl fun k hk => congrArg (· • coreMat m.core D s k) (h ⟨s, hs⟩ k (Finset.mem_range.1 hk))

/-- the common core of C28, C29 and C32: the value `forward` denotes for one embedded sequence -/
theorem prob_embedded [RCLike K] (m : ProbMPS K) (n d D : ℕ) (hm : ValidModel m n d D) (e : Embedding K)
    (he : m.embedding = some e) (x : SeqInput K) (hx : x.shape = [1, n]) (o : Tensor K)
    (ho : e.embFun x = .ok o) (hos : o.shape = [1, n, d]) (vx : Fin n → ℕ → K)
    (hv : ∀ s : Fin n, ∀ k < d, o.get [0, s, k] = vx s k)
    (lam : Tensor K) (hlam : UsesLambda e lam) {ι : Type} [Fintype ι] (w : ι → ℝ) (hw : ∀ a, 0 ≤ w a)
    (v : ι → ℕ → K) (hL : LambdaIs (some lam) d (gram w v)) (W : ℝ)
    (hW : weightedNormSq (addBias m.core m.bias) m.edge n d D w v = W) (h0 : W ≠ 0) (slim par : Bool)
    (hslim : slim = true → m.bias = none) :
    resultProb (m.forward x slim par).1 = ‖psiFeat m n d D vx‖ ^ 2 / W := by
  have hnn : 0 ≤ W := by
    rw [← hW]
    exact Finset.sum_nonneg fun x _ => mul_nonneg (Finset.prod_nonneg fun s _ => hw _) (sq_nonneg _)
  have hpos : 0 < W := lt_of_le_of_ne hnn (Ne.symm h0)
  obtain ⟨-, h1, h2⟩ := forward_embedded_gen m n d D hm e he x 1 (by simp [hx]) (by simp [hx]) (by simp [hx]) o ho hos
    lam hlam w hw v hL W hW slim par (fun h => ⟨hslim h, Or.inr rfl⟩)
  have hψ := psi_floats m n d D 0 o vx hv
  by_cases hacc : ∀ b < 1, Accepts m (.floats o) n d D slim par b
  · obtain ⟨out, k1, -, k3⟩ := h1 ⟨h0, hacc⟩
    rw [k1, resultProb]
    rw [k3 0 (by norm_num), probOf_bornLog _ _ hpos, hψ]
  · rw [h2 (fun h => hacc h.2)]
    push Not at hacc
    obtain ⟨b, hb, hna⟩ := hacc
    obtain rfl : b = 0 := by omega
    rw [← hψ, psi_of_not_accepts m _ n d D slim par 0 hna]
    simp [resultProb]

theorem sum_embedded [RCLike K] {ι : Type} [Fintype ι] (m : ProbMPS K) (n d D : ℕ) (w : ι → ℝ) (v : ι → ℕ → K)
    (h0 : embZ m n d D w v ≠ 0) (p : (Fin n → ι) → ℝ)
    (hp : ∀ x, p x = ‖psiFeat m n d D (fun s => v (x s))‖ ^ 2 / embZ m n d D w v) :
    ∑ x : Fin n → ι, (∏ s, w (x s)) * p x = 1 := by
  have : ∀ x ∈ (Finset.univ : Finset (Fin n → ι)), (∏ s, w (x s)) * p x =
      ((∏ s, w (x s)) * ‖psiFeat m n d D (fun s => v (x s))‖ ^ 2) / embZ m n d D w v := by
    intro x _
    rw [hp x, mul_div_assoc]
  rw [Finset.sum_congr rfl this, ← Finset.sum_div]
  exact div_self h0

theorem single_embed [RCLike K] (f : EmbFun K) (N n d : ℕ) (v : ℕ → ℕ → K) (hf : EmbedsInts f N d v)
    (x : Fin n → Fin N) : ∃ o, f (single x) = .ok o ∧ o.shape = [1, n, d] ∧
      ∀ s : Fin n, ∀ k < d, o.get [0, s, k] = v (x s) k := by
  obtain ⟨o, h1, h2, h3⟩ := hf ⟨[1, n], fun idx => match idx with
    | [_, s] => if h : s < n then (x ⟨s, h⟩ : ℤ) else 0
    | _ => 0⟩ (by
    intro idx hidx
    match idx, hidx with
    | [a, s], h =>
      have hs : s < n := by simp at h; exact h.2
      simp [hs])
  refine ⟨o, h1, h2, fun s k hk => ?_⟩
  have := h3 [0, s] (by simp) k hk
  simpa using this

theorem sum_probSeq_embedded [RCLike K] (m : ProbMPS K) (n d D N : ℕ) (hm : ValidModel m n d D) (e : Embedding K)
    (he : m.embedding = some e) (v : ℕ → ℕ → K) (hf : EmbedsInts e.embFun N d v) (lam : Tensor K)
    (hlam : UsesLambda e lam) (hL : LambdaIs (some lam) d (gram (fun _ : Fin N => (1 : ℝ)) (fun a => v a)))
    (hb : m.bias = none ∨ ∀ a < N, ∑ k ∈ Finset.range d, v a k = 1) (slim par : Bool)
    (hslim : slim = true → m.bias = none)
    (h0 : embZ m n d D (fun _ : Fin N => (1 : ℝ)) (fun a => v a) ≠ 0) :
    ∑ x : Fin n → Fin N, probSeq m slim par x = 1 := by
  have hW := weightedNormSq_addBias m n d D hm (fun _ : Fin N => (1 : ℝ)) (fun a => v a)
    (hb.imp id fun h a => h a a.2)
  have := sum_embedded m n d D (fun _ : Fin N => (1 : ℝ)) (fun a => v a) h0 (probSeq m slim par) (by
    intro x
    obtain ⟨o, h1, h2, h3⟩ := single_embed e.embFun N n d v hf x
    exact prob_embedded m n d D hm e he (single x) rfl o h1 h2 _ h3 lam hlam _ (fun _ => zero_le_one) _ hL _ hW h0
      slim par hslim)
  simpa using this

/-! ### C28 -/

/-- C28: with a (fixed or trainable) embedding `v` of a discrete domain of size `N` whose lambda matrix survives
compression exactly, the probabilities of all `N ^ n` sequences sum to one, for every bias-free model,
uniform or not, and every strategy, whenever the total weight is not zero. -/
theorem C28_discrete_embedding_normalised [RCLike K] (m : ProbMPS K) (n d D N : ℕ) (hm : ValidModel m n d D)
    (hb : m.bias = none) (e : Embedding K) (he : m.embedding = some e) (hdom : e.domain = .discrete N)
    (v : ℕ → ℕ → K) (hf : EmbedsInts e.embFun N d v) (hfresh : Fresh e)
    (hex : ExactCompression (gram (fun _ : Fin N => (1 : ℝ)) (fun a => v a)) d) (slim par : Bool)
    (h0 : embZ m n d D (fun _ : Fin N => (1 : ℝ)) (fun a => v a) ≠ 0) :
    ∑ x : Fin n → Fin N, probSeq m slim par x = 1 := by
  obtain ⟨lam, h1, h2⟩ := usesLambda_ints e N d v hdom hf hfresh hex
  exact sum_probSeq_embedded m n d D N hm e he v hf lam h1 h2 (Or.inl hb) slim par (fun _ => hb) h0

/-! ### C29 -/

/-- C29: with a bias matrix the probabilities still sum to one if the components of every feature vector add
up to 1 (in general they do not, see `C29_bias_not_normalised` and `C29_normalised_iff`). -/
theorem C29_bias_normalised [RCLike K] (m : ProbMPS K) (n d D N : ℕ) (hm : ValidModel m n d D)
    (e : Embedding K) (he : m.embedding = some e) (hdom : e.domain = .discrete N)
    (v : ℕ → ℕ → K) (hf : EmbedsInts e.embFun N d v) (hfresh : Fresh e)
    (hex : ExactCompression (gram (fun _ : Fin N => (1 : ℝ)) (fun a => v a)) d)
    (hsum : ∀ a < N, ∑ k ∈ Finset.range d, v a k = 1) (par : Bool)
    (h0 : embZ m n d D (fun _ : Fin N => (1 : ℝ)) (fun a => v a) ≠ 0) :
    ∑ x : Fin n → Fin N, probSeq m false par x = 1 := by
  obtain ⟨lam, h1, h2⟩ := usesLambda_ints e N d v hdom hf hfresh hex
  exact sum_probSeq_embedded m n d D N hm e he v hf lam h1 h2 (Or.inr hsum) false par (by simp) h0

/-- the embedding of a domain by constant feature vectors with entries `c` -/
noncomputable def constEmb (d : ℕ) (c : ℝ) : EmbFun ℝ
  | .ints t => .ok ⟨t.shape ++ [d], fun _ => c⟩
  | .floats t => .ok ⟨t.shape ++ [d], fun _ => c⟩

theorem constEmb_embeds (d N : ℕ) (c : ℝ) : EmbedsInts (constEmb d c) N d (fun _ _ => c) := by
  intro t _
  exact ⟨_, rfl, rfl, fun _ _ _ _ => rfl⟩

/-- a model with one site and bond dimension one, over the embedding `e` -/
noncomputable def oneSite (d : ℕ) (bias : Option (Tensor ℝ)) (e : Embedding ℝ) : ProbMPS ℝ where
  uniform := false
  core := ⟨[1, d, 1, 1], fun _ => 1⟩
  edge := ⟨[2, 1], fun _ => 1⟩
  bias := bias
  embedding := some e

theorem fixed_ok [RCLike K] (f : EmbFun K) (N d : ℕ) (v : ℕ → ℕ → K) (hf : EmbedsInts f N d v) :
    ∃ e, Embedding.fixed f (.discrete N) = .ok e ∧ e.embFun = f ∧ e.domain = .discrete N ∧ Fresh e := by
  obtain ⟨t, h1, -⟩ := rawLambda_ints f N d v hf 1000
  have hml : Embedding.fixed f (.discrete (N : ℤ)) = .ok ⟨false, f, .discrete N, some (compressLambda t)⟩ := by
    simp [Embedding.fixed, makeLambda, h1, bind, Except.bind, pure, Except.pure]
  exact ⟨_, hml, rfl, rfl, Or.inr hml⟩

/-- C29 is false in general: one site, bond dimension one, a domain with a single value, feature vector `(2)`, core 1
and bias 1: the single sequence gets probability 9/16. -/
theorem C29_bias_not_normalised : ∃ (m : ProbMPS ℝ) (e : Embedding ℝ) (v : ℕ → ℕ → ℝ), ValidModel m 1 1 1 ∧
    m.bias ≠ none ∧ m.embedding = some e ∧ e.domain = .discrete (1 : ℕ) ∧ EmbedsInts e.embFun 1 1 v ∧ Fresh e ∧
    ExactCompression (gram (fun _ : Fin 1 => (1 : ℝ)) (fun a => v a)) 1 ∧
    ∑ x : Fin 1 → Fin 1, probSeq m false false x = 9 / 16 := by
  obtain ⟨e, -, h2, h3, h4⟩ := fixed_ok (constEmb 1 2) 1 1 _ (constEmb_embeds 1 1 2)
  have hf : EmbedsInts e.embFun 1 1 (fun _ _ => 2) := by rw [h2]; exact constEmb_embeds 1 1 2
  have hex : ExactCompression (gram (fun _ : Fin 1 => (1 : ℝ)) (fun _ _ => (2 : ℝ))) 1 := by
    right
    refine ⟨fun i hi j hj hij => by omega, Or.inr fun i hi j hj => ?_⟩
    obtain rfl : i = j := by omega
    rfl
  let m := oneSite 1 (some ⟨[1, 1], fun _ => 1⟩) e
  have hm : ValidModel m 1 1 1 := ⟨rfl, rfl, by simp [m, oneSite], by norm_num⟩
  refine ⟨m, e, fun _ _ => 2, hm, by simp [m, oneSite], rfl, by exact_mod_cast h3, hf, h4, hex, ?_⟩
  obtain ⟨lam, k1, k2⟩ := usesLambda_ints e 1 1 _ (by exact_mod_cast h3) hf h4 hex
  have hW : weightedNormSq (addBias m.core m.bias) m.edge 1 1 1 (fun _ : Fin 1 => (1 : ℝ)) (fun _ _ => (2 : ℝ)) = 16 := by
    simp [weightedNormSq, amplitude, featMat, coreMat, m, oneSite, addBias, Tensor.ndim, boundVec, dotProduct,
      Matrix.mulVec]
    norm_num
  have key : ∀ x : Fin 1 → Fin 1, probSeq m false false x = 9 / 16 := by
    intro x
    obtain ⟨o, h1, h2, h3⟩ := single_embed e.embFun 1 1 1 _ hf x
    have := prob_embedded m 1 1 1 hm e rfl (single x) rfl o h1 h2 _ h3 lam k1 _ (fun _ => zero_le_one) _ k2 16 hW
      (by norm_num) false false (by simp)
    rw [probSeq, this]
    simp [psiFeat, amplitude, featMat, coreMat, m, oneSite, boundVec, biasMat, dotProduct, Matrix.mulVec]
    norm_num
  rw [Finset.sum_congr rfl fun x _ => key x]
  simp

/-! ### C30 -/

/-- C30: when the lambda matrix is exactly diagonal (or scalar) or not accepted by `torch.allclose`, the stored
`lamb_mat` denotes exactly the matrix `∑ v v†`. For matrices which are only nearly diagonal see
`C30_total_mass`, `C30_mass_bounds` and `C30_compression_lossy`. -/
theorem C30_compression_exact [RCLike K] (f : EmbFun K) (N d : ℕ) (v : ℕ → ℕ → K)
    (hf : EmbedsInts f N d v) (hex : ExactCompression (gram (fun _ : Fin N => (1 : ℝ)) (fun a => v a)) d) :
    ∃ e lam, Embedding.fixed f (.discrete N) = .ok e ∧ e.lamb = some lam ∧
      LambdaIs (some lam) d (gram (fun _ : Fin N => (1 : ℝ)) (fun a => v a)) := by
  obtain ⟨t, h1, h2, h3⟩ := rawLambda_ints f N d v hf 1000
  refine ⟨⟨false, f, .discrete N, some (compressLambda t)⟩, compressLambda t, ?_, rfl, compress_exact t d h2 _ h3 hex⟩
  simp [Embedding.fixed, makeLambda, h1, bind, Except.bind, pure, Except.pure]

/-- C30 is false in general: feature vector `(1e-4, 1e-4)` on a domain with a single value, cores 1: the stored
`lamb_mat` is the scalar `1e-8` (the off-diagonal entries are lost) and the single sequence gets "probability" 2. -/
theorem C30_compression_lossy : ∃ (m : ProbMPS ℝ) (e : Embedding ℝ) (v : ℕ → ℕ → ℝ), ValidModel m 1 2 1 ∧
    m.bias = none ∧ m.embedding = some e ∧ e.domain = .discrete (1 : ℕ) ∧ EmbedsInts e.embFun 1 2 v ∧ Fresh e ∧
    ∑ x : Fin 1 → Fin 1, probSeq m false false x = 2 := by
  classical
  have hf0 := constEmb_embeds 2 1 (1e-4)
  obtain ⟨t, h1, h2, h3⟩ := rawLambda_ints (constEmb 2 (1e-4)) 1 2 _ hf0 1000
  have ht : ∀ i < 2, ∀ j < 2, t.get [i, j] = 1e-8 := by
    intro i hi j hj
    rw [h3 i hi j hj]
    simp [gram]
    norm_num
  have hmean : diagMean t 2 = 1e-8 := by
    simp [diagMean, Finset.sum_range_succ, ht]
  have hcomp : compressLambda t = ⟨[], fun _ => 1e-8⟩ := by
    unfold compressLambda
    have hd : t.shape.getD 0 0 = 2 := by simp [h2]
    simp only [hd]
    rw [if_pos, if_pos, hmean]
    · intro i hi
      rw [hmean, ht i hi i hi]
      norm_num [closeTo]
    · intro i hi j hj
      rw [ht i hi j hj, ht i hi i hi]
      by_cases hij : i = j
      · norm_num [closeTo, hij]
      · norm_num [closeTo, hij]
  have hfix : Embedding.fixed (constEmb 2 (1e-4)) (.discrete ((1 : ℕ) : ℤ)) =
      .ok ⟨false, constEmb 2 (1e-4), .discrete ((1 : ℕ) : ℤ), some ⟨[], fun _ => 1e-8⟩⟩ := by
    simp only [Embedding.fixed, makeLambda, h1, bind, Except.bind, pure, Except.pure, hcomp]
  let e : Embedding ℝ := ⟨false, constEmb 2 (1e-4), .discrete ((1 : ℕ) : ℤ), some ⟨[], fun _ => 1e-8⟩⟩
  let m := oneSite 2 none e
  have hm : ValidModel m 1 2 1 := ⟨rfl, rfl, by simp [m, oneSite], by norm_num⟩
  refine ⟨m, e, fun _ _ => 1e-4, hm, rfl, rfl, rfl, hf0, Or.inr hfix, ?_⟩
  have hL : LambdaIs (some (⟨[], fun _ => 1e-8⟩ : Tensor ℝ)) 2 (gram (fun _ : Fin 2 => (1e-8 : ℝ))
      (fun k i => if i = (k : ℕ) then (1 : ℝ) else 0)) := by
    left
    refine ⟨rfl, fun i hi j hj => ?_⟩
    interval_cases i <;> interval_cases j <;> simp [gram, Fin.sum_univ_two]
  have hW : weightedNormSq (addBias m.core m.bias) m.edge 1 2 1 (fun _ : Fin 2 => (1e-8 : ℝ))
      (fun k i => if i = (k : ℕ) then (1 : ℝ) else 0) = 2e-8 := by
    simp only [weightedNormSq, featMat_unit]
    simp [amplitude, coreMat, m, oneSite, addBias, boundVec, dotProduct, Matrix.mulVec]
    norm_num
  have key : ∀ x : Fin 1 → Fin 1, probSeq m false false x = 2 := by
    intro x
    obtain ⟨o, h1, h2, h3⟩ := single_embed e.embFun 1 1 2 _ hf0 x
    have := prob_embedded m 1 2 1 hm e rfl (single x) rfl o h1 h2 _ h3 _ (by simp [UsesLambda, e]) _
      (fun _ => by norm_num) _ hL _ hW (by norm_num) false false (by simp)
    rw [probSeq, this]
    simp [psiFeat, amplitude, featMat, coreMat, m, oneSite, boundVec, biasMat, dotProduct, Matrix.mulVec,
      Finset.sum_range_succ]
    norm_num
  rw [Finset.sum_congr rfl fun x _ => key x]
  simp

end TorchMPS
