import Verif.Lemmas.TotalMass
import Verif.Props.Embeddings2
/-
C29, C30, C32: the exact total probability of every model with an embedding, with or without bias and whatever `make_lambda`
stores, and a bound on the error caused by the compression.
-/
namespace TorchMPS
open Spec
variable {K : Type}

/-- the probabilities of all sequences over a finite family of points, for any stored lambda matrix -/
theorem mass_general [RCLike K] {ι : Type} [Fintype ι] (m : ProbMPS K) (n d D : ℕ) (hm : ValidModel m n d D)
    (e : Embedding K) (he : m.embedding = some e) (w : ι → ℝ) (hw : ∀ a, 0 ≤ w a) (v : ι → ℕ → K) (t : Tensor K)
    (ht : rawLambda e.embFun e.domain 1000 = .ok t) (hts : t.shape = [d, d])
    (htg : ∀ i < d, ∀ j < d, t.get [i, j] = gram w v i j) (hfresh : Fresh e)
    (inp : (Fin n → ι) → SeqInput K) (hin : ∀ x, (inp x).shape = [1, n] ∧ ∃ o, e.embFun (inp x) = .ok o ∧ o.shape = [1, n, d] ∧
      ∀ s : Fin n, ∀ k < d, o.get [0, s, k] = v (x s) k) (slim par : Bool) (hslim : slim = true → m.bias = none) :
    (usedZ m n d D w v ≠ 0 →
      (∀ x, resultProb (m.forward (inp x) slim par).1 = ‖psiFeat m n d D (fun s => v (x s))‖ ^ 2 / usedZ m n d D w v) ∧
      ∑ x, (∏ s, w (x s)) * resultProb (m.forward (inp x) slim par).1 = embZ m n d D w v / usedZ m n d D w v) ∧
    (usedZ m n d D w v = 0 → ∀ x, (m.forward (inp x) slim par).1 = .error .assertion) := by
  obtain ⟨ι', _, w', v', hw', hL, hW⟩ := stored_family m n d D hm w hw v t hts htg
  have hU := usesLambda_of_makeLambda e hfresh t ht
  constructor
  · intro h0
    have key : ∀ x, resultProb (m.forward (inp x) slim par).1 =
        ‖psiFeat m n d D (fun s => v (x s))‖ ^ 2 / usedZ m n d D w v := by
      intro x
      obtain ⟨hs, o, h1, h2, h3⟩ := hin x
      exact prob_embedded m n d D hm e he (inp x) hs o h1 h2 _ h3 _ hU w' hw' v' hL _ hW h0 slim par hslim
    refine ⟨key, ?_⟩
    unfold embZ
    rw [Finset.sum_div]
    refine Finset.sum_congr rfl fun x _ => ?_
    rw [key, mul_div_assoc]
  · intro h0 x
    obtain ⟨hs, o, h1, h2, h3⟩ := hin x
    exact (forward_embedded_gen m n d D hm e he (inp x) 1 (by simp [hs]) (by simp [hs]) (by simp [hs]) o h1 h2 _ hU w' hw' v' hL _
      hW slim par (fun h => ⟨hslim h, Or.inr rfl⟩)).2.2 (fun h => h.1 h0)

theorem gridSeq_embed [RCLike K] (f : EmbFun K) (lo hi : ℝ) (hlt : lo < hi) (n d : ℕ) (v : ℝ → ℕ → K) (hf : EmbedsReals f lo hi d v)
    (x : Fin n → Fin 1000) : ∃ o, f (singleReal fun s => gridPoint lo hi 999 (x s)) = .ok o ∧ o.shape = [1, n, d] ∧
      ∀ s : Fin n, ∀ k < d, o.get [0, s, k] = v (gridPoint lo hi 999 (x s)) k := by
  have hxr : ∀ idx, InRange idx [1, n] → lo ≤ (match idx with
      | [_, s] => if h : s < n then gridPoint lo hi 999 (x ⟨s, h⟩) else 0
      | _ => 0 : ℝ) ∧ (match idx with
      | [_, s] => if h : s < n then gridPoint lo hi 999 (x ⟨s, h⟩) else 0
      | _ => 0 : ℝ) ≤ hi := by
    intro idx hidx
    match idx, hidx with
    | [a, s], h =>
      have hs : s < n := by simp at h; exact h.2
      simp only [hs, dif_pos]
      exact gridPoint_mem lo hi hlt 999 _ (by norm_num) (x ⟨s, hs⟩).2
  obtain ⟨o, k1, k2, k3⟩ := hf [1, n] _ hxr
  refine ⟨o, k1, k2, fun s k hk => ?_⟩
  have := k3 [0, s] (by simp) k hk
  simpa using this

/-! ### Discrete domains -/

/-- C29, C30: the exact total probability of a model over an embedded discrete domain: for every model (with or without bias,
uniform or not), every embedding (fixed or trainable) and every strategy, the probabilities of all sequences sum to
`embZ / usedZ`; they sum to 1 exactly when these two agree; if `usedZ` is zero every evaluation raises AssertionError. -/
theorem C30_total_mass [RCLike K] (m : ProbMPS K) (n d D N : ℕ) (hm : ValidModel m n d D)
    (e : Embedding K) (he : m.embedding = some e) (hdom : e.domain = .discrete N)
    (v : ℕ → ℕ → K) (hf : EmbedsInts e.embFun N d v) (hfresh : Fresh e) (slim par : Bool) (hslim : slim = true → m.bias = none) :
    (usedZ m n d D (fun _ : Fin N => (1 : ℝ)) (fun a => v a) ≠ 0 →
      ∑ x : Fin n → Fin N, probSeq m slim par x =
        embZ m n d D (fun _ : Fin N => (1 : ℝ)) (fun a => v a) / usedZ m n d D (fun _ : Fin N => (1 : ℝ)) (fun a => v a) ∧
      (∑ x : Fin n → Fin N, probSeq m slim par x = 1 ↔
        embZ m n d D (fun _ : Fin N => (1 : ℝ)) (fun a => v a) = usedZ m n d D (fun _ : Fin N => (1 : ℝ)) (fun a => v a))) ∧
    (usedZ m n d D (fun _ : Fin N => (1 : ℝ)) (fun a => v a) = 0 → ∀ x : Fin n → Fin N,
      (m.forward (single x) slim par).1 = .error .assertion) := by
  obtain ⟨t, h1, h2, h3⟩ := rawLambda_ints e.embFun N d v hf 1000
  obtain ⟨hA, hB⟩ := mass_general m n d D hm e he (fun _ : Fin N => (1 : ℝ)) (fun _ => zero_le_one) (fun a => v a) t
    (by rw [hdom]; exact h1) h2 h3 hfresh (fun x => single x) (fun x => ⟨rfl, single_embed e.embFun N n d v hf x⟩) slim par hslim
  refine ⟨fun h0 => ?_, hB⟩
  have h := (hA h0).2
  simp only [Finset.prod_const_one, one_mul] at h
  have h' : ∑ x : Fin n → Fin N, probSeq m slim par x =
        embZ m n d D (fun _ : Fin N => (1 : ℝ)) (fun a => v a) / usedZ m n d D (fun _ : Fin N => (1 : ℝ)) (fun a => v a) := h
  refine ⟨h', ?_⟩
  rw [h', div_eq_one_iff_eq h0]

/-- C29: with a bias matrix and a lambda matrix stored in full, the model divides by the total in which the bias is counted
once per component of the feature vectors (`∑ k, v k`) instead of once, so it is normalised exactly when the
two totals agree. -/
theorem C29_normalised_iff [RCLike K] (m : ProbMPS K) (n d D N : ℕ) (hm : ValidModel m n d D)
    (e : Embedding K) (he : m.embedding = some e) (hdom : e.domain = .discrete N)
    (v : ℕ → ℕ → K) (hf : EmbedsInts e.embFun N d v) (hfresh : Fresh e) (par : Bool)
    (hfull : ¬ NearDiagonal (fun _ : Fin N => (1 : ℝ)) (fun a => v a) d)
    (h0 : ∑ x : Fin n → Fin N, ‖amplitude (boundVec m.edge D 0) (boundVec m.edge D 1)
      (List.ofFn fun s : Fin n => featMat m.core d D s (v (x s)) + (∑ k ∈ Finset.range d, v (x s) k) • biasMat m D)‖ ^ 2 ≠ 0) :
    ∑ x : Fin n → Fin N, probSeq m false par x = 1 ↔
      ∑ x : Fin n → Fin N, ‖amplitude (boundVec m.edge D 0) (boundVec m.edge D 1)
        (List.ofFn fun s : Fin n => featMat m.core d D s (v (x s)) + biasMat m D)‖ ^ 2 =
      ∑ x : Fin n → Fin N, ‖amplitude (boundVec m.edge D 0) (boundVec m.edge D 1)
        (List.ofFn fun s : Fin n => featMat m.core d D s (v (x s)) + (∑ k ∈ Finset.range d, v (x s) k) • biasMat m D)‖ ^ 2 := by
  have hu : usedZ m n d D (fun _ : Fin N => (1 : ℝ)) (fun a => v a) =
      ∑ x : Fin n → Fin N, ‖amplitude (boundVec m.edge D 0) (boundVec m.edge D 1)
      (List.ofFn fun s : Fin n => featMat m.core d D s (v (x s)) + (∑ k ∈ Finset.range d, v (x s) k) • biasMat m D)‖ ^ 2 := by
    unfold usedZ
    rw [if_neg hfull]
    simp
  have hz : embZ m n d D (fun _ : Fin N => (1 : ℝ)) (fun a => v a) = ∑ x : Fin n → Fin N, ‖amplitude (boundVec m.edge D 0)
      (boundVec m.edge D 1) (List.ofFn fun s : Fin n => featMat m.core d D s (v (x s)) + biasMat m D)‖ ^ 2 := by
    unfold embZ psiFeat
    simp
  rw [← hu] at h0
  rw [((C30_total_mass m n d D N hm e he hdom v hf hfresh false par (by simp)).1 h0).2, hz, hu]

/-- C30: what the compression can do at most: if every feature has total weight at least `μ > 0`, the total probability of a
bias-free model over sequences of length `n` lies between `(1 - ε)ⁿ` and `(1 + ε)ⁿ` with
`ε = (1e-5 + 1e-8 d / μ) / (1 - 1e-5)`, for every model, embedding and strategy. -/
theorem C30_mass_bounds [RCLike K] (m : ProbMPS K) (n d D N : ℕ) (hd : 0 < d) (hm : ValidModel m n d D) (hb : m.bias = none)
    (e : Embedding K) (he : m.embedding = some e) (hdom : e.domain = .discrete N)
    (v : ℕ → ℕ → K) (hf : EmbedsInts e.embFun N d v) (hfresh : Fresh e) (slim par : Bool) (μ : ℝ) (hμ : 0 < μ)
    (hdiag : ∀ i < d, μ ≤ ∑ a ∈ Finset.range N, ‖v a i‖ ^ 2)
    (h0 : embZ m n d D (fun _ : Fin N => (1 : ℝ)) (fun a => v a) ≠ 0) :
    ∑ x : Fin n → Fin N, probSeq m slim par x ≤ (1 + siteError d μ) ^ n ∧
    (siteError d μ < 1 → (1 - siteError d μ) ^ n ≤ ∑ x : Fin n → Fin N, probSeq m slim par x) := by
  have hnn := embZ_nonneg m n d D (fun _ : Fin N => (1 : ℝ)) (fun _ => zero_le_one) (fun a => v a)
  have hpos := lt_of_le_of_ne hnn (Ne.symm h0)
  obtain ⟨hu, hl⟩ := usedZ_bounds m n d D hm hb (fun _ : Fin N => (1 : ℝ)) (fun _ => zero_le_one) (fun a => v a) hd μ hμ (by
    intro i hi
    have := hdiag i hi
    unfold diagEntry
    rw [← Fin.sum_univ_eq_sum_range (fun a => ‖v a i‖ ^ 2)] at this
    simpa using this)
  have hε : 0 ≤ siteError d μ := by unfold siteError; exact div_nonneg (by positivity) (by norm_num)
  have hU : 0 < usedZ m n d D (fun _ : Fin N => (1 : ℝ)) (fun a => v a) := by
    by_contra hc
    have : (1 + siteError d μ) ^ n * usedZ m n d D (fun _ : Fin N => (1 : ℝ)) (fun a => v a) ≤ 0 :=
      mul_nonpos_of_nonneg_of_nonpos (by positivity) (not_lt.1 hc)
    linarith
  rw [((C30_total_mass m n d D N hm e he hdom v hf hfresh slim par (fun _ => hb)).1 hU.ne').1]
  exact ⟨(div_le_iff₀ hU).2 hu, fun h => (le_div_iff₀ hU).2 (hl h)⟩

/-! ### Continuous domains -/

/-- C32: the same for continuous domains: the trapezoid sum of the densities of every model, with or without bias, is
`embZ / usedZ`. -/
theorem C32_total_mass [RCLike K] (m : ProbMPS K) (n d D : ℕ) (hm : ValidModel m n d D)
    (e : Embedding K) (he : m.embedding = some e) (lo hi : ℝ) (hlt : lo < hi) (hdom : e.domain = .continuous hi lo)
    (v : ℝ → ℕ → K) (hf : EmbedsReals e.embFun lo hi d v) (hfresh : Fresh e) (slim par : Bool) (hslim : slim = true → m.bias = none) :
    (usedZ m n d D (fun a : Fin 1000 => trapWeight lo hi 999 a) (fun a => v (gridPoint lo hi 999 a)) ≠ 0 →
      ∑ x : Fin n → Fin 1000, (∏ s, trapWeight lo hi 999 (x s)) * densSeq m slim par (fun s => gridPoint lo hi 999 (x s)) =
        embZ m n d D (fun a : Fin 1000 => trapWeight lo hi 999 a) (fun a => v (gridPoint lo hi 999 a)) /
        usedZ m n d D (fun a : Fin 1000 => trapWeight lo hi 999 a) (fun a => v (gridPoint lo hi 999 a))) ∧
    (usedZ m n d D (fun a : Fin 1000 => trapWeight lo hi 999 a) (fun a => v (gridPoint lo hi 999 a)) = 0 → ∀ x : Fin n → Fin 1000,
      (m.forward (singleReal fun s => gridPoint lo hi 999 (x s)) slim par).1 = .error .assertion) := by
  obtain ⟨t, h1, h2, h3⟩ := rawLambda_reals e.embFun lo hi hlt d v hf 999 (by norm_num)
  have hw := (C32_weights lo hi hlt 999 (by norm_num)).1
  obtain ⟨hA, hB⟩ := mass_general m n d D hm e he (fun a : Fin 1000 => trapWeight lo hi 999 a) (fun a => (hw a).le)
    (fun a => v (gridPoint lo hi 999 a)) t (by rw [hdom]; exact h1) h2 h3 hfresh
    (fun x => singleReal fun s => gridPoint lo hi 999 (x s))
    (fun x => ⟨rfl, gridSeq_embed e.embFun lo hi hlt n d v hf x⟩) slim par hslim
  exact ⟨fun h0 => (hA h0).2, hB⟩

/-- C32: and the same bounds. -/
theorem C32_mass_bounds [RCLike K] (m : ProbMPS K) (n d D : ℕ) (hd : 0 < d) (hm : ValidModel m n d D) (hb : m.bias = none)
    (e : Embedding K) (he : m.embedding = some e) (lo hi : ℝ) (hlt : lo < hi) (hdom : e.domain = .continuous hi lo)
    (v : ℝ → ℕ → K) (hf : EmbedsReals e.embFun lo hi d v) (hfresh : Fresh e) (slim par : Bool) (μ : ℝ) (hμ : 0 < μ)
    (hdiag : ∀ i < d, μ ≤ ∑ a ∈ Finset.range 1000, trapWeight lo hi 999 a * ‖v (gridPoint lo hi 999 a) i‖ ^ 2)
    (h0 : embZ m n d D (fun a : Fin 1000 => trapWeight lo hi 999 a) (fun a => v (gridPoint lo hi 999 a)) ≠ 0) :
    ∑ x : Fin n → Fin 1000, (∏ s, trapWeight lo hi 999 (x s)) * densSeq m slim par (fun s => gridPoint lo hi 999 (x s)) ≤
      (1 + siteError d μ) ^ n ∧
    (siteError d μ < 1 → (1 - siteError d μ) ^ n ≤
      ∑ x : Fin n → Fin 1000, (∏ s, trapWeight lo hi 999 (x s)) * densSeq m slim par (fun s => gridPoint lo hi 999 (x s))) := by
  have hw := (C32_weights lo hi hlt 999 (by norm_num)).1
  have hnn := embZ_nonneg m n d D (fun a : Fin 1000 => trapWeight lo hi 999 a) (fun a => (hw a).le) (fun a => v (gridPoint lo hi 999 a))
  have hpos := lt_of_le_of_ne hnn (Ne.symm h0)
  obtain ⟨hu, hl⟩ := usedZ_bounds m n d D hm hb (fun a : Fin 1000 => trapWeight lo hi 999 a) (fun a => (hw a).le)
    (fun a => v (gridPoint lo hi 999 a)) hd μ hμ (by
    intro i hi'
    have := hdiag i hi'
    rw [← Fin.sum_univ_eq_sum_range (fun a => trapWeight lo hi 999 a * ‖v (gridPoint lo hi 999 a) i‖ ^ 2)] at this
    exact this)
  have hε : 0 ≤ siteError d μ := by unfold siteError; exact div_nonneg (by positivity) (by norm_num)
  have hU : 0 < usedZ m n d D (fun a : Fin 1000 => trapWeight lo hi 999 a) (fun a => v (gridPoint lo hi 999 a)) := by
    by_contra hc
    have := mul_nonpos_of_nonneg_of_nonpos (show 0 ≤ (1 + siteError d μ) ^ n by positivity) (not_lt.1 hc)
    linarith
  rw [(C32_total_mass m n d D hm e he lo hi hlt hdom v hf hfresh slim par (fun _ => hb)).1 hU.ne']
  exact ⟨(div_le_iff₀ hU).2 hu, fun h => (le_div_iff₀ hU).2 (hl h)⟩

/-- for two features of weight one the error per site is about one part in 100000 -/
example : siteError 2 1 < 2e-5 := by unfold siteError; norm_num

/-- non-vacuity: a one-site model over a one-hot embedding -/
example : ∃ (m : ProbMPS ℝ) (e : Embedding ℝ) (v : ℕ → ℕ → ℝ), ValidModel m 1 1 1 ∧ m.bias = none ∧ m.embedding = some e ∧
    e.domain = .discrete (1 : ℕ) ∧ EmbedsInts e.embFun 1 1 v ∧ Fresh e ∧ (∀ i < 1, (4 : ℝ) ≤ ∑ a ∈ Finset.range 1, ‖v a i‖ ^ 2) ∧
    embZ m 1 1 1 (fun _ : Fin 1 => (1 : ℝ)) (fun a => v a) ≠ 0 := by
  obtain ⟨e, -, h2, h3, h4⟩ := fixed_ok (constEmb 1 2) 1 1 _ (constEmb_embeds 1 1 2)
  refine ⟨oneSite 1 none e, e, fun _ _ => 2, ⟨rfl, rfl, by simp [oneSite], by norm_num⟩, rfl, rfl, h3,
    by rw [h2]; exact constEmb_embeds 1 1 2, h4, ?_, ?_⟩
  · intro i _; norm_num
  · simp [embZ, psiFeat, amplitude, featMat, coreMat, oneSite, boundVec, biasMat, dotProduct, Matrix.mulVec]

end TorchMPS
