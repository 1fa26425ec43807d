import Verif.Spec.Mlp
import Verif.Props.ProbInit
import Verif.Props.Trainable
/-
C74: the trainable embeddings built by `init_mlp_embed`. C32 for trainable embeddings.
-/
namespace TorchMPS
open Spec
variable {K : Type}

/-! ### C32 for trainable embeddings -/

/-- C32: the same for an embedding whose lambda matrix is made from its current function with 1000 points (a
`TrainableEmbedding`, or a new `FixedEmbedding`). -/
theorem C32_current_lambda [RCLike K] (m : ProbMPS K) (n d D : ℕ) (hm : ValidModel m n d D)
    (hb : m.bias = none) (e : Embedding K) (he : m.embedding = some e) (lo hi : ℝ) (hlt : lo < hi)
    (hdom : e.domain = .continuous hi lo) (hfresh : Fresh e)
    (v : ℝ → ℕ → K) (hf : EmbedsReals e.embFun lo hi d v)
    (hex : ExactCompression (gram (fun a : Fin 1000 => trapWeight lo hi 999 a)
      (fun a => v (gridPoint lo hi 999 a))) d) (slim par : Bool)
    (h0 : embZ m n d D (fun a : Fin 1000 => trapWeight lo hi 999 a) (fun a => v (gridPoint lo hi 999 a)) ≠ 0) :
    ∑ x : Fin n → Fin 1000, (∏ s, trapWeight lo hi 999 (x s)) *
      densSeq m slim par (fun s => gridPoint lo hi 999 (x s)) = 1 := by
  obtain ⟨lam, hlam, hL⟩ := usesLambda_reals e lo hi hlt d v hdom hf hfresh hex
  have hw := (C32_weights lo hi hlt 999 (by norm_num)).1
  have hW := weightedNormSq_addBias m n d D hm (fun a : Fin 1000 => trapWeight lo hi 999 a)
    (fun a => v (gridPoint lo hi 999 a)) (Or.inl hb)
  refine sum_embedded m n d D (fun a : Fin 1000 => trapWeight lo hi 999 a)
    (fun a => v (gridPoint lo hi 999 a)) h0 (fun x => densSeq m slim par (fun s => gridPoint lo hi 999 (x s))) ?_
  intro x
  have hxr : ∀ idx, InRange idx [1, n] → lo ≤ (match idx with
      | [_, s] => if h : s < n then gridPoint lo hi 999 (x ⟨s, h⟩) else 0
      | _ => 0 : ℝ) ∧ (match idx with
      | [_, s] => if h : s < n then gridPoint lo hi 999 (x ⟨s, h⟩) else 0
      | _ => 0 : ℝ) ≤ hi := by
    intro idx hidx
    match idx, hidx with
    | [a, s], h =>
      have hs : s < n := by simp at h; exact h.2
      simp only [hs, dif_pos]
      exact gridPoint_mem lo hi hlt 999 _ (by norm_num) (x ⟨s, hs⟩).2
  obtain ⟨o, k1, k2, k3⟩ := hf [1, n] _ hxr
  refine prob_embedded m n d D hm e he (singleReal fun s => gridPoint lo hi 999 (x s)) rfl o k1 k2 _ ?_ lam hlam
    (fun a : Fin 1000 => trapWeight lo hi 999 a) (fun a => (hw a).le) _ hL _ hW h0
    slim par (fun _ => hb)
  intro s k hk
  have := k3 [0, s] (by simp) k hk
  simpa using this

/-! ### C74 -/

theorem mlp_forward (layers : List LinearLayer) (a b : ℕ) (h : Chained a b layers) (sh : Shape) (t : Tensor ℝ)
    (ht : t.shape = sh ++ [a]) : ∃ y, mlpForward layers t = .ok y ∧ y.shape = sh ++ [b] ∧
      ∀ idx k, y.get (idx ++ [k]) = mlpFun layers (fun j => t.get (idx ++ [j])) k := by
  induction layers generalizing a t with
  | nil =>
    simp only [Chained] at h
    subst h
    exact ⟨t, rfl, ht, fun idx k => rfl⟩
  | cons l ls ih =>
    obtain ⟨h1, h2⟩ := h
    obtain ⟨y, y1, y2, y3⟩ := ih l.outDim h2 ((⟨sh ++ [l.outDim], fun idx =>
      ∑ j ∈ Finset.range l.inDim, t.get (idx.dropLast ++ [j]) * l.weight (idx.getLastD 0) j + l.bias (idx.getLastD 0)⟩ : Tensor ℝ).map
        Real.sigmoid) rfl
    refine ⟨y, ?_, y2, fun idx k => ?_⟩
    · simp only [mlpForward, LinearLayer.forward]
      rw [if_pos (by rw [ht, h1]; simp)]
      simp only [ht, List.dropLast_concat]
      exact y1
    · rw [y3]
      simp only [mlpFun, Tensor.map, List.dropLast_concat, List.getLastD_concat, Real.sigmoid_def, one_div]
      congr 1
      funext i
      congr 4
      congr 1
      exact Finset.sum_congr rfl fun j _ => mul_comm _ _

theorem mlpFun_range (layers : List LinearLayer) (hne : layers ≠ []) (y : ℕ → ℝ) (k : ℕ) :
    0 < mlpFun layers y k ∧ mlpFun layers y k < 1 := by
  induction layers generalizing y with
  | nil => exact absurd rfl hne
  | cons l ls ih =>
    simp only [mlpFun]
    by_cases h : ls = []
    · subst h
      simp only [mlpFun, one_div]
      rw [← Real.sigmoid_def]
      exact ⟨Real.sigmoid_pos _, Real.sigmoid_lt_one _⟩
    · exact ih h _

/-- C74: `init_mlp_embed` accepts its arguments iff there are `num_layers - 1` hidden widths (always, for an integer width and at
least one layer); the result is a `TrainableEmbedding` of the given domain (by default the unit interval) around `num_layers`
layers which fit together, from one component to `output_dim`. -/
theorem C74_constructed [RCLike K] (out : ℕ) (L : ℤ) (hidden : HiddenDims) (dom : Option DataDomain)
    (W : ℕ → ℕ → ℕ → ℝ) (b : ℕ → ℕ → ℝ) :
    (1 ≤ L ∧ (∀ l, hidden = .list l → (l.length : ℤ) = L - 1) → ∃ e layers, initMlp (K := K) out L hidden dom W b = .ok (e, layers) ∧
      e = Embedding.trainable' (mlpModule layers) (dom.getD (.continuous 1 0)) ∧ (layers.length : ℤ) = L ∧ Chained 1 out layers ∧
      ∀ i (hi : i < layers.length), layers[i].weight = W i ∧ layers[i].bias = b i ∧
        (i + 1 < layers.length → layers[i].outDim = match hidden with | .int n => n | .list l => l.getD i 0)) ∧
    (¬ (1 ≤ L ∧ ∀ l, hidden = .list l → (l.length : ℤ) = L - 1) → initMlp (K := K) out L hidden dom W b = .error .assertion) := by
  have chain : ∀ (a : ℕ) (l : List ℕ) (k : ℕ), Chained a out ((((a :: l).zip (l ++ [out])).zipIdx k).map
      (fun s => (⟨s.1.1, s.1.2, W s.2, b s.2⟩ : LinearLayer))) := by
    intro a l
    induction l generalizing a with
    | nil => intro k; simp [Chained]
    | cons c l ih => intro k; exact ⟨rfl, ih c (k + 1)⟩
  have key : ∀ l : List ℕ, ((l.length : ℤ) = L - 1 → ∃ e layers, initMlp (K := K) out L (.list l) dom W b = .ok (e, layers) ∧
      e = Embedding.trainable' (mlpModule layers) (dom.getD (.continuous 1 0)) ∧ (layers.length : ℤ) = L ∧ Chained 1 out layers ∧
      ∀ i (hi : i < layers.length), layers[i].weight = W i ∧ layers[i].bias = b i ∧
        (i + 1 < layers.length → layers[i].outDim = l.getD i 0)) ∧
      ((l.length : ℤ) ≠ L - 1 → initMlp (K := K) out L (.list l) dom W b = .error .assertion) := by
    intro l
    obtain ⟨h1, h2⟩ := C38_mlp_list out L l dom
    constructor
    · intro hl
      obtain ⟨h3, h4⟩ := h1 hl
      refine ⟨_, (((1 :: l).zip (l ++ [out])).zipIdx).map (fun s => (⟨s.1.1, s.1.2, W s.2, b s.2⟩ : LinearLayer)), ?_, rfl, ?_,
        chain 1 l 0, ?_⟩
      · unfold initMlp
        rw [h3]; rfl
      · rw [← h4]; simp
      · intro i hi
        simp only [List.getElem_map, List.getElem_zipIdx, List.getElem_zip, List.length_map, List.length_zipIdx, Nat.zero_add]
        refine ⟨trivial, trivial, fun hi' => ?_⟩
        simp at hi'
        rw [List.getElem_append_left hi', List.getD_eq_getElem?_getD, List.getElem?_eq_getElem hi', Option.getD_some]
    · intro hl
      unfold initMlp
      rw [h2 hl]; rfl
  cases hidden with
  | list l =>
    constructor
    · rintro ⟨-, h⟩
      exact (key l).1 (h l rfl)
    · intro h
      refine (key l).2 fun hl => h ⟨by omega, fun l' h' => by cases h'; exact hl⟩
  | int n =>
    have hrw : initMlp (K := K) out L (.int n) dom W b = initMlp out L (.list (List.replicate (L - 1).toNat n)) dom W b := rfl
    rw [hrw]
    constructor
    · rintro ⟨h, -⟩
      obtain ⟨e, layers, k1, k2, k3, k4, k5⟩ := (key (List.replicate (L - 1).toNat n)).1 (by simp; omega)
      refine ⟨e, layers, k1, k2, k3, k4, fun i hi => ⟨(k5 i hi).1, (k5 i hi).2.1, fun hi' => ?_⟩⟩
      rw [(k5 i hi).2.2 hi', List.getD_eq_getElem?_getD, List.getElem?_eq_getElem (by simp; omega)]
      simp
    · intro h
      refine (key _).2 fun hl => h ⟨by simp at hl; omega, fun l h' => by cases h'⟩

/-- C74: on tensors of reals of every shape, the embedding appends an axis of size `output_dim` holding the perceptron's value
at each entry. -/
theorem C74_entries [RCLike K] (layers : List LinearLayer) (d : ℕ) (h : Chained 1 d layers) (dom : DataDomain) (lo hi : ℝ) :
    EmbedsReals (Embedding.trainable' (mlpModule (K := K) layers) dom).embFun lo hi d
      (fun x k => (mlpFun layers (fun _ => x) k : K)) := by
  intro sh x _
  obtain ⟨y, y1, y2, y3⟩ := mlp_forward layers 1 d h sh (Tensor.map (⟨sh ++ [1], fun idx => ((x idx.dropLast : ℝ) : K)⟩ : Tensor K) RCLike.re) rfl
  refine ⟨y.map fun r => (r : K), ?_, y2, fun idx _ k _ => ?_⟩
  · simp only [Embedding.trainable', SeqInput.unsqueezeLast, mlpModule]
    rw [y1]
  · simp only [Tensor.map] at y3 ⊢
    rw [y3]
    simp

/-- C74: its components lie strictly between 0 and 1, for all parameters and all values. -/
theorem C74_range (layers : List LinearLayer) (hne : layers ≠ []) (x : ℝ) (k : ℕ) :
    0 < mlpFun layers (fun _ => x) k ∧ mlpFun layers (fun _ => x) k < 1 := mlpFun_range layers hne _ k

/-- C74: a perceptron cannot embed a discrete domain: every evaluation raises RuntimeError, although `init_mlp_embed` accepts
the domain. -/
theorem C74_discrete_fails [RCLike K] (layers : List LinearLayer) (N : ℤ) (x : SeqInput K) :
    ((Embedding.trainable' (mlpModule (K := K) layers) (.discrete N)).forward x).1 = .error .runtime := rfl

theorem overlap_gram [RCLike K] (lo hi : ℝ) (v : ℝ → ℕ → ℝ) (i j : ℕ) :
    gram (fun a : Fin 1000 => trapWeight lo hi 999 a) (fun a k => ((v (gridPoint lo hi 999 a) k : ℝ) : K)) i j =
      (overlap lo hi v i j : K) := by
  unfold gram overlap
  rw [← Fin.sum_univ_eq_sum_range (fun a => trapWeight lo hi 999 a * (v (gridPoint lo hi 999 a) i * v (gridPoint lo hi 999 a) j))]
  push_cast
  refine Finset.sum_congr rfl fun a _ => ?_
  simp

theorem overlap_pos (lo hi : ℝ) (hlt : lo < hi) (v : ℝ → ℕ → ℝ) (i j : ℕ) (hi' : ∀ x, 0 < v x i ∧ v x i < 1)
    (hj' : ∀ x, 0 < v x j ∧ v x j < 1) : 0 < overlap lo hi v i j ∧ overlap lo hi v i j < hi - lo := by
  obtain ⟨hw, hs⟩ := C32_weights lo hi hlt 999 (by norm_num)
  unfold overlap
  constructor
  · exact Finset.sum_pos (fun a _ => mul_pos (hw a) (mul_pos (hi' _).1 (hj' _).1)) ⟨0, by simp⟩
  · rw [← hs, Fin.sum_univ_eq_sum_range (fun a => trapWeight lo hi 999 a)]
    refine Finset.sum_lt_sum_of_nonempty ⟨0, by simp⟩ fun a _ => ?_
    have h1 := hi' (gridPoint lo hi 999 a)
    have h2 := hj' (gridPoint lo hi 999 a)
    have : v (gridPoint lo hi 999 a) i * v (gridPoint lo hi 999 a) j < 1 := by nlinarith
    have := hw a
    nlinarith

/-- C74: the lambda matrix of a perceptron with `d` outputs (before compression) has entries strictly between 0 and the length of
the interval, namely the quadrature sums of the products of components. -/
theorem C74_lambda [RCLike K] (layers : List LinearLayer) (hne : layers ≠ []) (d : ℕ) (h : Chained 1 d layers) (lo hi : ℝ) (hlt : lo < hi) :
    ∃ t : Tensor K, rawLambda (Embedding.trainable' (mlpModule (K := K) layers) (.continuous hi lo)).embFun (.continuous hi lo) 1000 = .ok t ∧
      t.shape = [d, d] ∧ ∀ i < d, ∀ j < d, t.get [i, j] = (overlap lo hi (fun x => mlpFun layers fun _ => x) i j : K) ∧
        0 < overlap lo hi (fun x => mlpFun layers fun _ => x) i j ∧ overlap lo hi (fun x => mlpFun layers fun _ => x) i j < hi - lo := by
  obtain ⟨t, t1, t2, t3⟩ := rawLambda_reals _ lo hi hlt d _ (C74_entries (K := K) layers d h (.continuous hi lo) lo hi) 999 (by norm_num)
  refine ⟨t, t1, t2, fun i hi' j hj' => ⟨?_, overlap_pos lo hi hlt _ i j (fun x => C74_range layers hne x i) fun x => C74_range layers hne x j⟩⟩
  rw [t3 i hi' j hj']
  exact overlap_gram lo hi (fun x => mlpFun layers fun _ => x) i j

/-- C74: the lambda matrix survives compression exactly iff there is at most one component, or some two different components have
an overlap above `1e-8 / (1 - 1e-5)` (below it, the matrix is taken for diagonal). -/
theorem C74_compression [RCLike K] (layers : List LinearLayer) (hne : layers ≠ []) (d : ℕ) (lo hi : ℝ) (hlt : lo < hi) :
    ExactCompression (K := K) (gram (fun a : Fin 1000 => trapWeight lo hi 999 a)
      (fun a k => ((mlpFun layers (fun _ => gridPoint lo hi 999 a) k : ℝ) : K))) d ↔
    d ≤ 1 ∨ ∃ i < d, ∃ j < d, i ≠ j ∧ 1e-8 < (1 - 1e-5) * overlap lo hi (fun x => mlpFun layers fun _ => x) i j := by
  have hp := fun i j => (overlap_pos lo hi hlt (fun x => mlpFun layers fun _ => x) i j (fun x => C74_range layers hne x i)
    fun x => C74_range layers hne x j).1
  have hg := fun i j => overlap_gram (K := K) lo hi (fun x => mlpFun layers fun _ => x) i j
  unfold ExactCompression
  simp only [hg]
  have hclose : ∀ z : K, closeTo z z := fun z => by
    unfold closeTo
    rw [sub_self, norm_zero]
    positivity
  constructor
  · rintro (⟨i, hi', j, hj', h⟩ | ⟨h, -⟩)
    · right
      by_cases hij : i = j
      · subst hij
        exact absurd (by rw [if_pos rfl]; exact hclose _) h
      · refine ⟨i, hi', j, hj', hij, ?_⟩
        rw [if_neg hij] at h
        unfold closeTo at h
        rw [zero_sub, norm_neg, RCLike.norm_ofReal, abs_of_pos (hp i j)] at h
        push Not at h
        linarith
    · left
      by_contra hd
      have := h 0 (by omega) 1 (by omega) (by omega)
      exact (hp 0 1).ne' (by exact_mod_cast this)
  · rintro (h | ⟨i, hi', j, hj', hij, h⟩)
    · right
      exact ⟨fun i hi' j hj' hij => by omega, Or.inr fun i hi' j hj' => by rw [show i = j by omega]⟩
    · left
      refine ⟨i, hi', j, hj', ?_⟩
      rw [if_neg hij]
      unfold closeTo
      rw [zero_sub, norm_neg, RCLike.norm_ofReal, abs_of_pos (hp i j)]
      push Not
      linarith

/-- C74: at every point of a training history (updates of the parameters of the MPS and of the perceptron, evaluations in between)
the densities of a bias-free model with a perceptron embedding of `[lo, hi]`, multiplied by the trapezoidal weights of the grid
in every position, sum to one, provided the lambda matrix survives compression and the total weight is not zero. -/
theorem C74_normalised_in_training [RCLike K] (u : Bool) (p : Tensor K × Tensor K × Option (Tensor K)) (g : EmbFun K)
    (lo hi : ℝ) (hlt : lo < hi) (ops : List (Op K)) (layers : List LinearLayer) (hne : layers ≠ []) (n d D : ℕ)
    (hcur : currentModule g ops = mlpModule layers) (hch : Chained 1 d layers)
    (hm : ValidModel (newModel u (currentMps p ops) (mlpModule layers) (.continuous hi lo)) n d D)
    (hb : (currentMps p ops).2.2 = none)
    (hex : d ≤ 1 ∨ ∃ i < d, ∃ j < d, i ≠ j ∧ 1e-8 < (1 - 1e-5) * overlap lo hi (fun x => mlpFun layers fun _ => x) i j)
    (slim par : Bool)
    (h0 : embZ (newModel u (currentMps p ops) (mlpModule layers) (.continuous hi lo)) n d D
      (fun a : Fin 1000 => trapWeight lo hi 999 a)
      (fun a k => ((mlpFun layers (fun _ => gridPoint lo hi 999 a) k : ℝ) : K)) ≠ 0) :
    ∑ x : Fin n → Fin 1000, (∏ s, trapWeight lo hi 999 (x s)) *
      densSeq (ops.foldl Op.run (newModel u p g (.continuous hi lo))) slim par (fun s => gridPoint lo hi 999 (x s)) = 1 := by
  have h := C32_current_lambda (newModel u (currentMps p ops) (mlpModule layers) (.continuous hi lo)) n d D hm hb _ rfl lo hi hlt rfl
    (Or.inl rfl) _ (C74_entries (K := K) layers d hch (.continuous hi lo) lo hi) ((C74_compression layers hne d lo hi hlt).2 hex)
    slim par h0
  rw [← h]
  refine Finset.sum_congr rfl fun x _ => ?_
  unfold densSeq
  rw [C34_forward_uses_current_parameters, hcur]

/-- Non-vacuity: a perceptron with one layer and two outputs, before and after a parameter update, in a model with one site. -/
example (slim par : Bool) (x₀ : SeqInput ℝ) :
    ∑ x : Fin 1 → Fin 1000, (∏ s, trapWeight 0 1 999 (x s)) *
      densSeq ([Op.forward x₀ false false, .updateModule (mlpModule [⟨1, 2, fun _ _ => 0, fun _ => 0⟩])].foldl Op.run
        (newModel false (⟨[1, 2, 1, 1], fun _ => 1⟩, ⟨[2, 1], fun _ => 1⟩, none)
          (mlpModule [⟨1, 2, fun i j => i + j, fun _ => 7⟩]) (.continuous 1 0))) slim par (fun s => gridPoint 0 1 999 (x s)) = 1 := by
  have hv : ∀ x : ℝ, mlpFun [⟨1, 2, fun _ _ => 0, fun _ => 0⟩] (fun _ => x) = fun _ => 1 / 2 := by
    intro x
    funext k
    simp only [mlpFun]
    norm_num
  refine C74_normalised_in_training false _ _ 0 1 (by norm_num) _ [⟨1, 2, fun _ _ => 0, fun _ => 0⟩] (by simp) 1 2 1 rfl
    ⟨rfl, rfl⟩ ⟨rfl, rfl, by simp [newModel, currentMps], by norm_num⟩ rfl (Or.inr ⟨0, by norm_num, 1, by norm_num, by norm_num, ?_⟩) slim par ?_
  · simp only [hv, overlap]
    rw [← Finset.sum_mul]
    have := trapWeight_sum 0 1 999 (by norm_num)
    rw [Fin.sum_univ_eq_sum_range (fun a => trapWeight 0 1 999 a)] at this
    rw [this]
    norm_num
  · simp only [hv, embZ]
    refine (Finset.sum_pos (fun x _ => mul_pos (Finset.prod_pos fun s _ => (C32_weights 0 1 (by norm_num) 999 (by norm_num)).1 _) ?_)
      ⟨fun _ => 0, Finset.mem_univ _⟩).ne'
    simp [psiFeat, amplitude, featMat, coreMat, newModel, currentMps, boundVec, biasMat, dotProduct, Matrix.mulVec, Finset.sum_range_succ]

end TorchMPS
