import Verif.Props.RegistryProb
import Verif.Props.TotalMass
/-
C89: what is trained and saved of an embedding with parameters of its own.
-/
namespace TorchMPS
open Spec
variable {K : Type}

/-- C89: the parameters of the module inside a `TrainableEmbedding` are not among the parameters of the model: no training with an optimiser made with
`parameters()` ever changes them (nor anything else of the embedding), and the state of the model is that of the model without embedding. -/
theorem C89_trainable_not_trained (m : ProbObject K) (e : EmbObject K) (he : m.embedding = some e) (ht : e.trainable = true) :
    (∀ fs, (afterSteps m fs).embedding = some e) ∧ m.stateDict = ({ m with embedding := none } : ProbObject K).stateDict := by
  constructor
  · intro fs
    induction fs generalizing m with
    | nil => exact he
    | cons f fs ih =>
      refine ih (m.step f) ?_
      simp [ProbObject.step, ProbObject.mapNamed, he, EmbObject.mapNamed, ht]
  · simp [ProbObject.stateDict, ProbObject.embNamed, he, EmbObject.named, ht]

/-- C89: of a `FixedEmbedding` given a module, training changes the parameters of the module, but the lambda matrix remains the one of the parameters at
construction. -/
theorem C89_lambda_frozen (m : ProbObject K) (e : EmbObject K) (he : m.embedding = some e) (ht : e.trainable = false) :
    (∀ fs, ∃ θ, (afterSteps m fs).embedding = some { e with values := θ }) ∧
    (e.wrapped.names.Nodup → e.values.length = e.wrapped.names.length → ∀ θ : List (Tensor K), θ.length = e.wrapped.names.length →
      ∃ f, (m.step f).embedding = some { e with values := θ } ∧ (m.step f).core = m.core ∧ (m.step f).edge = m.edge ∧ (m.step f).bias = m.bias) := by
  constructor
  · intro fs
    induction fs generalizing m e with
    | nil => exact ⟨e.values, he⟩
    | cons f fs ih =>
      obtain ⟨θ, h⟩ := ih (m.step f) { e with values := (e.wrapped.names.zip e.values).map (fun p => f [.name "embedding", .name "emb_fun", .name p.1] p.2) }
        (by simp [ProbObject.step, ProbObject.mapNamed, he, EmbObject.mapNamed, ht]) ht
      exact ⟨θ, h⟩
  · intro hn hl θ hθ
    let d : StateDict K := (e.wrapped.names.zip θ).map (fun p => ([.name "embedding", .name "emb_fun", .name p.1], p.2))
    let f : Key → Tensor K → Tensor K := fun k t => (lookupKey d k).getD t
    have hd : (d.map Prod.fst).Nodup := by
      have := emb_nodup ⟨false, e.wrapped, θ, e.domain, none⟩ hn hθ
      simp only [EmbObject.named, Bool.false_eq_true, if_false] at this
      exact this
    have h1 : ∀ k : String, f [.name k] = id := by
      intro k
      funext t
      have : lookupKey d [.name k] = none := by
        refine lookup_none fun x hx hxk => ?_
        obtain ⟨p, -, rfl⟩ := List.mem_map.1 hx
        simp at hxk
      simp [f, this]
    refine ⟨f, ?_, ?_, ?_, ?_⟩
    · simp only [ProbObject.step, ProbObject.mapNamed, he, Option.map_some, EmbObject.mapNamed, ht, Bool.false_eq_true, if_false]
      congr 2
      have hmem : ∀ p ∈ e.wrapped.names.zip θ, lookupKey d [.name "embedding", .name "emb_fun", .name p.1] = some p.2 := fun p hp =>
        lookup_of_mem hd (List.mem_map.2 ⟨p, hp, rfl⟩)
      clear_value d
      simp only [f]
      clear f h1 hd he hn
      generalize e.wrapped.names = ns at *
      generalize e.values = vs at *
      induction ns generalizing vs θ with
      | nil => simp at hθ; simp [hθ]
      | cons n ns ih =>
        cases vs with
        | nil => simp at hl
        | cons v vs => cases θ with
          | nil => simp at hθ
          | cons t θ =>
            simp only [List.length_cons, Nat.add_right_cancel_iff] at hl hθ
            simp only [List.zip_cons_cons, List.map_cons, List.cons.injEq]
            refine ⟨?_, ih θ hθ (fun p hp => hmem p (by rw [List.zip_cons_cons]; exact List.mem_cons_of_mem _ hp)) vs hl⟩
            rw [hmem (n, t) (by simp)]
            rfl
    · simp [ProbObject.step, ProbObject.mapNamed, h1]
    · simp [ProbObject.step, ProbObject.mapNamed, h1]
    · simp [ProbObject.step, ProbObject.mapNamed, h1]

/-- C89: hence the probabilities: with a fixed embedding over the values 0, ..., N-1 of a module whose parameters were `θ0` at construction and are `θ` now, the squared
amplitudes of the current feature vectors `v` are divided by the normalisation belonging to the initial feature vectors `v0`, and the total probability is
the quotient of the two. -/
theorem C89_stale_normalisation [RCLike K] (f : EmbModule K) (θ0 θ : List (Tensor K)) (N : ℕ) (e0 : EmbObject K)
    (h0 : EmbObject.fixed f θ0 (.discrete N) = .ok e0) (m : ProbObject K) (he : m.embedding = some { e0 with values := θ }) (n d D : ℕ)
    (hm : ValidModel m.model n d D) (v0 v : ℕ → ℕ → K) (hv0 : EmbedsInts (f.apply θ0) N d v0) (hv : EmbedsInts (f.apply θ) N d v) (slim par : Bool)
    (hslim : slim = true → m.bias = none) (hz : usedZ m.model n d D (fun _ : Fin N => (1 : ℝ)) (fun a => v0 a) ≠ 0) :
    (∀ x : Fin n → Fin N, probSeq m.model slim par x = ‖psiFeat m.model n d D (fun s => v (x s))‖ ^ 2 / usedZ m.model n d D (fun _ : Fin N => (1 : ℝ)) (fun a => v0 a)) ∧
    ∑ x : Fin n → Fin N, probSeq m.model slim par x =
      embZ m.model n d D (fun _ : Fin N => (1 : ℝ)) (fun a => v a) / usedZ m.model n d D (fun _ : Fin N => (1 : ℝ)) (fun a => v0 a) := by
  obtain ⟨t, h1, h2, h3⟩ := rawLambda_ints (f.apply θ0) N d v0 hv0 1000
  have hml : EmbObject.fixed f θ0 (.discrete (N : ℤ)) = .ok ⟨false, f, θ0, .discrete N, some (compressLambda t)⟩ := by
    simp [EmbObject.fixed, makeLambda, h1, bind, Except.bind, pure, Except.pure]
  rw [hml] at h0
  cases h0
  obtain ⟨ι', _, w', v', hw', hL, hW⟩ := stored_family m.model n d D hm (fun _ : Fin N => (1 : ℝ)) (fun _ => zero_le_one) (fun a => v0 a) t h2 h3
  have hem : m.model.embedding = some ⟨false, f.apply θ, .discrete N, some (compressLambda t)⟩ := by
    simp [ProbObject.model, he, EmbObject.embedding]
  have key : ∀ x : Fin n → Fin N, probSeq m.model slim par x =
      ‖psiFeat m.model n d D (fun s => v (x s))‖ ^ 2 / usedZ m.model n d D (fun _ : Fin N => (1 : ℝ)) (fun a => v0 a) := by
    intro x
    obtain ⟨o, k1, k2, k3⟩ := single_embed (f.apply θ) N n d v hv x
    exact prob_embedded m.model n d D hm _ hem (single x) rfl o k1 k2 _ k3 _ (by simp [UsesLambda]) w' hw' v' hL _ hW hz slim par hslim
  refine ⟨key, ?_⟩
  unfold embZ
  rw [Finset.sum_div]
  refine Finset.sum_congr rfl fun x _ => ?_
  rw [key, Finset.prod_const_one, one_mul]

theorem usedZ_congr [RCLike K] (m m' : ProbMPS K) (hc : m.core = m'.core) (he : m.edge = m'.edge) (hb : m.bias = m'.bias) (hu : m.uniform = m'.uniform)
    {ι : Type} [Fintype ι] (n d D : ℕ) (w : ι → ℝ) (v : ι → ℕ → K) : usedZ m n d D w v = usedZ m' n d D w v := by
  cases m; cases m'
  simp only at hc he hb hu
  subst hc he hb hu
  rfl

theorem psiFeat_congr [RCLike K] (m m' : ProbMPS K) (hc : m.core = m'.core) (he : m.edge = m'.edge) (hb : m.bias = m'.bias) (hu : m.uniform = m'.uniform)
    (n d D : ℕ) (v : Fin n → ℕ → K) : psiFeat m n d D v = psiFeat m' n d D v := by
  cases m; cases m'
  simp only at hc he hb hu
  subst hc he hb hu
  rfl

/-- C89: a model with a fixed embedding over a module, constructed with parameters `θ0` and trained to `θ`, saved, and loaded into a model of the same
architecture constructed with parameters `θ1`: loading succeeds, the parameters are those of the saved model, but the normalisation is the one
belonging to `θ1`: all probabilities are multiplied by the same factor. -/
theorem C89_loaded_normalisation [RCLike K] (f : EmbModule K) (θ0 θ1 θ : List (Tensor K)) (N : ℕ) (e0 e1 : EmbObject K)
    (h0 : EmbObject.fixed f θ0 (.discrete N) = .ok e0) (h1 : EmbObject.fixed f θ1 (.discrete N) = .ok e1) (m m' : ProbObject K)
    (he : m.embedding = some { e0 with values := θ }) (he' : m'.embedding = some e1) (hnd : f.names.Nodup) (hθ : θ.length = f.names.length)
    (hshapes : θ1.map Tensor.shape = θ.map Tensor.shape) (hu : m.uniform = m'.uniform) (hc : m.core.shape = m'.core.shape)
    (hed : m.edge.shape = m'.edge.shape) (hb : m.bias.map Tensor.shape = m'.bias.map Tensor.shape) (n d D : ℕ)
    (hm : ValidModel m.model n d D) (v0 v1 v : ℕ → ℕ → K) (hv0 : EmbedsInts (f.apply θ0) N d v0) (hv1 : EmbedsInts (f.apply θ1) N d v1)
    (hv : EmbedsInts (f.apply θ) N d v) (slim par : Bool)
    (hslim : slim = true → m.bias = none) (hz : usedZ m.model n d D (fun _ : Fin N => (1 : ℝ)) (fun a => v0 a) ≠ 0)
    (hz1 : usedZ m.model n d D (fun _ : Fin N => (1 : ℝ)) (fun a => v1 a) ≠ 0) :
    (m'.loadStateDict m.stateDict).1 = .ok () ∧
    (m'.loadStateDict m.stateDict).2.embedding.map EmbObject.values = some θ ∧
    ∀ x : Fin n → Fin N, probSeq (m'.loadStateDict m.stateDict).2.model slim par x =
      usedZ m.model n d D (fun _ : Fin N => (1 : ℝ)) (fun a => v0 a) / usedZ m.model n d D (fun _ : Fin N => (1 : ℝ)) (fun a => v1 a) *
        probSeq m.model slim par x := by
  have hf : ∀ (θ : List (Tensor K)) (e : EmbObject K), EmbObject.fixed f θ (.discrete (N : ℤ)) = .ok e → e.trainable = false ∧ e.wrapped = f ∧ e.values = θ := by
    intro θ e h
    unfold EmbObject.fixed at h
    obtain ⟨lam, -, h⟩ := bind_ok_inv h
    cases h
    exact ⟨rfl, rfl, rfl⟩
  obtain ⟨a1, a2, a3⟩ := hf _ _ h0
  obtain ⟨b1, b2, b3⟩ := hf _ _ h1
  have hl1 : θ1.length = θ.length := by have := congrArg List.length hshapes; simpa using this
  have hn : ProbObject.Named m := by
    intro e h
    rw [he] at h; cases h
    exact ⟨by rw [a2]; exact hnd, by rw [a2]; exact hθ⟩
  have hn' : ProbObject.Named m' := by
    intro e h
    rw [he'] at h; cases h
    exact ⟨by rw [b2]; exact hnd, by rw [b2, b3, hl1, hθ]⟩
  have hent : embEntries m = embEntries m' := by
    unfold embEntries
    rw [he, he']
    simp only [a1, b1, a2, b2, b3, Bool.false_eq_true, if_false, hshapes]
  obtain ⟨l1, l2, l3, l4, l5, -, -, -, l6⟩ := C87_prob_mps m m' hn hn' hc hed hb hent
  have l6 := l6 _ _ he he' a1 b1
  generalize (m'.loadStateDict m.stateDict).2 = m'' at *
  refine ⟨l1, by rw [l6]; rfl, fun x => ?_⟩
  have hcore : m''.model.core = m.model.core := l3
  have hedge : m''.model.edge = m.model.edge := l4
  have hbias : m''.model.bias = m.model.bias := l5
  have huni : m''.model.uniform = m.model.uniform := l2.trans hu.symm
  have hm'' : ValidModel m''.model n d D := ⟨by rw [hcore, huni]; exact hm.core, by rw [hedge]; exact hm.edge, by rw [hbias]; exact hm.bias, hm.pos⟩
  have r0 := (C89_stale_normalisation f θ0 θ N e0 h0 m he n d D hm v0 v hv0 hv slim par hslim hz).1 x
  have r1 := (C89_stale_normalisation f θ1 θ N e1 h1 m'' l6 n d D hm'' v1 v hv1 hv slim par (fun h => l5.trans (hslim h))
    (by rw [usedZ_congr _ _ hcore hedge hbias huni]; exact hz1)).1 x
  rw [r0, r1, usedZ_congr _ _ hcore hedge hbias huni, psiFeat_congr _ _ hcore hedge hbias huni]
  field_simp

/-! ### witnesses -/

/-- a module with one parameter, the factor in front of a constant feature vector -/
noncomputable def scaleModule : EmbModule ℝ := ⟨["weight"], fun vs => constEmb 1 ((vs.getD 0 ⟨[], fun _ => 1⟩).get [])⟩

/-- a module with one parameter `w`, with features 1 for the value 0 and `w` for any other value; as a module it gets its input with a last axis of size 1 -/
noncomputable def pairModule : EmbModule ℝ := ⟨["weight"], fun vs x =>
  match x with
  | .ints t => .ok ⟨t.shape, fun idx => if t.get idx = 0 then 1 else (vs.getD 0 ⟨[], fun _ => 1⟩).get []⟩
  | .floats t => .ok ⟨t.shape, fun _ => 1⟩⟩

/-- the scalar parameter `w` -/
def weight (w : ℝ) : List (Tensor ℝ) := [⟨[], fun _ => w⟩]

/-- a model with one site, bond dimension one, all entries one -/
def unitModel (d : ℕ) (e : EmbObject ℝ) : ProbObject ℝ := ⟨false, ⟨[1, d, 1, 1], fun _ => 1⟩, ⟨[2, 1], fun _ => 1⟩, none, some e⟩

theorem unit_valid (d : ℕ) (e : EmbObject ℝ) : ValidModel (unitModel d e).model 1 d 1 := ⟨rfl, rfl, by simp [unitModel, ProbObject.model], by norm_num⟩

theorem unit_usedZ (e : EmbObject ℝ) (N : ℕ) (v : ℕ → ℝ) :
    usedZ (unitModel 1 e).model 1 1 1 (fun _ : Fin N => (1 : ℝ)) (fun a _ => v a) = ∑ a : Fin N, v a ^ 2 := by
  unfold usedZ
  rw [if_pos, if_pos]
  · simp [meanEntry, diagEntry, modelZ, psiSeq, amplitude, boundVec, biasMat, unitModel, ProbObject.model, coreMat, dotProduct, Matrix.mulVec, Real.norm_eq_abs, sq_abs]
  · intro i hi
    obtain rfl : i = 0 := by omega
    simp [meanEntry]
    have : 0 ≤ diagEntry (fun _ : Fin N => (1 : ℝ)) (fun a _ => v a) 0 := Finset.sum_nonneg fun a _ => by positivity
    positivity
  · intro i hi j hj hij; omega

theorem unit_psi (e : EmbObject ℝ) (v : Fin 1 → ℝ) : psiFeat (unitModel 1 e).model 1 1 1 (fun s _ => v s) = v 0 := by
  simp [psiFeat, amplitude, boundVec, biasMat, unitModel, ProbObject.model, featMat, coreMat, dotProduct, Matrix.mulVec]

theorem const_usedZ (e : EmbObject ℝ) (c : ℝ) : usedZ (unitModel 1 e).model 1 1 1 (fun _ : Fin 1 => (1 : ℝ)) (fun _ _ => c) = c ^ 2 := by
  have := unit_usedZ e 1 (fun _ => c)
  simpa using this

theorem const_psi (e : EmbObject ℝ) (c : ℝ) : psiFeat (unitModel 1 e).model 1 1 1 (fun _ _ => c) = c := unit_psi e (fun _ => c)

theorem scale_embeds (w : ℝ) : EmbedsInts (scaleModule.apply (weight w)) 1 1 (fun _ _ => w) := by
  have := constEmb_embeds 1 1 w
  exact this

/-- C89 (witness): one site, one possible value. At construction the single sequence has probability 1; after the parameter of the module has been trained from 1 to 2, the model
assigns it "probability" 4; saved and loaded into a model constructed with parameter 2 it is 1 again. -/
theorem C89_probability_four : ∃ (e0 e1 : EmbObject ℝ) (f : Key → Tensor ℝ → Tensor ℝ) (x : Fin 1 → Fin 1), EmbObject.fixed scaleModule (weight 1) (.discrete (1 : ℕ)) = .ok e0 ∧
    EmbObject.fixed scaleModule (weight 2) (.discrete (1 : ℕ)) = .ok e1 ∧
    probSeq (unitModel 1 e0).model false false x = 1 ∧ probSeq ((unitModel 1 e0).step f).model false false x = 4 ∧
    ((unitModel 1 e1).loadStateDict ((unitModel 1 e0).step f).stateDict).1 = .ok () ∧
    probSeq ((unitModel 1 e1).loadStateDict ((unitModel 1 e0).step f).stateDict).2.model false false x = 1 := by
  have mk : ∀ w : ℝ, ∃ e, EmbObject.fixed scaleModule (weight w) (.discrete (1 : ℕ)) = .ok e ∧ e.trainable = false ∧ e.wrapped = scaleModule ∧ e.values = weight w := by
    intro w
    obtain ⟨t, h1, -, -⟩ := rawLambda_ints (scaleModule.apply (weight w)) 1 1 _ (scale_embeds w) 1000
    refine ⟨⟨false, scaleModule, weight w, .discrete (1 : ℕ), some (compressLambda t)⟩, ?_, rfl, rfl, rfl⟩
    simp only [EmbObject.fixed, makeLambda, h1, bind, Except.bind, pure, Except.pure]
  obtain ⟨e0, h0, t0, n0, v0⟩ := mk 1
  obtain ⟨e1, h1, t1, n1, v1⟩ := mk 2
  obtain ⟨f, f1, f2, f3, f4⟩ := (C89_lambda_frozen (unitModel 1 e0) e0 rfl t0).2 (by rw [n0]; simp [scaleModule]) (by rw [n0, v0]; rfl) (weight 2) (by rw [n0]; rfl)
  have hst : (unitModel 1 e0).step f = unitModel 1 { e0 with values := weight 2 } := by
    generalize hg : (unitModel 1 e0).step f = s at *
    have hu : s.uniform = false := by rw [← hg]; rfl
    cases s
    simp only at f1 f2 f3 f4 hu
    subst f1 f2 f3 f4 hu
    rfl
  refine ⟨e0, e1, f, fun _ => 0, h0, h1, ?_, ?_, ?_⟩
  · have he : (unitModel 1 e0).embedding = some { e0 with values := weight 1 } := by rw [← v0]; rfl
    rw [(C89_stale_normalisation scaleModule (weight 1) (weight 1) 1 e0 h0 (unitModel 1 e0) he 1 1 1 (unit_valid 1 e0) _ _ (scale_embeds 1) (scale_embeds 1)
      false false (by simp) (by rw [const_usedZ]; simp)).1, const_usedZ, const_psi]
    simp
  · rw [hst, (C89_stale_normalisation scaleModule (weight 1) (weight 2) 1 e0 h0 _ rfl 1 1 1 (unit_valid 1 _) _ _ (scale_embeds 1) (scale_embeds 2)
      false false (by simp) (by rw [const_usedZ]; simp)).1, const_usedZ, const_psi]
    norm_num
  · obtain ⟨r1, r2, r3⟩ := C89_loaded_normalisation scaleModule (weight 1) (weight 2) (weight 2) 1 e0 e1 h0 h1 (unitModel 1 { e0 with values := weight 2 }) (unitModel 1 e1) rfl rfl
      (by simp [scaleModule]) rfl rfl rfl rfl rfl rfl 1 1 1 (unit_valid 1 _) _ _ _ (scale_embeds 1) (scale_embeds 2) (scale_embeds 2) false false (by simp)
      (by rw [const_usedZ]; simp) (by rw [const_usedZ]; simp)
    rw [hst]
    refine ⟨r1, ?_⟩
    rw [r3, (C89_stale_normalisation scaleModule (weight 1) (weight 2) 1 e0 h0 _ rfl 1 1 1 (unit_valid 1 _) _ _ (scale_embeds 1) (scale_embeds 2)
      false false (by simp) (by rw [const_usedZ]; simp)).1, const_usedZ, const_usedZ, const_psi]
    norm_num

theorem pair_embeds (w : ℝ) : EmbedsInts (EmbObject.mkTrainable pairModule (weight w) (.discrete (2 : ℕ))).embedding.embFun 2 1 (fun a _ => if a = 0 then 1 else w) := by
  intro t ht
  refine ⟨⟨t.shape ++ [1], fun idx => if t.get idx.dropLast = 0 then 1 else w⟩, rfl, rfl, fun idx hidx k hk => ?_⟩
  simp only [List.dropLast_concat]
  have := (ht idx hidx).1
  by_cases h : t.get idx = 0
  · simp [h]
  · rw [if_neg h, if_neg (by omega)]

/-- C89 (witness): a trainable embedding whose module has parameter 2 and one whose module has parameter 1: the models have the same state, loading the state of the
first into the second succeeds, and the probabilities of the second remain its own, 1/2 instead of 1/5. -/
theorem C89_trainable_not_saved : ∃ (m m' : ProbObject ℝ) (x : Fin 1 → Fin 2), m.stateDict = m'.stateDict ∧
    (m'.loadStateDict m.stateDict).1 = .ok () ∧ probSeq m.model false false x = 1 / 5 ∧
    probSeq (m'.loadStateDict m.stateDict).2.model false false x = 1 / 2 := by
  have val : ∀ w : ℝ, probSeq (unitModel 1 (EmbObject.mkTrainable pairModule (weight w) (.discrete (2 : ℕ)))).model false false (fun _ : Fin 1 => (0 : Fin 2)) = 1 / (1 + w ^ 2) := by
    intro w
    obtain ⟨t, h1, h2, h3⟩ := rawLambda_ints _ 2 1 _ (pair_embeds w) 1000
    have hp : (0 : ℝ) < 1 + w ^ 2 := by positivity
    have hz : usedZ (unitModel 1 (EmbObject.mkTrainable pairModule (weight w) (.discrete (2 : ℕ)))).model 1 1 1 (fun _ : Fin 2 => (1 : ℝ))
        (fun a _ => if (a : ℕ) = 0 then 1 else w) = 1 + w ^ 2 := by
      have := unit_usedZ (EmbObject.mkTrainable pairModule (weight w) (.discrete (2 : ℕ))) 2 (fun a => if a = 0 then 1 else w)
      rw [this]
      simp [Fin.sum_univ_two]
    have := ((mass_general (unitModel 1 (EmbObject.mkTrainable pairModule (weight w) (.discrete (2 : ℕ)))).model 1 1 1 (unit_valid 1 _) _ rfl
      (fun _ : Fin 2 => (1 : ℝ)) (fun _ => zero_le_one) (fun a _ => if (a : ℕ) = 0 then 1 else w) t h1 h2 h3 (Or.inl rfl) (fun x => single x)
      (fun x => ⟨rfl, single_embed _ 2 1 1 _ (pair_embeds w) x⟩) false false (by simp)).1 (by rw [hz]; exact hp.ne')).1 (fun _ => 0)
    rw [hz] at this
    unfold probSeq
    rw [this]
    have hpsi := unit_psi (EmbObject.mkTrainable pairModule (weight w) (.discrete (2 : ℕ))) (fun _ => 1)
    have e : (fun (s : Fin 1) (_ : ℕ) => if (((fun _ => 0 : Fin 1 → Fin 2) s : Fin 2) : ℕ) = 0 then (1 : ℝ) else w) = fun _ _ => 1 := by
      funext s k; simp
    rw [e, hpsi]
    simp
  refine ⟨unitModel 1 (EmbObject.mkTrainable pairModule (weight 2) (.discrete (2 : ℕ))), unitModel 1 (EmbObject.mkTrainable pairModule (weight 1) (.discrete (2 : ℕ))),
    fun _ => 0, rfl, ?_, ?_, ?_⟩
  · exact (C87_prob_mps _ _ (by intro e h; cases h; exact ⟨by simp [EmbObject.mkTrainable, pairModule], rfl⟩)
      (by intro e h; cases h; exact ⟨by simp [EmbObject.mkTrainable, pairModule], rfl⟩) rfl rfl rfl rfl).1
  · rw [val]; norm_num
  · have h := C87_prob_mps (unitModel 1 (EmbObject.mkTrainable pairModule (weight 2) (.discrete (2 : ℕ)))) (unitModel 1 (EmbObject.mkTrainable pairModule (weight 1) (.discrete (2 : ℕ))))
      (by intro e h; cases h; exact ⟨by simp [EmbObject.mkTrainable, pairModule], rfl⟩)
      (by intro e h; cases h; exact ⟨by simp [EmbObject.mkTrainable, pairModule], rfl⟩) rfl rfl rfl rfl
    have e : (ProbObject.loadStateDict (unitModel 1 (EmbObject.mkTrainable pairModule (weight 2) (.discrete (2 : ℕ)))).stateDict
        (unitModel 1 (EmbObject.mkTrainable pairModule (weight 1) (.discrete (2 : ℕ))))).2 = unitModel 1 (EmbObject.mkTrainable pairModule (weight 1) (.discrete (2 : ℕ))) := by
      obtain ⟨-, h1, h2, h3, h4, -, h5, -⟩ := h
      replace h5 := h5 _ rfl rfl
      generalize (ProbObject.loadStateDict _ _).2 = s at *
      cases s
      simp only at h1 h2 h3 h4 h5
      subst h1 h2 h3 h4 h5
      rfl
    rw [e, val]
    norm_num

end TorchMPS
