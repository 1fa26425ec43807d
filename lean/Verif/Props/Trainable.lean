import Verif.Props.Embeddings2
/-
C34: trainable embeddings over arbitrary histories of parameter updates and evaluations.
-/
namespace TorchMPS
open Spec
variable {K : Type}

/-- What a user can do to a model with a `TrainableEmbedding`: change the parameters of the wrapped module (the module
then computes another function `g`), change the parameters of the MPS, evaluate, ask for the normalisation. -/
inductive Spec.Op (K : Type) where
  | updateModule (g : EmbFun K)
  | updateMps (core edge : Tensor K) (bias : Option (Tensor K))
  | forward (x : SeqInput K) (slim par : Bool)
  | logNorm (dataLen : ℕ)

/-- the model after one operation -/
noncomputable def Spec.Op.run [RCLike K] (m : ProbMPS K) : Op K → ProbMPS K
  | .updateModule g => { m with embedding := m.embedding.map fun e => { e with embFun := fun x => g x.unsqueezeLast } }
  | .updateMps core edge bias => { m with core := core, edge := edge, bias := bias }
  | .forward x slim par => (m.forward x slim par).2
  | .logNorm _ => m

/-- the function computed by the wrapped module after a history starting with `g` -/
def Spec.currentModule (g : EmbFun K) (ops : List (Op K)) : EmbFun K :=
  ops.foldl (fun g op => match op with
    | .updateModule g' => g'
    | _ => g) g

/-- the parameters of the MPS after a history -/
def Spec.currentMps (p : Tensor K × Tensor K × Option (Tensor K)) (ops : List (Op K)) :
    Tensor K × Tensor K × Option (Tensor K) :=
  ops.foldl (fun p op => match op with
    | .updateMps core edge bias => (core, edge, bias)
    | _ => p) p

def Spec.Op.isForward : Op K → Prop
  | .forward .. => True
  | _ => False

/-- a new model with a new `TrainableEmbedding(g, dom)` -/
def Spec.newModel (u : Bool) (p : Tensor K × Tensor K × Option (Tensor K)) (g : EmbFun K) (dom : DataDomain) : ProbMPS K :=
  ⟨u, p.1, p.2.1, p.2.2, some (Embedding.trainable' g dom)⟩

/-- same model up to the stored lambda matrix -/
def SameBut (m m' : ProbMPS K) : Prop :=
  ∃ (e : Embedding K) (l : Option (Tensor K)), m'.embedding = some e ∧ e.trainable = true ∧
    m = { m' with embedding := some { e with lamb := l } }

theorem forward_state [RCLike K] (m : ProbMPS K) (e : Embedding K) (he : m.embedding = some e) (ht : e.trainable = true)
    (x : SeqInput K) (slim par : Bool) :
    ∃ l, (m.forward x slim par).2 = { m with embedding := some { e with lamb := l } } ∧
      (¬ (m.uniform = true ∧ x.shape.length < 2) → ∀ lam, makeLambda e.embFun e.domain 1000 = .ok lam → l = some lam) := by
  unfold ProbMPS.forward
  split
  · rename_i h
    refine ⟨e.lamb, ?_, fun hn => absurd h hn⟩
    cases m; simp only at he; subst he; rfl
  · simp only [he]
    unfold Embedding.forward
    simp only [ht, if_true]
    cases hl : makeLambda e.embFun e.domain 1000 with
    | error err =>
      refine ⟨e.lamb, ?_, fun _ lam h => by cases h⟩
      cases e; simp only at ht; subst ht; rfl
    | ok lam => exact ⟨some lam, by simp, fun _ lam' h => by cases h; rfl⟩

theorem forward_congr [RCLike K] (m m' : ProbMPS K) (h : SameBut m m') (x : SeqInput K) (slim par : Bool) :
    (m.forward x slim par).1 = (m'.forward x slim par).1 := by
  obtain ⟨e, l, he, ht, rfl⟩ := h
  unfold ProbMPS.forward
  split
  · rfl
  · simp only [he]
    unfold Embedding.forward
    simp only [ht, if_true]
    cases hl : makeLambda e.embFun e.domain 1000 with
    | error err => rfl
    | ok lam => rfl

theorem run_sameBut [RCLike K] (u : Bool) (p : Tensor K × Tensor K × Option (Tensor K)) (g : EmbFun K) (dom : DataDomain)
    (ops : List (Op K)) : ∀ m, SameBut m (newModel u p g dom) →
      SameBut (ops.foldl Op.run m) (newModel u (currentMps p ops) (currentModule g ops) dom) := by
  induction ops generalizing p g with
  | nil => intro m h; exact h
  | cons op ops ih =>
    intro m h
    simp only [List.foldl_cons]
    obtain ⟨e, l, he, ht, rfl⟩ := h
    simp only [newModel, Option.some.injEq] at he
    subst he
    cases op with
    | updateModule g' => exact ih p g' _ ⟨_, l, rfl, rfl, rfl⟩
    | updateMps c ed b => exact ih (c, ed, b) g _ ⟨_, l, rfl, rfl, rfl⟩
    | logNorm n => exact ih p g _ ⟨_, l, rfl, rfl, rfl⟩
    | forward x slim par =>
      refine ih p g _ ?_
      obtain ⟨l', h1, -⟩ := forward_state ({ newModel u p g dom with
        embedding := some { Embedding.trainable' g dom with lamb := l } }) _ rfl rfl x slim par
      exact ⟨_, l', rfl, rfl, by rw [Op.run, h1]⟩

/-- C34: after any history, `forward` returns what it would return for a newly constructed model with the current
parameters of the MPS and of the embedding: no stale normalisation can be used. -/
theorem C34_forward_uses_current_parameters [RCLike K] (u : Bool) (p : Tensor K × Tensor K × Option (Tensor K))
    (g : EmbFun K) (dom : DataDomain) (ops : List (Op K)) (x : SeqInput K) (slim par : Bool) :
    ((ops.foldl Op.run (newModel u p g dom)).forward x slim par).1 =
      ((newModel u (currentMps p ops) (currentModule g ops) dom).forward x slim par).1 :=
  forward_congr _ _ (run_sameBut u p g dom ops _ ⟨_, none, rfl, rfl, rfl⟩) x slim par

theorem run_no_forward [RCLike K] (ops : List (Op K)) (h : ∀ op ∈ ops, ¬ op.isForward) : ∀ (m : ProbMPS K) (l : Option (Tensor K)),
    m.embedding.map (·.lamb) = some l → (ops.foldl Op.run m).embedding.map (·.lamb) = some l := by
  induction ops with
  | nil => intro m l hm; exact hm
  | cons op ops ih =>
    intro m l hm
    simp only [List.foldl_cons]
    refine ih (fun o ho => h o (List.mem_cons_of_mem _ ho)) _ _ ?_
    cases op with
    | updateModule g' =>
      simp only [Op.run, Option.map_map]
      exact hm
    | updateMps c ed b => exact hm
    | logNorm n => exact hm
    | forward x slim par => exact absurd trivial (h _ (List.mem_cons_self ..))

/-- C34: before the first `forward`, `log_norm` raises AttributeError. -/
theorem C34_log_norm_before_forward [RCLike K] (u : Bool) (p : Tensor K × Tensor K × Option (Tensor K))
    (g : EmbFun K) (dom : DataDomain) (ops : List (Op K)) (h : ∀ op ∈ ops, ¬ op.isForward) (n : ℕ) :
    (ops.foldl Op.run (newModel u p g dom)).logNorm n = .error .attribute := by
  have := run_no_forward ops h (newModel u p g dom) none rfl
  rw [Option.map_eq_some_iff] at this
  obtain ⟨e, he, hl⟩ := this
  simp only [ProbMPS.logNorm, he, hl, bind, Except.bind]

/-- C34: afterwards, `log_norm` uses the lambda matrix `lam` of the embedding parameters at the time of the last
`forward` (whatever the current ones are), with the current parameters of the MPS. -/
theorem C34_log_norm_after_forward [RCLike K] (u : Bool) (p : Tensor K × Tensor K × Option (Tensor K))
    (g : EmbFun K) (dom : DataDomain) (pre post : List (Op K)) (x : SeqInput K) (slim par : Bool)
    (hx : 2 ≤ x.shape.length) (hpost : ∀ op ∈ post, ¬ op.isForward) (lam : Tensor K)
    (hlam : makeLambda (fun y => currentModule g pre y.unsqueezeLast) dom 1000 = .ok lam) (n : ℕ) :
    ((pre ++ [Op.forward x slim par] ++ post).foldl Op.run (newModel u p g dom)).logNorm n =
      getLogNorm (addBias (currentMps p (pre ++ post)).1 (currentMps p (pre ++ post)).2.2)
        (currentMps p (pre ++ post)).2.1 (if u then some (n : ℤ) else none) (some lam) := by
  set ops := pre ++ [Op.forward x slim par] ++ post with hops
  have hcur : currentMps p ops = currentMps p (pre ++ post) := by
    simp [hops, currentMps, List.foldl_append]
  have hs := run_sameBut u p g dom ops (newModel u p g dom) ⟨_, none, rfl, rfl, rfl⟩
  obtain ⟨e, l, he, -, heq⟩ := hs
  have hlam2 : (ops.foldl Op.run (newModel u p g dom)).embedding.map (·.lamb) = some (some lam) := by
    rw [hops, List.foldl_append, List.foldl_append]
    refine run_no_forward post hpost _ _ ?_
    simp only [List.foldl_cons, List.foldl_nil, Op.run]
    obtain ⟨e1, l1, he1, ht1, heq1⟩ := run_sameBut u p g dom pre (newModel u p g dom) ⟨_, none, rfl, rfl, rfl⟩
    simp only [newModel, Option.some.injEq] at he1
    subst he1
    rw [heq1]
    obtain ⟨l', h1, h2⟩ := forward_state ({ newModel u (currentMps p pre) (currentModule g pre) dom with
      embedding := some { Embedding.trainable' (currentModule g pre) dom with lamb := l1 } }) _ rfl ht1 x slim par
    rw [h1]
    simp only [Option.map_some, Option.some.injEq]
    exact h2 (by omega) lam hlam
  rw [heq] at hlam2 ⊢
  simp only [Option.map_some, Option.some.injEq] at hlam2
  simp only [ProbMPS.logNorm, hlam2, bind, Except.bind, newModel, hcur]

/-- a wrapped module which drops the added axis and returns constant vectors -/
noncomputable def constModule : EmbFun ℝ
  | .ints t => constEmb 2 1 (.ints ⟨t.shape.dropLast, fun idx => t.get (idx ++ [0])⟩)
  | .floats t => constEmb 2 1 (.floats ⟨t.shape.dropLast, fun idx => t.get (idx ++ [0])⟩)

/-- the hypotheses of `C34_log_norm_after_forward` hold for a history with an update before the `forward` -/
example : ∃ lam : Tensor ℝ, makeLambda (fun y => currentModule (constEmb 2 5)
    [Op.updateModule constModule, Op.logNorm 3] y.unsqueezeLast) (.discrete (2 : ℕ)) 1000 = .ok lam := by
  have hf : EmbedsInts (fun y : SeqInput ℝ => constModule y.unsqueezeLast) 2 2 (fun _ _ => 1) := by
    intro t _
    refine ⟨_, rfl, ?_, fun _ _ _ _ => rfl⟩
    simp
  obtain ⟨t, ht, -⟩ := rawLambda_ints _ 2 2 _ hf 1000
  refine ⟨compressLambda t, ?_⟩
  simp only [makeLambda, currentModule, List.foldl_cons, List.foldl_nil, ht, bind, Except.bind]
  rfl

end TorchMPS
