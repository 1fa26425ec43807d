import Verif.Model.ProbInit
import Verif.Props.Init
import Verif.Props.ProbMps
import Verif.Lemmas.Mps
import Verif.Props.Embeddings2
/-
C71: construction of `ProbMPS` and `ProbUnifMPS` models.
-/
namespace TorchMPS
variable {K : Type}
open Spec

/-- the random factor of a parameter: a phase for complex models, 1 for real models -/
noncomputable def Spec.unitPhase [RCLike K] (u : ℝ) : K :=
  open Classical in
  if (RCLike.I : K) = 0 then 1
  else (Real.cos (2 * Real.pi * u) : K) + (Real.sin (2 * Real.pi * u) : K) * RCLike.I

/-- the arguments `seq_len`, `input_dim`, `bond_dim` are positive and the initialisation method is one of the two
documented ones -/
def Spec.GoodArgs (seqLen : Option ℤ) (d D : ℤ) (method : String) : Prop :=
  (∀ n ∈ seqLen, 0 < n) ∧ 0 < d ∧ 0 < D ∧ (method = "near_eye" ∨ method = "normal")

/-- the embedding argument fits the input dimension `d`, and the model gets the embedding `e` -/
inductive Spec.EmbedFits [RCLike K] (d : ℤ) : EmbedArg K → Option DataDomain → Option (Embedding K) → Prop
  | none (dom) : EmbedFits d .none dom .none
  | unknown (e dom) (h : e.embDim = .none) : EmbedFits d (.object e) dom (some e)
  | object (e dom) (k : ℕ) (h : e.embDim = some k) (hk : (k : ℤ) = d) : EmbedFits d (.object e) dom (some e)
  | function (f dom e) (k : ℕ) (h : Embedding.fixed f dom = .ok e) (hk : e.embDim = some k) (hd : (k : ℤ) = d) :
      EmbedFits d (.function f) (some dom) (some e)

theorem complexParams_true [RCLike K] : complexParams K = true ↔ (RCLike.I : K) ≠ 0 := by
  classical
  unfold complexParams
  rw [decide_eq_true_iff]; rfl

theorem complexParams_false [RCLike K] : complexParams K = false ↔ (RCLike.I : K) = 0 := by
  classical
  unfold complexParams
  rw [decide_eq_false_iff_not]; simp [isComplex]

theorem fromC_zero [RCLike K] : (fromC 0 : K) = 0 := by simp [fromC]

theorem fromC_add [RCLike K] (a b : ℂ) : (fromC (a + b) : K) = fromC a + fromC b := by
  simp [fromC]; ring

theorem fromC_ofReal [RCLike K] (x : ℝ) : (fromC (x : ℂ) : K) = x := by simp [fromC]

theorem fromC_phase [RCLike K] (x u : ℝ) :
    (fromC ((x : ℂ) * phase (complexParams K) u) : K) = x * unitPhase u := by
  classical
  by_cases h : (RCLike.I : K) = 0
  · simp [phase, unitPhase, h, complexParams_false.2 h, fromC_ofReal]
  · have h1 : (2 * Complex.I * Real.pi * u : ℂ) = ((2 * Real.pi * u : ℝ) : ℂ) * Complex.I := by
      push_cast; ring
    have h2 : Complex.exp (2 * Complex.I * Real.pi * u) =
        (Real.cos (2 * Real.pi * u) : ℂ) + (Real.sin (2 * Real.pi * u) : ℂ) * Complex.I := by
      rw [h1, Complex.exp_mul_I, ← Complex.ofReal_cos, ← Complex.ofReal_sin]
    simp only [phase, unitPhase, h, complexParams_true.2 h, if_true, if_false, h2, fromC]
    simp [-Complex.ofReal_cos, -Complex.ofReal_sin]
    ring

/-- the random factor has modulus one -/
theorem norm_unitPhase [RCLike K] (u : ℝ) : ‖(unitPhase u : K)‖ = 1 := by
  classical
  by_cases h : (RCLike.I : K) = 0
  · simp [unitPhase, h]
  · have h1 : ‖(unitPhase u : K)‖ ^ 2 = 1 := by
      rw [RCLike.norm_sq_eq_def]
      have hI : RCLike.im (RCLike.I : K) = 1 := RCLike.I_eq_zero_or_im_I_eq_one.resolve_left h
      simp only [unitPhase, h, if_false]
      simp [hI]
      nlinarith [Real.sin_sq_add_cos_sq (2 * Real.pi * u)]
    have h2 := norm_nonneg (unitPhase u : K)
    nlinarith

theorem assertBind_ok {α : Type} (p : Prop) [Decidable p] (f : Unit → Except Err α) (a : α) :
    (assert p >>= f) = .ok a ↔ p ∧ f () = .ok a := by
  by_cases h : p
  · rw [assert_true _ h]; simp [h, bind_ok_except]
  · rw [assert_false _ h]; simp [h, bind_error_except]

/-- the parameter shape of the core tensor -/
def Spec.coreShapeOf (seqLen : Option ℤ) (d D : ℤ) : Shape :=
  match seqLen with
  | none => [d.toNat, D.toNat, D.toNat]
  | some n => [n.toNat, d.toNat, D.toNat, D.toNat]

theorem initCore_spec [RCLike K] (B : Shape) (hB : B ≠ []) (D : ℕ) (method : String) (r : InitDraws) :
    ∃ t : Tensor K, initCore (B ++ [D, D]) method r = .ok t ∧ t.shape = B ++ [D, D] ∧
      ∀ b i j, InRange b B → i < D → j < D → t.get (b ++ [i, j]) =
        if method = "near_eye" then
          (if i = j then 1 else 0) +
            ((1e-3 / Real.sqrt ((D * D : ℕ) : ℝ) * r.coreZ (b ++ [i, j]) : ℝ) : K) * unitPhase (r.coreU (b ++ [i, j]))
        else ((r.coreZ (b ++ [i, j]) / D : ℝ) : K) * unitPhase (r.coreU (b ++ [i, j])) := by
  unfold initCore
  by_cases hm : method = "near_eye"
  · obtain ⟨t, h1, h2, h3⟩ := C20_near_eye_init B D D ⟨hB, Or.inl rfl⟩ (complexParams K) 1e-3 r.coreZ r.coreU r.ref
    rw [if_pos hm, h1]
    refine ⟨t.map fromC, rfl, h2, ?_⟩
    intro b i j hb hi hj
    rw [if_pos hm]
    show fromC (t.get _) = _
    rw [h3 b i j hb hi hj, fromC_add, fromC_phase]
    congr 1
    split
    · exact (fromC_ofReal 1).trans (by simp)
    · exact fromC_zero
  · obtain ⟨t, h1, h2, h3⟩ := C20_normal_init B D D ⟨hB, Or.inl rfl⟩ (complexParams K) 1 r.coreZ r.coreU
    rw [if_neg hm, h1]
    refine ⟨t.map fromC, rfl, h2, ?_⟩
    intro b i j hb hi hj
    rw [if_neg hm]
    show fromC (t.get _) = _
    rw [h3 b i j hb hi hj, fromC_phase]

theorem initEmbedding_iff [RCLike K] (emb : EmbedArg K) (dom : Option DataDomain) (d : ℤ) (hd : 0 < d)
    (e : Option (Embedding K)) : initEmbedding emb dom d = .ok e ↔ EmbedFits d emb dom e := by
  constructor
  · intro h
    cases emb with
    | none => simp only [initEmbedding] at h; cases h; exact .none dom
    | object e' =>
      simp only [initEmbedding] at h
      cases hk : e'.embDim with
      | none =>
        rw [hk] at h; cases h; exact .unknown e' dom hk
      | some k =>
        rw [hk] at h
        simp only [checkEmbDim] at h
        obtain ⟨h1, h2⟩ := (assertBind_ok _ _ _).1 h
        cases h2
        exact .object e' dom k hk h1
    | function f =>
      cases dom with
      | none => simp [initEmbedding] at h
      | some dom =>
        simp only [initEmbedding] at h
        obtain ⟨e', h1, h2⟩ := bind_ok_inv h
        obtain ⟨h3, h4⟩ := (assertBind_ok _ _ _).1 h2
        cases h4
        exact .function f dom e' _ h1 h3 (by omega)
  · intro h
    cases h with
    | none => rfl
    | unknown e dom h => simp only [initEmbedding, h]; rfl
    | object e dom k h hk =>
      simp only [initEmbedding, h, checkEmbDim]
      exact (assertBind_ok _ _ _).2 ⟨hk, rfl⟩
    | function f dom e k h hk hd' =>
      simp only [initEmbedding, h, bind_ok_except]
      exact (assertBind_ok _ _ _).2 ⟨by rw [hk]; congr 1; omega, rfl⟩

theorem initEdge_entry [RCLike K] (D : ℕ) (r : InitDraws) (i j : ℕ) :
    (initEdge D r : Tensor K).get [i, j] =
      ((r.vecZ j / Real.sqrt (D : ℝ) : ℝ) : K) * unitPhase (r.edgeU [i, j]) := by
  rw [← fromC_phase]
  unfold initEdge
  by_cases h : complexParams K = true
  · rw [if_pos h]
    simp [Tensor.map, phaseify, phase, h]
  · rw [if_neg h]
    simp only [Tensor.map, phase, h, Bool.false_eq_true, if_false, mul_one, fromC_ofReal]
    rfl

theorem initEdge_shape [RCLike K] (D : ℕ) (r : InitDraws) : (initEdge D r : Tensor K).shape = [2, D] := by
  unfold initEdge; split <;> rfl

theorem initBias_shape [RCLike K] (D : ℕ) (r : InitDraws) : (initBias D r : Tensor K).shape = [D, D] := by
  unfold initBias; split <;> rfl

theorem initBias_zero [RCLike K] (D : ℕ) (r : InitDraws) (idx) : (initBias D r : Tensor K).get idx = 0 := by
  unfold initBias
  split
  · simp [Tensor.map, phaseify, fromC_zero]
  · simp [Tensor.map]

theorem coreArg_eq (seqLen : Option ℤ) (d D : ℤ) :
    ((seqLen.map Int.toNat).toList ++ [d.toNat, D.toNat, D.toNat] : Shape) = coreShapeOf seqLen d D ∧
    coreShapeOf seqLen d D = ((seqLen.map Int.toNat).toList ++ [d.toNat]) ++ [D.toNat, D.toNat] := by
  cases seqLen <;> simp [coreShapeOf]

/-- everything a successful constructor call determines -/
theorem init_inv [RCLike K] {seqLen : Option ℤ} {d D : ℤ} {useBias : Bool} {method : String} {emb : EmbedArg K}
    {dom : Option DataDomain} {r : InitDraws} {m : ProbMPS K} :
    ProbMPS.init seqLen d D useBias method emb dom r = .ok m ↔
      GoodArgs seqLen d D method ∧ ∃ core e, initCore (coreShapeOf seqLen d D) method r = .ok core ∧
        EmbedFits d emb dom e ∧ m = ⟨seqLen.isNone, core, initEdge D.toNat r,
          if useBias then some (initBias D.toNat r) else none, e⟩ := by
  unfold ProbMPS.init GoodArgs
  rw [assertBind_ok, assertBind_ok, (coreArg_eq seqLen d D).1]
  constructor
  · rintro ⟨h1, h2, h⟩
    obtain ⟨core, h3, h⟩ := bind_ok_inv h
    obtain ⟨e, h4, h⟩ := bind_ok_inv h
    cases h
    exact ⟨⟨h1.1, h1.2.1, h1.2.2, h2⟩, core, e, h3, (initEmbedding_iff emb dom d h1.2.1 e).1 h4, rfl⟩
  · rintro ⟨⟨h1, h2, h3, h4⟩, core, e, h5, h6, rfl⟩
    refine ⟨⟨h1, h2, h3⟩, h4, ?_⟩
    rw [h5, bind_ok_except, (initEmbedding_iff emb dom d h2 e).2 h6, bind_ok_except]
    rfl

/-- C71: the constructor succeeds exactly when all dimensions are positive, the initialisation method is one of the
documented ones and the embedding argument fits `input_dim`. -/
theorem C71_accepts_iff [RCLike K] (seqLen : Option ℤ) (d D : ℤ) (useBias : Bool) (method : String)
    (emb : EmbedArg K) (dom : Option DataDomain) (r : InitDraws) :
    (∃ m, ProbMPS.init seqLen d D useBias method emb dom r = .ok m) ↔
      GoodArgs seqLen d D method ∧ ∃ e, EmbedFits d emb dom e := by
  constructor
  · rintro ⟨m, h⟩
    obtain ⟨h1, _, e, _, h2, _⟩ := init_inv.1 h
    exact ⟨h1, e, h2⟩
  · rintro ⟨h1, e, h2⟩
    obtain ⟨core, h3, -⟩ := initCore_spec (K := K) ((seqLen.map Int.toNat).toList ++ [d.toNat]) (by simp) D.toNat method r
    rw [← (coreArg_eq seqLen d D).2] at h3
    exact ⟨_, init_inv.2 ⟨h1, core, e, h3, h2, rfl⟩⟩

/-- C71: a constructed model has well-formed parameters (those which the theorems about `forward`, `loss` and
`log_norm` assume), for every draw; its properties return the constructor's arguments. -/
theorem C71_constructed [RCLike K] (seqLen : Option ℤ) (d D : ℤ) (useBias : Bool) (method : String)
    (emb : EmbedArg K) (dom : Option DataDomain) (r : InitDraws) (m : ProbMPS K)
    (h : ProbMPS.init seqLen d D useBias method emb dom r = .ok m) :
    m.uniform = seqLen.isNone ∧ (∀ n : ℕ, (∀ k ∈ seqLen, k = n) → ValidModel m n d.toNat D.toNat) ∧
    EmbedFits d emb dom m.embedding ∧
    (m.inputDim : ℤ) = d ∧ (m.bondDim : ℤ) = D ∧ m.useBias = useBias ∧ (∀ n ∈ seqLen, (m.seqLen : ℤ) = n) := by
  obtain ⟨⟨h1, h2, h3, -⟩, core, e, h4, h5, rfl⟩ := init_inv.1 h
  obtain ⟨core', h6, h7, -⟩ := initCore_spec (K := K) ((seqLen.map Int.toNat).toList ++ [d.toNat]) (by simp) D.toNat method r
  rw [← (coreArg_eq seqLen d D).2, h4] at h6
  cases h6
  rw [← (coreArg_eq seqLen d D).2] at h7
  refine ⟨rfl, ?_, h5, ?_, ?_, ?_, ?_⟩
  · intro n hn
    refine ⟨?_, initEdge_shape _ _, ?_, by omega⟩
    · rw [h7]
      cases seqLen with
      | none => rfl
      | some k =>
        have : k.toNat = n := by rw [hn k rfl]; simp
        simp [coreShapeOf, this]
    · intro b hb
      cases useBias with
      | false => simp at hb
      | true => simp at hb; rw [← hb]; exact initBias_shape _ _
  · unfold ProbMPS.inputDim
    rw [h7]; cases seqLen <;> simp [coreShapeOf] <;> omega
  · unfold ProbMPS.bondDim
    rw [h7]; cases seqLen <;> simp [coreShapeOf] <;> omega
  · cases useBias <;> rfl
  · intro n hn
    unfold ProbMPS.seqLen
    rw [h7]
    cases hn
    have := h1 n rfl
    simp [coreShapeOf]; omega

/-- C71: `near_eye` cores are the identity plus noise of standard deviation `0.001 / bond_dim` in every slice, `normal`
cores have standard deviation `1 / bond_dim` (both with a random phase for complex models). -/
theorem C71_core_entries [RCLike K] (seqLen : Option ℤ) (d D : ℤ) (useBias : Bool) (method : String)
    (emb : EmbedArg K) (dom : Option DataDomain) (r : InitDraws) (m : ProbMPS K)
    (h : ProbMPS.init seqLen d D useBias method emb dom r = .ok m)
    (s : List ℕ) (hs : InRange s (seqLen.map Int.toNat).toList) (k i j : ℕ) (hk : k < d.toNat) (hi : i < D.toNat)
    (hj : j < D.toNat) :
    m.core.get (s ++ [k, i, j]) =
      if method = "near_eye" then (if i = j then 1 else 0) +
        ((1e-3 / D * r.coreZ (s ++ [k, i, j]) : ℝ) : K) * unitPhase (r.coreU (s ++ [k, i, j]))
      else ((r.coreZ (s ++ [k, i, j]) / D : ℝ) : K) * unitPhase (r.coreU (s ++ [k, i, j])) := by
  obtain ⟨⟨h1, h2, h3, -⟩, core, e, h4, h5, rfl⟩ := init_inv.1 h
  obtain ⟨core', h6, h7, h8⟩ := initCore_spec (K := K) ((seqLen.map Int.toNat).toList ++ [d.toNat]) (by simp) D.toNat method r
  rw [← (coreArg_eq seqLen d D).2, h4] at h6
  cases h6
  have := h8 (s ++ [k]) i j (by simpa [InRange] using List.rel_append hs (List.Forall₂.cons hk .nil)) hi hj
  have hD : ((D.toNat : ℕ) : ℝ) = (D : ℝ) := by
    rw [← Int.cast_natCast, Int.toNat_of_nonneg h3.le]
  have hD' : Real.sqrt ((D.toNat * D.toNat : ℕ) : ℝ) = (D : ℝ) := by
    rw [Nat.cast_mul, Real.sqrt_mul_self (by positivity), hD]
  rw [hD', hD] at this
  simpa using this

/-- C71: entry `j` of both boundary vectors has modulus `|z_j| / sqrt(bond_dim)`, for the same draw `z`; in real models
the two vectors are identical. (In complex models the two vectors get independent random phases.) -/
theorem C71_edges [RCLike K] (seqLen : Option ℤ) (d D : ℤ) (useBias : Bool) (method : String)
    (emb : EmbedArg K) (dom : Option DataDomain) (r : InitDraws) (m : ProbMPS K)
    (h : ProbMPS.init seqLen d D useBias method emb dom r = .ok m) (j : ℕ) :
    (∀ i, ‖m.edge.get [i, j]‖ = |r.vecZ j| / Real.sqrt D) ∧
    ((RCLike.I : K) = 0 → m.edge.get [0, j] = m.edge.get [1, j]) := by
  obtain ⟨⟨h1, h2, h3, -⟩, core, e, h4, h5, rfl⟩ := init_inv.1 h
  have hD : ((D.toNat : ℕ) : ℝ) = (D : ℝ) := by
    rw [← Int.cast_natCast, Int.toNat_of_nonneg h3.le]
  refine ⟨fun i => ?_, fun hI => ?_⟩
  · show ‖(initEdge D.toNat r : Tensor K).get [i, j]‖ = _
    rw [initEdge_entry, norm_mul, norm_unitPhase, mul_one, RCLike.norm_ofReal, abs_div, hD,
      abs_of_nonneg (Real.sqrt_nonneg _)]
  · show (initEdge D.toNat r : Tensor K).get [0, j] = (initEdge D.toNat r : Tensor K).get [1, j]
    rw [initEdge_entry, initEdge_entry]
    simp [unitPhase, hI]

theorem addBias_initBias [RCLike K] (t : Tensor K) (D : ℕ) (r : InitDraws) :
    addBias t (some (initBias D r)) = t := by
  simp [addBias, initBias_zero]

/-- C71: the bias matrix starts at zero, so a freshly constructed model with bias computes exactly what the model
constructed from the same draws without bias computes (when `slim_eval` is not used). -/
theorem C71_bias_inert [RCLike K] (seqLen : Option ℤ) (d D : ℤ) (method : String)
    (emb : EmbedArg K) (dom : Option DataDomain) (r : InitDraws) (m m' : ProbMPS K)
    (h : ProbMPS.init seqLen d D true method emb dom r = .ok m)
    (h' : ProbMPS.init seqLen d D false method emb dom r = .ok m') :
    (∃ b, m.bias = some b ∧ b.shape = [D.toNat, D.toNat] ∧ ∀ i j, b.get [i, j] = 0) ∧ m'.bias = none ∧
    (∀ x par, (m.forward x false par).1 = (m'.forward x false par).1) ∧
    (∀ x par, m.loss x false par = m'.loss x false par) ∧
    (∀ n, m.logNorm n = m'.logNorm n) := by
  obtain ⟨⟨h1, h2, h3, -⟩, core, e, h4, h5, rfl⟩ := init_inv.1 h
  obtain ⟨-, core', e', h6, h7, rfl⟩ := init_inv.1 h'
  rw [h4] at h6; cases h6
  have he : e = e' := by
    have a := (initEmbedding_iff emb dom d h2 e).2 h5
    have b := (initEmbedding_iff emb dom d h2 e').2 h7
    rw [a] at b; cases b; rfl
  subst he
  have hln : ∀ (e' : Option (Embedding K)) n,
      ProbMPS.logNorm ⟨seqLen.isNone, core, initEdge D.toNat r, some (initBias D.toNat r), e'⟩ n =
      ProbMPS.logNorm ⟨seqLen.isNone, core, initEdge D.toNat r, none, e'⟩ n := by
    intro e' n
    simp only [ProbMPS.logNorm, addBias_initBias]
    rfl
  have hps : ∀ (e' : Option (Embedding K)) x par,
      ProbMPS.evalPsi ⟨seqLen.isNone, core, initEdge D.toNat r, some (initBias D.toNat r), e'⟩ x false par =
      ProbMPS.evalPsi ⟨seqLen.isNone, core, initEdge D.toNat r, none, e'⟩ x false par := by
    intro e' x par
    simp only [ProbMPS.evalPsi, addBias_initBias]
    rfl
  have hbody : ∀ (e' : Option (Embedding K)) x B n par,
      ProbMPS.body ⟨seqLen.isNone, core, initEdge D.toNat r, some (initBias D.toNat r), e'⟩ x B n false par =
      ProbMPS.body ⟨seqLen.isNone, core, initEdge D.toNat r, none, e'⟩ x B n false par := by
    intro e' x B n par
    simp only [ProbMPS.body, hln, hps]
    rfl
  have hfwd : ∀ x par,
      (ProbMPS.forward ⟨seqLen.isNone, core, initEdge D.toNat r, some (initBias D.toNat r), e⟩ x false par).1 =
      (ProbMPS.forward ⟨seqLen.isNone, core, initEdge D.toNat r, none, e⟩ x false par).1 := by
    intro x par
    unfold ProbMPS.forward
    dsimp only
    split
    · rfl
    · cases e with
      | none => exact hbody _ _ _ _ _
      | some e =>
        dsimp only
        cases (e.forward x).1 with
        | error _ => rfl
        | ok v => exact hbody _ _ _ _ _
  refine ⟨⟨_, rfl, initBias_shape _ _, fun i j => initBias_zero _ _ _⟩, rfl, hfwd, ?_, hln e⟩
  intro x par
  have := hfwd x par
  unfold ProbMPS.loss
  exact this ▸ rfl

/-- C71: non-positive dimensions and unknown initialisation methods are AssertionErrors. -/
theorem C71_rejects_args [RCLike K] (seqLen : Option ℤ) (d D : ℤ) (useBias : Bool) (method : String)
    (emb : EmbedArg K) (dom : Option DataDomain) (r : InitDraws) (h : ¬ GoodArgs seqLen d D method) :
    ProbMPS.init seqLen d D useBias method emb dom r = .error .assertion := by
  unfold ProbMPS.init
  by_cases h1 : (∀ n ∈ seqLen, 0 < n) ∧ 0 < d ∧ 0 < D
  · rw [assert_true _ h1, assert_false _ (fun h2 => h ⟨h1.1, h1.2.1, h1.2.2, h2⟩)]; rfl
  · rw [assert_false _ h1]; rfl

/-- C71: an embedding of the wrong dimension and a function without a domain are AssertionErrors; an exception raised
while the lambda matrix of an embedding function is computed is passed on. -/
theorem C71_rejects_embedding [RCLike K] (seqLen : Option ℤ) (d D : ℤ) (useBias : Bool) (method : String)
    (r : InitDraws) (h : GoodArgs seqLen d D method) :
    (∀ (e : Embedding K) (k : ℕ) dom, e.embDim = some k → (k : ℤ) ≠ d →
      ProbMPS.init seqLen d D useBias method (.object e) dom r = .error .assertion) ∧
    (∀ f : EmbFun K, ProbMPS.init seqLen d D useBias method (.function f) none r = .error .assertion) ∧
    (∀ (f : EmbFun K) dom err, Embedding.fixed f dom = .error err →
      ProbMPS.init seqLen d D useBias method (.function f) (some dom) r = .error err) ∧
    (∀ (f : EmbFun K) dom e (k : ℕ), Embedding.fixed f dom = .ok e → e.embDim = some k → (k : ℤ) ≠ d →
      ProbMPS.init seqLen d D useBias method (.function f) (some dom) r = .error .assertion) := by
  obtain ⟨h1, h2, h3, h4⟩ := h
  obtain ⟨core, h6, -⟩ := initCore_spec (K := K) ((seqLen.map Int.toNat).toList ++ [d.toNat]) (by simp) D.toNat method r
  have key : ∀ (emb : EmbedArg K) dom err, initEmbedding emb dom d = .error err →
      ProbMPS.init seqLen d D useBias method emb dom r = .error err := by
    intro emb dom err he
    unfold ProbMPS.init
    rw [assert_true _ ⟨h1, h2, h3⟩, assert_true _ h4, (coreArg_eq seqLen d D).1, (coreArg_eq seqLen d D).2, h6, he]
    rfl
  refine ⟨fun e k dom he hk => key _ _ _ ?_, fun f => key _ _ _ rfl, fun f dom err he => key _ _ _ ?_,
    fun f dom e k he hk hd => key _ _ _ ?_⟩
  · simp only [initEmbedding, he, checkEmbDim]
    rw [assert_false _ hk]; rfl
  · simp only [initEmbedding, he]; rfl
  · simp only [initEmbedding, he, bind_ok_except]
    rw [assert_false _ (by rw [hk]; simp; omega)]; rfl

/-- C71: the dimension of a new `TrainableEmbedding` is not checked by the constructor: it is accepted whatever the
number of components of its vectors. -/
theorem C71_trainable_unchecked [RCLike K] (seqLen : Option ℤ) (d D : ℤ) (useBias : Bool) (method : String)
    (f : EmbFun K) (dom : DataDomain) (dom' : Option DataDomain) (r : InitDraws) (h : GoodArgs seqLen d D method) :
    ∃ m, ProbMPS.init seqLen d D useBias method (.object (Embedding.trainable' f dom)) dom' r = .ok m :=
  (C71_accepts_iff _ _ _ _ _ _ _ _).2 ⟨h, _, .unknown _ _ rfl⟩

/-- C71: the property `seq_len` which `ProbUnifMPS` inherits returns `input_dim`. -/
theorem C71_uniform_seq_len [RCLike K] (d D : ℤ) (useBias : Bool) (method : String)
    (emb : EmbedArg K) (dom : Option DataDomain) (r : InitDraws) (m : ProbMPS K)
    (h : ProbMPS.init none d D useBias method emb dom r = .ok m) : (m.seqLen : ℤ) = d := by
  obtain ⟨h1, h2, -, h3, -⟩ := C71_constructed _ _ _ _ _ _ _ _ _ h
  rw [← h3]
  simp [ProbMPS.seqLen, ProbMPS.inputDim, h1]

/-- C71: every constructed model without embedding is a normalised probability distribution over the sequences of its
length (every length for `ProbUnifMPS`), for every draw with a non-zero normalisation constant. -/
theorem C71_normalised [RCLike K] (seqLen : Option ℤ) (d D : ℤ) (useBias : Bool) (method : String)
    (dom : Option DataDomain) (r : InitDraws) (m : ProbMPS K)
    (h : ProbMPS.init seqLen d D useBias method .none dom r = .ok m) (n : ℕ) (hn : ∀ k ∈ seqLen, k = n)
    (par : Bool) (hZ : modelZ m n d.toNat D.toNat ≠ 0) :
    ∑ x : Fin n → Fin d.toNat, probSeq m false par x = 1 := by
  obtain ⟨h1, h2, h3, -⟩ := C71_constructed _ _ _ _ _ _ _ _ _ h
  have he : m.embedding = none := by
    generalize m.embedding = e at h3
    cases h3; rfl
  exact sum_probSeq m n _ _ (h2 n hn) he false par (by simp) hZ

theorem fixed_embDim_ints [RCLike K] (f : EmbFun K) (N k : ℕ) (v : ℕ → ℕ → K) (hf : EmbedsInts f N k v) :
    ∃ e, Embedding.fixed f (.discrete N) = .ok e ∧ e.embDim = some k := by
  obtain ⟨t, h1, -⟩ := rawLambda_ints f N k v hf 1000
  refine ⟨⟨false, f, .discrete N, some (compressLambda t)⟩, ?_, ?_⟩
  · simp [Embedding.fixed, makeLambda, h1, bind, Except.bind, pure, Except.pure]
  · obtain ⟨o, h2, h3, -⟩ := hf ⟨[N], fun idx => (idx.getD 0 0 : ℤ)⟩ (by
      intro idx hidx
      cases hidx with
      | cons h t => cases t; simpa using h)
    have : f (lambdaPoints (K := K) (.discrete (N : ℤ)) 1000).2 = .ok o := by
      rw [← h2]; simp [lambdaPoints]
    simp [Embedding.embDim, this, h3]

theorem fixed_embDim_reals [RCLike K] (f : EmbFun K) (lo hi : ℝ) (hlt : lo < hi) (k : ℕ) (v : ℝ → ℕ → K)
    (hf : EmbedsReals f lo hi k v) :
    ∃ e, Embedding.fixed f (.continuous hi lo) = .ok e ∧ e.embDim = some k := by
  obtain ⟨t, h1, -⟩ := rawLambda_reals f lo hi hlt k v hf 999 (by norm_num)
  refine ⟨⟨false, f, .continuous hi lo, some (compressLambda t)⟩, ?_, ?_⟩
  · simp [Embedding.fixed, makeLambda, h1, bind, Except.bind, pure, Except.pure]
  · obtain ⟨o, ho, hs, -⟩ := hf [999 + 1] (fun idx => linspace lo hi (999 + 1) (idx.getD 0 0)) (by
      intro idx hidx
      match idx, hidx with
      | [a], h =>
        rw [linspace_grid _ _ _ _ (by norm_num)]
        exact gridPoint_mem lo hi hlt 999 _ (by norm_num) (by simpa using h))
    have : f (lambdaPoints (K := K) (.continuous hi lo) 1000).2 = .ok o := ho
    simp [Embedding.embDim, this, hs]

/-- C71: a function embedding the values `0, ..., N-1` of a discrete domain into vectors with `k` components is
accepted exactly when `k` is `input_dim`; otherwise the constructor raises an AssertionError. -/
theorem C71_discrete_function [RCLike K] (seqLen : Option ℤ) (d D : ℤ) (useBias : Bool) (method : String)
    (r : InitDraws) (h : GoodArgs seqLen d D method) (f : EmbFun K) (N k : ℕ) (v : ℕ → ℕ → K)
    (hf : EmbedsInts f N k v) :
    ((k : ℤ) = d → ∃ m, ProbMPS.init seqLen d D useBias method (.function f) (some (.discrete N)) r = .ok m) ∧
    ((k : ℤ) ≠ d →
      ProbMPS.init seqLen d D useBias method (.function f) (some (.discrete N)) r = .error .assertion) := by
  obtain ⟨e, h1, h2⟩ := fixed_embDim_ints f N k v hf
  exact ⟨fun hk => (C71_accepts_iff _ _ _ _ _ _ _ _).2 ⟨h, _, .function f _ e k h1 h2 hk⟩,
    fun hk => (C71_rejects_embedding seqLen d D useBias method r h).2.2.2 f _ e k h1 h2 hk⟩

/-- C71: the same for continuous domains. -/
theorem C71_continuous_function [RCLike K] (seqLen : Option ℤ) (d D : ℤ) (useBias : Bool) (method : String)
    (r : InitDraws) (h : GoodArgs seqLen d D method) (f : EmbFun K) (lo hi : ℝ) (hlt : lo < hi) (k : ℕ)
    (v : ℝ → ℕ → K) (hf : EmbedsReals f lo hi k v) :
    ((k : ℤ) = d → ∃ m, ProbMPS.init seqLen d D useBias method (.function f) (some (.continuous hi lo)) r = .ok m) ∧
    ((k : ℤ) ≠ d →
      ProbMPS.init seqLen d D useBias method (.function f) (some (.continuous hi lo)) r = .error .assertion) := by
  obtain ⟨e, h1, h2⟩ := fixed_embDim_reals f lo hi hlt k v hf
  exact ⟨fun hk => (C71_accepts_iff _ _ _ _ _ _ _ _).2 ⟨h, _, .function f _ e k h1 h2 hk⟩,
    fun hk => (C71_rejects_embedding seqLen d D useBias method r h).2.2.2 f _ e k h1 h2 hk⟩

/-- Non-vacuity: one-hot and sin/cos embeddings. -/
example (r : InitDraws) :
    (∃ m, ProbMPS.init (K := ℂ) (some 5) 3 4 true "normal" (.function (onehotEmbed 3)) (some (.discrete 3)) r = .ok m) ∧
    (∃ m, ProbMPS.init (K := ℝ) none 2 4 true "near_eye" (.function (trigEmbed 2)) (some (.continuous 1 0)) r = .ok m) ∧
    ProbMPS.init (K := ℝ) none 3 4 true "near_eye" (.function (trigEmbed 2)) (some (.continuous 1 0)) r =
      .error .assertion := by
  refine ⟨(C71_discrete_function _ _ _ _ _ _ ?_ _ 3 3 _ (C35_onehot_entries 3)).1 rfl,
    (C71_continuous_function _ _ _ _ _ _ ?_ _ 0 1 one_pos 2 _ (C36_sincos 0 1)).1 rfl,
    (C71_continuous_function _ _ _ _ _ _ ?_ _ 0 1 one_pos 2 _ (C36_sincos 0 1)).2 (by norm_num)⟩ <;> simp [GoodArgs]

/-- Non-vacuity: the arguments of the examples in the documentation are accepted, one-hot embeddings of the right
size fit, and a wrong method or dimension is refused. -/
example : GoodArgs (some 20) 2 10 "near_eye" ∧ GoodArgs none 3 1 "normal" ∧ ¬ GoodArgs (some 0) 2 10 "near_eye" ∧
    ¬ GoodArgs (some 20) 2 10 "random_eye" := by
  refine ⟨⟨?_, ?_, ?_, ?_⟩, ⟨?_, ?_, ?_, ?_⟩, ?_, ?_⟩ <;> simp [GoodArgs]

end TorchMPS
