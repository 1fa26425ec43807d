import Verif.Lemmas.EvalSeq
/-
Properties of `contract_matseq` (torchmps/mps_base.py): C10 - C13. `none` stands for NaN.

The sizes of the factors do not depend on the batch index, so compatibility of the chain is stated for the chain at
batch index `[]`.
-/
namespace TorchMPS
open Spec
variable {K : Type}

/-- the product of the inner matrices vanishes only if the whole product does -/
theorem isZero_full_of_inner [Semiring K] (ms : TensorSeq K) (lv rv : Option (Tensor K)) (b : List ℕ)
    (m : Mat K) (rest : List (Mat K)) (h : chainAt ms lv rv b = m :: rest) (hc : ChainOK (m :: rest))
    (y : Mat K) (l : List (Mat K)) (hm : matsAt ms b = y :: l) (hz : IsZero (matProd y l)) :
    IsZero (matProd m rest) := by
  unfold chainAt at h
  rw [hm] at h
  have hz' : ∀ ws, IsZero (matProd y (l ++ ws)) := by
    intro ws
    rw [matProd_append]
    exact hz.matProd ws
  cases lv with
  | none =>
    simp only [Option.map_none, Option.toList_none, List.nil_append, List.cons_append,
      List.cons.injEq] at h
    rw [← h.1, ← h.2]; exact hz' _
  | some v =>
    simp only [Option.map_some, Option.toList_some, List.cons_append, List.nil_append,
      List.cons.injEq] at h
    obtain ⟨h1, h2⟩ := h
    subst h1; subst h2
    rw [matProd_cons, ← matProd_mul]
    refine (hz' _).mul_right _ ?_
    rw [matProd_r]
    exact hc.1

theorem chain_row [Zero K] (ms : TensorSeq K) (lv rv : Option (Tensor K)) (b : List ℕ)
    (m : Mat K) (rest : List (Mat K)) (h : chainAt ms lv rv b = m :: rest) (hl : lv ≠ none) : m.r = 1 := by
  obtain ⟨v, rfl⟩ := Option.ne_none_iff_exists'.1 hl
  simp only [chainAt, Option.map_some, Option.toList_some, List.cons_append, List.nil_append,
    List.cons.injEq] at h
  rw [← h.1]; rfl

theorem chain_col [Zero K] (ms : TensorSeq K) (lv rv : Option (Tensor K)) (b : List ℕ)
    (m : Mat K) (rest : List (Mat K)) (h : chainAt ms lv rv b = m :: rest) (hr : rv ≠ none) :
    ((m :: rest).getLast (by simp)).c = 1 := by
  obtain ⟨v, rfl⟩ := Option.ne_none_iff_exists'.1 hr
  have : (m :: rest).getLast? = some (colAt v b) := by
    rw [← h, chainAt]
    simp
  rw [List.getLast?_eq_getLast_of_ne_nil (by simp)] at this
  simp only [Option.some.injEq] at this
  rw [this]; rfl

/-! ### C10 -/

/-- C10 (log format). Boundary vectors present or absent, parallel or sequential, stacked or listed
matrices: `contract_matseq` succeeds, the output shapes are as documented, and at every batch index with
non-zero exact product `product * exp(log_scale)` is that product. -/
theorem C10_contractMatseq_log [RCLike K] (ms : TensorSeq K) (lv rv : Option (Tensor K)) (par : Bool)
    (B : Shape) (hw : WellRanked ms lv rv) (hB : IsBroadcast (batchShapes ms lv rv) B)
    (m0 : Mat K) (rest0 : List (Mat K)) (h0 : chainAt ms lv rv [] = m0 :: rest0)
    (hchain : ChainOK (m0 :: rest0)) (hempty : EmptyFits ms lv rv) :
    ∃ out, contractMatseq ms lv rv par = .ok out ∧
      out.product.shape = B ++ (if lv.isNone then [m0.r] else []) ++
        (if rv.isNone then [((m0 :: rest0).getLast (by simp)).c] else []) ∧
      out.logScale.shape = B ++ (if lv.isNone then [1] else []) ++ (if rv.isNone then [1] else []) ∧
      ∀ b, InRange b B → ∃ m rest, chainAt ms lv rv b = m :: rest ∧ (¬ IsZero (matProd m rest) →
        ∀ i < (matProd m rest).r, ∀ j < (matProd m rest).c, ∃ p l,
          out.product.get (outIndex lv rv b i j) = some p ∧
          out.logScale.get (outIndex lv rv b 0 0) = some l ∧
          p * (Real.exp l : K) = (matProd m rest).e i j) := by
  obtain ⟨out, h1, h2, h3, h4⟩ := contractMatseq_spec ms lv rv par B hw hB m0 rest0 h0 hchain hempty
  refine ⟨out, h1, h2, h3, fun b hb => ?_⟩
  obtain ⟨m, rest, val, k1, k2, k3, k4, k5, k6, k7, -, k8, k9⟩ := h4 b hb
  refine ⟨m, rest, k1, fun hnz i hi j hj => ?_⟩
  have hval : val ≠ none := by
    intro hv
    by_cases hp : UsesParallel ms lv rv par
    · obtain ⟨y, z, l, e1, e2⟩ := (k8 hp).1 hv
      exact hnz (isZero_full_of_inner ms lv rv b m rest k1 k3 y (z :: l) e1 e2)
    · exact hnz ((k9 hp).1 hv).2
  obtain ⟨⟨P, l⟩, rfl⟩ := Option.ne_none_iff_exists'.1 hval
  rw [matProd_r] at hi
  rw [matProd_c] at hj
  have hi0 : lv ≠ none → i = 0 := fun h => by
    have := chain_row ms lv rv b m rest k1 h; omega
  have hj0 : rv ≠ none → j = 0 := fun h => by
    have := chain_col ms lv rv b m rest k1 h; omega
  refine ⟨P.e i j, l, by rw [k5 i j hi0 hj0]; rfl, by rw [k6 0 0]; rfl, ?_⟩
  rw [← k7 P l rfl]
  simp only [Mat.smul]; ring

theorem clampIdx_append (s t : Shape) (a b : List ℕ) (h : a.length = s.length) :
    Tensor.clampIdx (s ++ t) (a ++ b) = Tensor.clampIdx s a ++ Tensor.clampIdx t b := by
  unfold Tensor.clampIdx
  rw [List.zipWith_append h.symm]

/-- C10 (plain format). The returned tensor holds the exact products. -/
theorem C10_contractMatseq_value [RCLike K] (ms : TensorSeq K) (lv rv : Option (Tensor K)) (par : Bool)
    (B : Shape) (hw : WellRanked ms lv rv) (hB : IsBroadcast (batchShapes ms lv rv) B)
    (m0 : Mat K) (rest0 : List (Mat K)) (h0 : chainAt ms lv rv [] = m0 :: rest0)
    (hchain : ChainOK (m0 :: rest0)) (hempty : EmptyFits ms lv rv) :
    ∃ out, contractMatseqVal ms lv rv par = .ok out ∧
      out.shape = B ++ (if lv.isNone then [m0.r] else []) ++
        (if rv.isNone then [((m0 :: rest0).getLast (by simp)).c] else []) ∧
      ∀ b, InRange b B → ∃ m rest, chainAt ms lv rv b = m :: rest ∧ (¬ IsZero (matProd m rest) →
        ∀ i < (matProd m rest).r, ∀ j < (matProd m rest).c,
          out.get (outIndex lv rv b i j) = some ((matProd m rest).e i j)) := by
  obtain ⟨out, h1, h2, h3, h4⟩ := C10_contractMatseq_log ms lv rv par B hw hB m0 rest0 h0 hchain hempty
  refine ⟨⟨out.product.shape, fun idx => (out.product.get idx).bind (fun p =>
      (out.logScale.get (Tensor.clampIdx out.logScale.shape idx)).map
        (fun l => p * (Real.exp l : K)))⟩, ?_, h2, ?_⟩
  · unfold contractMatseqVal
    rw [h1]; rfl
  intro b hb
  obtain ⟨m, rest, k1, k2⟩ := h4 b hb
  refine ⟨m, rest, k1, fun hnz i hi j hj => ?_⟩
  obtain ⟨p, l, e1, e2, e3⟩ := k2 hnz i hi j hj
  have hidx : Tensor.clampIdx out.logScale.shape (outIndex lv rv b i j) = outIndex lv rv b 0 0 := by
    rw [h3]
    unfold outIndex
    rw [clampIdx_append, clampIdx_append, Tensor.clampIdx_of_inRange hb]
    · congr 1
      · congr 1; cases lv <;> simp [Tensor.clampIdx]
      · cases rv <;> simp [Tensor.clampIdx]
    · exact hb.length_eq
    · cases lv <;> simp [hb.length_eq]
  simp only [e1, Option.bind_some, hidx, e2, Option.map_some, e3]

/-- C10. All evaluation strategies agree: whatever `parallel_eval`, and whether the matrices are given as one tensor
or as a list, the values are the same whenever the exact product is non-zero. -/
theorem C10_strategies_agree [RCLike K] (ms ms' : TensorSeq K) (lv rv : Option (Tensor K))
    (par par' : Bool) (B : Shape)
    (hw : WellRanked ms lv rv) (hB : IsBroadcast (batchShapes ms lv rv) B)
    (hw' : WellRanked ms' lv rv) (hB' : IsBroadcast (batchShapes ms' lv rv) B)
    (hsame : ∀ b, matsAt ms b = matsAt ms' b)
    (m0 : Mat K) (rest0 : List (Mat K)) (h0 : chainAt ms lv rv [] = m0 :: rest0)
    (hchain : ChainOK (m0 :: rest0)) (hempty : EmptyFits ms lv rv) (hempty' : EmptyFits ms' lv rv) :
    ∃ out out', contractMatseqVal ms lv rv par = .ok out ∧
      contractMatseqVal ms' lv rv par' = .ok out' ∧ out.shape = out'.shape ∧
      ∀ b, InRange b B → ∃ m rest, chainAt ms lv rv b = m :: rest ∧ (¬ IsZero (matProd m rest) →
        ∀ i < (matProd m rest).r, ∀ j < (matProd m rest).c,
          out.get (outIndex lv rv b i j) = out'.get (outIndex lv rv b i j)) := by
  have hch : ∀ b, chainAt ms' lv rv b = chainAt ms lv rv b := fun b => by
    unfold chainAt; rw [hsame b]
  obtain ⟨o, h1, h2, h3⟩ := C10_contractMatseq_value ms lv rv par B hw hB m0 rest0 h0 hchain hempty
  obtain ⟨o', h1', h2', h3'⟩ := C10_contractMatseq_value ms' lv rv par' B hw' hB' m0 rest0
    (by rw [hch]; exact h0) hchain hempty'
  refine ⟨o, o', h1, h1', by rw [h2, h2'], fun b hb => ?_⟩
  obtain ⟨m, rest, k1, k2⟩ := h3 b hb
  obtain ⟨m', rest', k1', k2'⟩ := h3' b hb
  rw [hch, k1, List.cons.injEq] at k1'
  obtain ⟨rfl, rfl⟩ := k1'
  exact ⟨m, rest, k1, fun hnz i hi j hj => by rw [k2 hnz i hi j hj, k2' hnz i hi j hj]⟩

/-! ### C11 -/

/-- same axes sizes -/
def SameShapes (ms ms' : TensorSeq K) : Prop :=
  match ms, ms' with
  | .single t, .single t' => t.shape = t'.shape
  | .seq ts, .seq ts' => ts.map (·.shape) = ts'.map (·.shape)
  | _, _ => False

theorem sameShapes_facts {ms ms' : TensorSeq K} {lv lv' rv rv' : Option (Tensor K)} (par : Bool)
    (h : SameShapes ms ms') (hl : lv.map (·.shape) = lv'.map (·.shape))
    (hr : rv.map (·.shape) = rv'.map (·.shape)) :
    (UsesParallel ms lv rv par ↔ UsesParallel ms' lv' rv' par) ∧ lastAxis ms = lastAxis ms' ∧
    (lv.isNone = lv'.isNone) ∧ (rv.isNone = rv'.isNone) := by
  have e1 : lv.isNone = lv'.isNone := by
    have := congrArg Option.isNone hl; simpa using this
  have e2 : rv.isNone = rv'.isNone := by
    have := congrArg Option.isNone hr; simpa using this
  have e3 : (lv = none ↔ lv' = none) := by cases lv <;> cases lv' <;> simp_all
  have e4 : (rv = none ↔ rv' = none) := by cases rv <;> cases rv' <;> simp_all
  refine ⟨?_, ?_, e1, e2⟩
  · unfold UsesParallel
    rw [e3, e4]
    cases ms with
    | single t => cases ms' <;> simp [SameShapes] at h ⊢
    | seq ts =>
      cases ms' with
      | single t => simp [SameShapes] at h
      | seq ts' =>
        simp only [SameShapes] at h
        have aux : ∀ (ts : List (Tensor K)), (ts ≠ [] ∧ ∀ s ∈ ts, ∀ t ∈ ts, s.shape = t.shape) ↔
            (ts.map (·.shape) ≠ [] ∧ ∀ s ∈ ts.map (·.shape), ∀ t ∈ ts.map (·.shape), s = t) := by
          intro ts; simp
        simp only [aux ts, aux ts', h]
  · cases ms <;> cases ms' <;> simp_all [SameShapes, lastAxis]

/-- C11. The value at a batch index is determined by the factors found at that (broadcast) index: see
`C10_contractMatseq_log`. Moreover no other batch element influences it: for two inputs of the same shapes which
agree at batch index `b`, both outputs agree at `b` - including NaN and the split between product and log scale. -/
theorem C11_batch_independent [RCLike K] (ms ms' : TensorSeq K) (lv lv' rv rv' : Option (Tensor K))
    (par : Bool) (B : Shape)
    (hw : WellRanked ms lv rv) (hB : IsBroadcast (batchShapes ms lv rv) B)
    (hw' : WellRanked ms' lv' rv') (hB' : IsBroadcast (batchShapes ms' lv' rv') B)
    (hs : SameShapes ms ms') (hls : lv.map (·.shape) = lv'.map (·.shape))
    (hrs : rv.map (·.shape) = rv'.map (·.shape))
    (m0 : Mat K) (rest0 : List (Mat K)) (h0 : chainAt ms lv rv [] = m0 :: rest0)
    (hchain : ChainOK (m0 :: rest0)) (hempty : EmptyFits ms lv rv)
    (m0' : Mat K) (rest0' : List (Mat K)) (h0' : chainAt ms' lv' rv' [] = m0' :: rest0')
    (hchain' : ChainOK (m0' :: rest0')) (hempty' : EmptyFits ms' lv' rv')
    (b : List ℕ) (hb : InRange b B) (hm : matsAt ms b = matsAt ms' b)
    (hl : lv.map (rowAt · b) = lv'.map (rowAt · b)) (hr : rv.map (colAt · b) = rv'.map (colAt · b)) :
    ∃ out out', contractMatseq ms lv rv par = .ok out ∧ contractMatseq ms' lv' rv' par = .ok out' ∧
      (∀ i j, (lv ≠ none → i = 0) → (rv ≠ none → j = 0) →
        out.product.get (outIndex lv rv b i j) = out'.product.get (outIndex lv' rv' b i j)) ∧
      ∀ i j, out.logScale.get (outIndex lv rv b i j) = out'.logScale.get (outIndex lv' rv' b i j) := by
  obtain ⟨o, h1, -, -, h4⟩ := contractMatseq_spec ms lv rv par B hw hB m0 rest0 h0 hchain hempty
  obtain ⟨o', h1', -, -, h4'⟩ :=
    contractMatseq_spec ms' lv' rv' par B hw' hB' m0' rest0' h0' hchain' hempty'
  obtain ⟨m, rest, val, -, -, -, -, k5, k6, -, k8, -, -⟩ := h4 b hb
  obtain ⟨m', rest', val', -, -, -, -, k5', k6', -, k8', -, -⟩ := h4' b hb
  obtain ⟨f1, f2, f3, f4⟩ := sameShapes_facts (lv := lv) (lv' := lv') (rv := rv) (rv' := rv') par hs hls hrs
  have hval : val = val' := by
    rw [k8, k8', hm, hl, hr, f2]
    congr 1
    exact propext f1
  have e3 : lv' ≠ none → lv ≠ none := by cases lv <;> cases lv' <;> simp_all
  have e4 : rv' ≠ none → rv ≠ none := by cases rv <;> cases rv' <;> simp_all
  refine ⟨o, o', h1, h1', ?_, ?_⟩
  · intro i j hi hj
    rw [k5 i j hi hj, k5' i j (fun h => hi (e3 h)) (fun h => hj (e4 h)), hval]
  · intro i j
    rw [k6 i j, k6' i j, hval]

/-! ### C12 -/

/-- C12. Exactly when `contract_matseq` yields NaN at a batch index: sequentially, for at least two factors (vectors
included) with product zero; in parallel, for at least two matrices with product zero. -/
theorem C12_nan_iff [RCLike K] (ms : TensorSeq K) (lv rv : Option (Tensor K)) (par : Bool)
    (B : Shape) (hw : WellRanked ms lv rv) (hB : IsBroadcast (batchShapes ms lv rv) B)
    (m0 : Mat K) (rest0 : List (Mat K)) (h0 : chainAt ms lv rv [] = m0 :: rest0)
    (hchain : ChainOK (m0 :: rest0)) (hempty : EmptyFits ms lv rv) :
    ∃ out, contractMatseq ms lv rv par = .ok out ∧
      ∀ b, InRange b B → ∃ m rest, chainAt ms lv rv b = m :: rest ∧
        ∀ i < (matProd m rest).r, ∀ j < (matProd m rest).c,
        (UsesParallel ms lv rv par → (out.product.get (outIndex lv rv b i j) = none ↔
          ∃ y z l, matsAt ms b = y :: z :: l ∧ IsZero (matProd y (z :: l)))) ∧
        (¬ UsesParallel ms lv rv par → (out.product.get (outIndex lv rv b i j) = none ↔
          rest ≠ [] ∧ IsZero (matProd m rest))) := by
  obtain ⟨out, h1, h2, h3, h4⟩ := contractMatseq_spec ms lv rv par B hw hB m0 rest0 h0 hchain hempty
  refine ⟨out, h1, fun b hb => ?_⟩
  obtain ⟨m, rest, val, k1, k2, k3, k4, k5, k6, k7, -, k8, k9⟩ := h4 b hb
  refine ⟨m, rest, k1, fun i hi j hj => ?_⟩
  rw [matProd_r] at hi
  rw [matProd_c] at hj
  have hi0 : lv ≠ none → i = 0 := fun h => by
    have := chain_row ms lv rv b m rest k1 h; omega
  have hj0 : rv ≠ none → j = 0 := fun h => by
    have := chain_col ms lv rv b m rest k1 h; omega
  rw [k5 i j hi0 hj0, Option.map_eq_none_iff]
  exact ⟨k8, k9⟩

/-- C12. Whatever is returned without NaN is exact, zero included. -/
theorem C12_value_exact [RCLike K] (ms : TensorSeq K) (lv rv : Option (Tensor K)) (par : Bool)
    (B : Shape) (hw : WellRanked ms lv rv) (hB : IsBroadcast (batchShapes ms lv rv) B)
    (m0 : Mat K) (rest0 : List (Mat K)) (h0 : chainAt ms lv rv [] = m0 :: rest0)
    (hchain : ChainOK (m0 :: rest0)) (hempty : EmptyFits ms lv rv) :
    ∃ out, contractMatseq ms lv rv par = .ok out ∧
      ∀ b, InRange b B → ∃ m rest, chainAt ms lv rv b = m :: rest ∧
        ∀ i < (matProd m rest).r, ∀ j < (matProd m rest).c, ∀ p,
          out.product.get (outIndex lv rv b i j) = some p →
          ∃ l, out.logScale.get (outIndex lv rv b 0 0) = some l ∧
            p * (Real.exp l : K) = (matProd m rest).e i j := by
  obtain ⟨out, h1, h2, h3, h4⟩ := contractMatseq_spec ms lv rv par B hw hB m0 rest0 h0 hchain hempty
  refine ⟨out, h1, fun b hb => ?_⟩
  obtain ⟨m, rest, val, k1, k2, k3, k4, k5, k6, k7, -, k8, k9⟩ := h4 b hb
  refine ⟨m, rest, k1, fun i hi j hj p hp => ?_⟩
  rw [matProd_r] at hi
  rw [matProd_c] at hj
  have hi0 : lv ≠ none → i = 0 := fun h => by
    have := chain_row ms lv rv b m rest k1 h; omega
  have hj0 : rv ≠ none → j = 0 := fun h => by
    have := chain_col ms lv rv b m rest k1 h; omega
  rw [k5 i j hi0 hj0, Option.map_eq_some_iff] at hp
  obtain ⟨⟨P, l⟩, rfl, rfl⟩ := hp
  refine ⟨l, by rw [k6 0 0]; rfl, ?_⟩
  rw [← k7 P l rfl]
  simp only [Mat.smul]; ring

end TorchMPS
