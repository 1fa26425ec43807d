import Verif.Props.Contract
/-
`contract_matseq`: zero products (witness for C12), empty sequences (C13), and non-vacuity examples for C10 - C13.
-/
namespace TorchMPS
open Spec
variable {K : Type}

theorem rowAt_mul_eye [Semiring K] (v : Tensor K) (b : List ℕ) (D : ℕ) (h : v.shape.getLastD 0 = D) :
    (rowAt v b).mul (Mat.eye D) = rowAt v b := by
  subst h
  exact Mat.at_mul_eye ⟨1, v.shape.getLastD 0, fun b _ j => v.get (sourceIndex (batchShape v 1) b ++ [j])⟩ b

theorem eye_mul_colAt [Semiring K] (v : Tensor K) (b : List ℕ) (D : ℕ) (h : v.shape.getLastD 0 = D) :
    (Mat.eye D).mul (colAt v b) = colAt v b := by
  subst h
  exact Mat.eye_mul_at ⟨v.shape.getLastD 0, 1, fun b i _ => v.get (sourceIndex (batchShape v 1) b ++ [i])⟩ b

theorem matReduceSeq_one [RCLike K] (m : Mat K) : matReduceSeq m [] = some (m, 0) := by
  unfold matReduceSeq
  simp

theorem emptyStack_matsAt [Zero K] (t : Tensor K) (Bt : Shape) (r D : ℕ) (ht : t.shape = Bt ++ [0, r, D])
    (b : List ℕ) : matsAt (.single t) b = [] := by
  have : nonBatchShape t 3 = [0, r, D] := by
    unfold nonBatchShape Tensor.ndim; rw [ht]; simp
  simp [matsAt, this]

theorem emptyStack_facts (t : Tensor K) (Bt : Shape) (r D : ℕ) (ht : t.shape = Bt ++ [0, r, D]) :
    3 ≤ t.ndim ∧ t.shape.getD (t.ndim - 3) 0 = 0 ∧ t.shape.getLastD 0 = D ∧
      t.shape.getD (t.ndim - 1) 0 = D ∧ t.shape.take (t.ndim - 3) = Bt := by
  unfold Tensor.ndim; rw [ht]
  refine ⟨by simp, by simp, by simp [List.getLastD_eq_getLast?], ?_, by simp⟩
  simp [List.getD_eq_getElem?_getD]

/-! ### C13 -/

/-- C13, no vectors: the identity on the last axis, for every batch index. -/
theorem C13_empty_identity [RCLike K] (t : Tensor K) (Bt : Shape) (r D : ℕ) (ht : t.shape = Bt ++ [0, r, D])
    (par : Bool) :
    ∃ out, contractMatseq (.single t) none none par = .ok out ∧ out.product.shape = Bt ++ [D, D] ∧
      ∀ b, InRange b Bt → ∀ i < D, ∀ j < D,
        out.product.get (b ++ [i, j]) = some (if i = j then 1 else 0) ∧
        out.logScale.get (b ++ [0, 0]) = some 0 := by
  obtain ⟨f1, f2, f3, f4, f5⟩ := emptyStack_facts t Bt r D ht
  have hm : matsView t = [] := by
    unfold matsView; rw [f2]; rfl
  refine ⟨packOut ⟨Bt, true, [], none, none⟩ D D (elemPar ⟨Bt, true, [], none, none⟩ D), ?_, ?_, ?_⟩
  · unfold contractMatseq
    simp only [bundleTensors, bind, Except.bind]
    rw [if_neg (by omega)]
    simp only [broadcastSame, f5, hm, evalMatSeq, f4]
    simp
  · simp [packOut]
  · intro b hb i hi j hj
    have hl := hb.length_eq
    have e : ∀ x y : ℕ, (b ++ [x, y]).take Bt.length = b := by intro x y; rw [← hl]; simp
    simp only [packOut, e, elemPar, List.map_nil, matReducePar, Option.map_some, Option.isNone_none,
      if_true]
    simp [← hl, Mat.eye]

/-- C13, one left vector: the vector itself (broadcast over the batch), log scale 0. -/
theorem C13_empty_left [RCLike K] (t v : Tensor K) (Bt Bv B : Shape) (r D : ℕ)
    (ht : t.shape = Bt ++ [0, r, D]) (hv : v.shape = Bv ++ [D]) (hB : IsBroadcast [Bt, Bv] B) (par : Bool) :
    ∃ out, contractMatseq (.single t) (some v) none par = .ok out ∧ out.product.shape = B ++ [D] ∧
      ∀ b, InRange b B → ∀ j < D,
        out.product.get (b ++ [j]) = some (v.get (sourceIndex Bv b ++ [j])) ∧
        out.logScale.get (b ++ [0]) = some 0 := by
  obtain ⟨f1, f2, f3, f4, f5⟩ := emptyStack_facts t Bt r D ht
  have g1 : v.shape.getLastD 0 = D := by rw [hv]; simp [List.getLastD_eq_getLast?]
  have g3 : v.shape.getLast?.getD 0 = D := by rw [hv]; simp
  have g2 : batchShape v 1 = Bv := by unfold batchShape Tensor.ndim; rw [hv]; simp
  obtain ⟨out, h1, h2, -, h4⟩ := contractMatseq_spec (.single t) (some v) none par B
    ⟨f1, by simp [Tensor.ndim, hv], by simp⟩ (by
      have : batchShapes (.single t) (some v) none = [Bt, Bv] := by
        simp [batchShapes, g2, show batchShape t 3 = Bt from f5]
      rw [this]; exact hB) (rowAt v []) []
    (by simp [chainAt, emptyStack_matsAt t Bt r D ht]) trivial
    (by intro _; exact ⟨by rintro _ ⟨⟩; rw [g1, f3], by simp⟩)
  refine ⟨out, h1, by rw [h2]; simp [rowAt, Mat.of, g3], ?_⟩
  intro b hb j hj
  obtain ⟨m, rest, val, -, -, -, -, k5, k6, -, k8, -, -⟩ := h4 b hb
  have hval : val = some (rowAt v b, 0) := by
    rw [k8, emptyStack_matsAt t Bt r D ht]
    unfold evalAt
    split
    · simp only [matReducePar, lastAxis, f3, Option.map_some, Option.map_none, rowAt_mul_eye v b D g1]
    · simp [matReduceSeq_one]
  have a1 := k5 0 j (fun _ => rfl) (by simp)
  have a2 := k6 0 0
  rw [hval] at a1 a2
  simp only [outIndex, Option.isNone_some, Option.isNone_none, if_true, Bool.false_eq_true, if_false,
    List.append_nil, Option.map_some] at a1 a2
  refine ⟨?_, a2⟩
  rw [a1]
  simp [rowAt, Mat.of, g3, hj, g2]

/-- C13, one right vector: the vector itself (broadcast over the batch), log scale 0. -/
theorem C13_empty_right [RCLike K] (t v : Tensor K) (Bt Bv B : Shape) (r D : ℕ)
    (ht : t.shape = Bt ++ [0, r, D]) (hv : v.shape = Bv ++ [D]) (hB : IsBroadcast [Bt, Bv] B) (par : Bool) :
    ∃ out, contractMatseq (.single t) none (some v) par = .ok out ∧ out.product.shape = B ++ [D] ∧
      ∀ b, InRange b B → ∀ j < D,
        out.product.get (b ++ [j]) = some (v.get (sourceIndex Bv b ++ [j])) ∧
        out.logScale.get (b ++ [0]) = some 0 := by
  obtain ⟨f1, f2, f3, f4, f5⟩ := emptyStack_facts t Bt r D ht
  have g1 : v.shape.getLastD 0 = D := by rw [hv]; simp [List.getLastD_eq_getLast?]
  have g3 : v.shape.getLast?.getD 0 = D := by rw [hv]; simp
  have g2 : batchShape v 1 = Bv := by unfold batchShape Tensor.ndim; rw [hv]; simp
  obtain ⟨out, h1, h2, -, h4⟩ := contractMatseq_spec (.single t) none (some v) par B
    ⟨f1, by simp, by simp [Tensor.ndim, hv]⟩ (by
      have : batchShapes (.single t) none (some v) = [Bt, Bv] := by
        simp [batchShapes, g2, show batchShape t 3 = Bt from f5]
      rw [this]; exact hB) (colAt v []) []
    (by simp [chainAt, emptyStack_matsAt t Bt r D ht]) trivial
    (by intro _; exact ⟨by simp, by rintro _ ⟨⟩; rw [g1, f3]⟩)
  refine ⟨out, h1, by rw [h2]; simp [colAt, Mat.of, g3], ?_⟩
  intro b hb j hj
  obtain ⟨m, rest, val, -, -, -, -, k5, k6, -, k8, -, -⟩ := h4 b hb
  have hval : val = some (colAt v b, 0) := by
    rw [k8, emptyStack_matsAt t Bt r D ht]
    unfold evalAt
    split
    · simp only [matReducePar, lastAxis, f3, Option.map_some, Option.map_none, eye_mul_colAt v b D g1]
    · simp [matReduceSeq_one]
  have a1 := k5 j 0 (by simp) (fun _ => rfl)
  have a2 := k6 0 0
  rw [hval] at a1 a2
  simp only [outIndex, Option.isNone_some, Option.isNone_none, if_true, Bool.false_eq_true, if_false,
    List.append_nil, Option.map_some] at a1 a2
  refine ⟨?_, a2⟩
  rw [a1]
  simp [colAt, Mat.of, g3, hj, g2]

/-- C13, two vectors: their inner product (without conjugation), whenever it is non-zero or
`parallel_eval` is set. -/
theorem C13_empty_both [RCLike K] (t v w : Tensor K) (Bt Bv Bw B : Shape) (r D : ℕ)
    (ht : t.shape = Bt ++ [0, r, D]) (hv : v.shape = Bv ++ [D]) (hw : w.shape = Bw ++ [D])
    (hB : IsBroadcast [Bt, Bv, Bw] B) (par : Bool) :
    ∃ out, contractMatseq (.single t) (some v) (some w) par = .ok out ∧ out.product.shape = B ∧
      ∀ b, InRange b B →
        let ip := ∑ k ∈ Finset.range D, v.get (sourceIndex Bv b ++ [k]) * w.get (sourceIndex Bw b ++ [k])
        (par = true ∨ ip ≠ 0) → ∃ p l, out.product.get b = some p ∧ out.logScale.get b = some l ∧
          p * (Real.exp l : K) = ip := by
  obtain ⟨f1, f2, f3, f4, f5⟩ := emptyStack_facts t Bt r D ht
  have g1 : v.shape.getLastD 0 = D := by rw [hv]; simp [List.getLastD_eq_getLast?]
  have g3 : v.shape.getLast?.getD 0 = D := by rw [hv]; simp
  have g2 : batchShape v 1 = Bv := by unfold batchShape Tensor.ndim; rw [hv]; simp
  have g1' : w.shape.getLastD 0 = D := by rw [hw]; simp [List.getLastD_eq_getLast?]
  have g3' : w.shape.getLast?.getD 0 = D := by rw [hw]; simp
  have g2' : batchShape w 1 = Bw := by unfold batchShape Tensor.ndim; rw [hw]; simp
  obtain ⟨out, h1, h2, -, h4⟩ := contractMatseq_spec (.single t) (some v) (some w) par B
    ⟨f1, by simp [Tensor.ndim, hv], by simp [Tensor.ndim, hw]⟩ (by
      have : batchShapes (.single t) (some v) (some w) = [Bt, Bv, Bw] := by
        simp [batchShapes, g2, g2', show batchShape t 3 = Bt from f5]
      rw [this]; exact hB) (rowAt v []) [colAt w []]
    (by simp [chainAt, emptyStack_matsAt t Bt r D ht]) ⟨by simp [rowAt, colAt, Mat.of, g3, g3'], trivial⟩
    (by intro _; exact ⟨by rintro _ ⟨⟩; rw [g1, f3], by rintro _ ⟨⟩; rw [g1', f3]⟩)
  refine ⟨out, h1, by rw [h2]; simp, ?_⟩
  intro b hb ip hip
  obtain ⟨m, rest, val, k1, -, -, -, k5, k6, k7, -, k8, k9⟩ := h4 b hb
  have hch : chainAt (.single t) (some v) (some w) b = [rowAt v b, colAt w b] := by
    simp [chainAt, emptyStack_matsAt t Bt r D ht]
  rw [hch] at k1
  simp only [List.cons.injEq] at k1
  obtain ⟨rfl, rfl⟩ := k1
  have hprod : (matProd (rowAt v b) [colAt w b]).e 0 0 = ip := by
    simp only [matProd, List.foldl_cons, List.foldl_nil, Mat.mul, rowAt, colAt, Mat.of, g1, g1', g2, g2', ip]
    refine Finset.sum_congr rfl ?_
    intro k hk
    simp [Finset.mem_range.1 hk]
  have hval : val ≠ none := by
    intro hn
    by_cases hp : UsesParallel (.single t) (some v) (some w) par
    · obtain ⟨y, z, l, e1, -⟩ := (k8 hp).1 hn
      rw [emptyStack_matsAt t Bt r D ht] at e1; simp at e1
    · rcases hip with h | h
      · exact hp ⟨trivial, Or.inl h⟩
      · have hz := ((k9 hp).1 hn).2
        have := hz 0 (by simp [matProd, Mat.mul, rowAt, Mat.of]) 0 (by simp [matProd, Mat.mul, colAt, Mat.of])
        rw [hprod] at this
        exact h this
  obtain ⟨⟨P, l⟩, rfl⟩ := Option.ne_none_iff_exists'.1 hval
  have a1 := k5 0 0 (fun _ => rfl) (fun _ => rfl)
  have a2 := k6 0 0
  simp only [outIndex, Option.isNone_some, Bool.false_eq_true, if_false,
    List.append_nil, Option.map_some] at a1 a2
  refine ⟨P.e 0 0, l, a1, a2, ?_⟩
  rw [← hprod, ← k7 P l rfl]
  simp only [Mat.smul]; ring

/-- C13, an empty list without vectors: ValueError. -/
theorem C13_empty_list [RCLike K] (par : Bool) :
    contractMatseq (.seq ([] : List (Tensor K))) none none par = .error .value := by
  unfold contractMatseq
  simp [bundleTensors, bind, Except.bind, broadcastSeq, batchBroadcast, evalMatSeq,
    MatSeq.full, assert, pure, Except.pure]

example : IsBroadcast [[3], [1], []] [3] := by
  rw [← shapeBroadcast_ok_iff]; rfl

/-! ### C12: a zero product which is not returned as 0 -/

/-- two stacked 1 x 1 matrices, (0) and (1) -/
def zeroStack : Tensor ℝ := ⟨[2, 1, 1], fun idx => if idx = [1, 0, 0] then 1 else 0⟩

/-- the vector (1) -/
def oneVec : Tensor ℝ := ⟨[1], fun _ => 1⟩

theorem zeroStack_hyps (lv : Option (Tensor ℝ)) (hl : lv = none ∨ lv = some oneVec) :
    WellRanked (.single zeroStack) lv none ∧ IsBroadcast (batchShapes (.single zeroStack) lv none) [] ∧
    ChainOK (chainAt (.single zeroStack) lv none []) ∧ EmptyFits (.single zeroStack) lv none := by
  have hm : matsAt (.single zeroStack) [] =
      (List.range 2).map (fun k => Mat.of 1 1 (fun i j => zeroStack.get ([] ++ [k, i, j]))) := rfl
  rcases hl with rfl | rfl
  · refine ⟨⟨by simp [zeroStack, Tensor.ndim], by simp, by simp⟩, ?_, ?_, ?_⟩
    · rw [← shapeBroadcast_ok_iff]; rfl
    · simp [chainAt, hm, List.range_succ, ChainOK, Mat.of]
    · intro h; simp [zeroStack, Tensor.ndim] at h
  · refine ⟨⟨by simp [zeroStack, Tensor.ndim], by simp [oneVec, Tensor.ndim], by simp⟩, ?_, ?_, ?_⟩
    · rw [← shapeBroadcast_ok_iff]; rfl
    · simp [chainAt, hm, List.range_succ, ChainOK, Mat.of, rowAt, oneVec]
    · intro h; simp [zeroStack, Tensor.ndim] at h

/-- C12, the user's expectation fails: the exact product of the two matrices is 0, but the value is NaN. -/
theorem C12_zero_not_returned :
    ∃ out, contractMatseq (.single zeroStack) none none false = .ok out ∧
      out.product.get [0, 0] = none ∧
      ∃ m rest, chainAt (.single zeroStack) none none [] = m :: rest ∧ (matProd m rest).e 0 0 = 0 := by
  obtain ⟨w1, w2, w3, w4⟩ := zeroStack_hyps none (Or.inl rfl)
  have hm : matsAt (.single zeroStack) [] =
      (List.range 2).map (fun k => Mat.of 1 1 (fun i j => zeroStack.get ([] ++ [k, i, j]))) := rfl
  have hch : chainAt (.single zeroStack) none none [] =
      [Mat.of 1 1 (fun i j => zeroStack.get [0, i, j]), Mat.of 1 1 (fun i j => zeroStack.get [1, i, j])] := by
    simp [chainAt, hm, List.range_succ]
  rw [hch] at w3
  obtain ⟨out, h1, h2⟩ := C12_nan_iff (.single zeroStack) none none false [] w1 w2 _ _ hch w3 w4
  obtain ⟨m, rest, k1, k2⟩ := h2 [] (by simp)
  rw [hch] at k1
  simp only [List.cons.injEq] at k1
  obtain ⟨rfl, rfl⟩ := k1
  have hz : (matProd (Mat.of 1 1 (fun i j => zeroStack.get [0, i, j]))
      [Mat.of 1 1 (fun i j => zeroStack.get [1, i, j])]).e 0 0 = 0 := by
    simp [matProd, Mat.mul, Mat.of, zeroStack]
  refine ⟨out, h1, ?_, _, _, hch, hz⟩
  refine ((k2 0 (by simp [matProd, Mat.mul, Mat.of]) 0 (by simp [matProd, Mat.mul, Mat.of])).1
    ⟨trivial, Or.inr ⟨rfl, rfl⟩⟩).2 ⟨Mat.of 1 1 (fun i j => zeroStack.get [0, i, j]),
      Mat.of 1 1 (fun i j => zeroStack.get [1, i, j]), [], ?_, ?_⟩
  · simp [hm, List.range_succ]
  · intro i hi j hj
    have : i = 0 := by simpa [matProd, Mat.mul, Mat.of] using hi
    have hj : j = 0 := by simpa [matProd, Mat.mul, Mat.of] using hj
    subst this; subst hj
    exact hz

/-! ### Non-vacuity for C10, C11: a batched left vector against a list of rectangular matrices -/

/-- batch of two vectors of length 2 against one 2 x 3 and one 3 x 1 matrix -/
example : let v : Tensor ℝ := ⟨[2, 2], fun idx => (idx.getD 1 0 : ℝ) + 1⟩
    let m : Tensor ℝ := ⟨[2, 3], fun _ => 1⟩
    let m' : Tensor ℝ := ⟨[1, 3, 1], fun _ => 1⟩
    WellRanked (.seq [m, m']) (some v) none ∧
    IsBroadcast (batchShapes (.seq [m, m']) (some v) none) [2] ∧
    (∃ a l, chainAt (.seq [m, m']) (some v) none [1] = a :: l ∧ ChainOK (a :: l) ∧
      ¬ IsZero (matProd a l)) := by
  intro v m m'
  refine ⟨⟨?_, ?_, ?_⟩, ?_, ?_⟩
  · intro t ht
    simp at ht
    rcases ht with rfl | rfl <;> simp [m, m', Tensor.ndim]
  · rintro _ ⟨⟩; simp [v, Tensor.ndim]
  · simp
  · rw [← shapeBroadcast_ok_iff]; rfl
  · have hm : matsAt (.seq [m, m']) [1] = [Mat.of 2 3 (fun _ _ => 1), Mat.of 3 1 (fun _ _ => 1)] := by
      simp [matsAt, nonBatchShape, m, m', Tensor.ndim]
    refine ⟨_, _, by simp only [chainAt, hm]; rfl, ?_, ?_⟩
    · simp [ChainOK, rowAt, Mat.of, v]
    · intro h
      have := h 0 (by simp [matProd, Mat.mul, rowAt, Mat.of]) 0 (by simp [matProd, Mat.mul, Mat.of])
      simp [matProd, Mat.mul, rowAt, Mat.of, v, Finset.sum_range_succ, batchShape, Tensor.ndim,
        sourceIndex] at this
      norm_num at this

end TorchMPS
