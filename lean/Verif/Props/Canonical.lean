import Verif.Lemmas.Canonical
import Verif.Props.Slim
import Verif.Props.ContractEmpty
import Verif.Props.Reduce
import Mathlib.LinearAlgebra.Matrix.Determinant.Basic
import Mathlib.Tactic.IntervalCases
/-
C76: the scale of the log-format outputs.
-/
namespace TorchMPS
open Spec
variable {K : Type}

/-- C76, sequential evaluation. With at least two factors and a non-zero product `A`, `contract_matseq` returns `A / S` and `log S` with
`S = Σ |A_ij| / sqrt(rows * columns)`. -/
theorem C76_sequential [RCLike K] (ms : TensorSeq K) (lv rv : Option (Tensor K)) (par : Bool)
    (B : Shape) (hw : WellRanked ms lv rv) (hB : IsBroadcast (batchShapes ms lv rv) B)
    (m0 : Mat K) (rest0 : List (Mat K)) (h0 : chainAt ms lv rv [] = m0 :: rest0)
    (hchain : ChainOK (m0 :: rest0)) (hempty : EmptyFits ms lv rv) (hpar : ¬ UsesParallel ms lv rv par) (hlong : rest0 ≠ []) :
    ∃ out, contractMatseq ms lv rv par = .ok out ∧
      ∀ b, InRange b B → ∃ m rest, chainAt ms lv rv b = m :: rest ∧ (¬ IsZero (matProd m rest) →
        0 < seqScale (matProd m rest) ∧
        out.logScale.get (outIndex lv rv b 0 0) = some (Real.log (seqScale (matProd m rest))) ∧
        ∀ i < (matProd m rest).r, ∀ j < (matProd m rest).c, out.product.get (outIndex lv rv b i j) =
          some ((matProd m rest).e i j / (seqScale (matProd m rest) : K))) := by
  classical
  obtain ⟨out, h1, -, -, h4⟩ := contractMatseq_spec ms lv rv par B hw hB m0 rest0 h0 hchain hempty
  refine ⟨out, h1, fun b hb => ?_⟩
  obtain ⟨m, rest, val, k1, k2, k3, k4, k5, k6, k7, keval, k8, k9⟩ := h4 b hb
  refine ⟨m, rest, k1, fun hz => ?_⟩
  have hlen : rest ≠ [] := by
    intro h
    have e1 : (chainAt ms lv rv b).length = (chainAt ms lv rv []).length := by
      unfold chainAt
      have : (matsAt ms b).length = (matsAt ms []).length := by
        cases ms with
        | single t => unfold matsAt; simp only; split <;> simp
        | seq ts => simp [matsAt]
      cases lv <;> cases rv <;> simp [this]
    rw [k1, h0, h] at e1
    simp only [List.length_cons, List.length_nil] at e1
    exact hlong (List.eq_nil_of_length_eq_zero (by omega))
  unfold evalAt at keval
  rw [if_neg hpar] at keval
  have hch : (lv.map (rowAt · b)).toList ++ matsAt ms b ++ (rv.map (colAt · b)).toList = m :: rest := k1
  rw [hch] at keval
  simp only at keval
  cases hv : val with
  | none => exact absurd ((k9 hpar).1 hv).2 hz
  | some p =>
    obtain ⟨P, s⟩ := p
    rw [hv] at keval k5 k6
    have hPs := k7 P s hv
    obtain ⟨d1, d2⟩ := absSum_smul_pos P _ s hPs
    have ha := matReduceSeq_absSum m rest hlen P s keval.symm
    rw [d1, d2] at ha
    have hq : 0 < Real.sqrt (((matProd m rest).r * (matProd m rest).c : ℕ) : ℝ) := by
      refine Real.sqrt_pos.2 ?_
      have : (matProd m rest).r * (matProd m rest).c ≠ 0 := by
        intro h
        refine hz fun i hi j hj => ?_
        rcases Nat.mul_eq_zero.1 h with h | h <;> omega
      exact_mod_cast Nat.pos_of_ne_zero this
    obtain ⟨e1, e2, e3⟩ := scale_of_mantissa P _ s _ hq ha hPs
    have hS : (matProd m rest).absSum / Real.sqrt (((matProd m rest).r * (matProd m rest).c : ℕ) : ℝ) = seqScale (matProd m rest) := by
      unfold seqScale; rw [entrySum_eq]; push_cast; rfl
    rw [hS] at e1 e2 e3
    refine ⟨e1, by rw [k6 0 0, e2]; rfl, fun i hi j hj => ?_⟩
    have hr1 : (matProd m rest).r = m.r := by
      clear * -
      induction rest generalizing m with
      | nil => rfl
      | cons a l ih => rw [matProd_cons, ih]; rfl
    rw [k5 i j ?_ ?_, ← e3 i j]
    · rfl
    · intro hl
      obtain ⟨v, rfl⟩ := Option.ne_none_iff_exists'.1 hl
      simp only [chainAt, Option.map_some, Option.toList_some, List.cons_append, List.nil_append, List.append_assoc, List.cons.injEq] at k1
      rw [hr1, ← k1.1] at hi
      simp only [rowAt, Mat.of] at hi
      omega
    · intro hr
      obtain ⟨v, rfl⟩ := Option.ne_none_iff_exists'.1 hr
      rw [matProd_c] at hj
      have : (m :: rest).getLast? = some (colAt v b) := by rw [← k1]; simp [chainAt]
      have e := List.getLast?_eq_getLast_of_ne_nil (l := m :: rest) (by simp)
      rw [this, Option.some.injEq] at e
      rw [← e] at hj
      simp only [colAt, Mat.of] at hj
      omega

theorem entrySum_ofReal_div [RCLike K] (A : Mat K) (S : ℝ) (hS : 0 < S) :
    ∑ i ∈ Finset.range A.r, ∑ j ∈ Finset.range A.c, ‖A.e i j / (S : K)‖ = entrySum A / S := by
  unfold entrySum
  simp only [div_eq_mul_inv, norm_mul, norm_inv, RCLike.norm_ofReal, abs_of_pos hS, Finset.sum_mul]

/-- C76, sequential evaluation: whatever the number and the size of the factors, the absolute values of the entries of the returned product add
up to `sqrt(rows * columns)`; in particular a scalar result has absolute value 1. -/
theorem C76_sequential_range [RCLike K] (ms : TensorSeq K) (lv rv : Option (Tensor K)) (par : Bool)
    (B : Shape) (hw : WellRanked ms lv rv) (hB : IsBroadcast (batchShapes ms lv rv) B)
    (m0 : Mat K) (rest0 : List (Mat K)) (h0 : chainAt ms lv rv [] = m0 :: rest0)
    (hchain : ChainOK (m0 :: rest0)) (hempty : EmptyFits ms lv rv) (hpar : ¬ UsesParallel ms lv rv par) (hlong : rest0 ≠ []) :
    ∃ out, contractMatseq ms lv rv par = .ok out ∧
      ∀ b, InRange b B → ∃ m rest, chainAt ms lv rv b = m :: rest ∧ (¬ IsZero (matProd m rest) →
        ∃ p : ℕ → ℕ → K, (∀ i < m0.r, ∀ j < ((m0 :: rest0).getLast (by simp)).c, out.product.get (outIndex lv rv b i j) = some (p i j)) ∧
          ∑ i ∈ Finset.range m0.r, ∑ j ∈ Finset.range ((m0 :: rest0).getLast (by simp)).c, ‖p i j‖ =
            Real.sqrt (m0.r * ((m0 :: rest0).getLast (by simp)).c)) := by
  obtain ⟨out, h1, h2⟩ := C76_sequential ms lv rv par B hw hB m0 rest0 h0 hchain hempty hpar hlong
  obtain ⟨out', h1', -, -, h4⟩ := contractMatseq_spec ms lv rv par B hw hB m0 rest0 h0 hchain hempty
  refine ⟨out, h1, fun b hb => ?_⟩
  obtain ⟨m, rest, val, k1, k2, k3, k4, -⟩ := h4 b hb
  obtain ⟨m', rest', k1', hh⟩ := h2 b hb
  rw [k1] at k1'
  simp only [List.cons.injEq] at k1'
  obtain ⟨rfl, rfl⟩ := k1'
  refine ⟨m, rest, k1, fun hz => ?_⟩
  obtain ⟨e1, e2, e3⟩ := hh hz
  have hr : (matProd m rest).r = m0.r := by rw [matProd_r, k2]
  have hc : (matProd m rest).c = ((m0 :: rest0).getLast (by simp)).c := by rw [matProd_c, k4]
  refine ⟨fun i j => (matProd m rest).e i j / (seqScale (matProd m rest) : K), ?_, ?_⟩
  · intro i hi j hj
    exact e3 i (by rw [hr]; exact hi) j (by rw [hc]; exact hj)
  · rw [← hr, ← hc, entrySum_ofReal_div _ _ e1]
    unfold seqScale at e1 ⊢
    have hE : entrySum (matProd m rest) ≠ 0 := fun h => by rw [h, zero_div] at e1; exact lt_irrefl _ e1
    have hq : Real.sqrt ((matProd m rest).r * (matProd m rest).c) ≠ 0 := fun h => by rw [h, div_zero] at e1; exact lt_irrefl _ e1
    field_simp

theorem parallel_dims [RCLike K] (ms : TensorSeq K) (lv rv : Option (Tensor K)) (par : Bool) (hw : WellRanked ms lv rv)
    (hp : UsesParallel ms lv rv par) (b : List ℕ) (y z : Mat K) (l : List (Mat K)) (hm : matsAt ms b = y :: z :: l) (hyz : y.c = z.r) :
    ∀ a ∈ y :: z :: l, a.r = y.c ∧ a.c = y.c := by
  have key : ∃ r c, ∀ a ∈ matsAt ms b, a.r = r ∧ a.c = c := by
    cases ms with
    | single t =>
      obtain ⟨n, r, c, h3⟩ := exists_three t hw.1
      refine ⟨r, c, fun a ha => ?_⟩
      have := matsAt_single_dims t h3 b
      have h4 : (a.r, a.c) ∈ (matsAt (.single t) b).map (fun m => (m.r, m.c)) := List.mem_map.2 ⟨a, ha, rfl⟩
      rw [this] at h4
      have := List.eq_of_mem_replicate h4
      simpa using this
    | seq ts =>
      have hne := hp.1.1
      obtain ⟨t0, ht0⟩ := List.exists_mem_of_ne_nil _ hne
      obtain ⟨r, c, h2⟩ := exists_two t0 (hw.1 t0 ht0)
      refine ⟨r, c, fun a ha => ?_⟩
      rw [matsAt_seq] at ha
      obtain ⟨t, ht, rfl⟩ := List.mem_map.1 ha
      have hs : nonBatchShape t 2 = [r, c] := by
        rw [← h2]; unfold nonBatchShape
        simp only [Tensor.ndim, hp.1.2 t ht t0 ht0]
      simp only [hs]
      exact ⟨rfl, rfl⟩
  obtain ⟨r, c, key⟩ := key
  rw [hm] at key
  have h1 := key y (by simp)
  have h2 := key z (by simp)
  have : r = c := by rw [← h2.1, ← hyz, h1.2]
  intro a ha
  obtain ⟨h3, h4⟩ := key a ha
  exact ⟨by rw [h3, h1.2, this], by rw [h4, h1.2]⟩

/-- C76, parallel evaluation. With at least two matrices whose product `Q` (without the boundary vectors) is not zero, `contract_matseq` returns
`A / S` and `log S`, where `A` is the whole product and `S = Σ |Q_ij| / D`. -/
theorem C76_parallel [RCLike K] (ms : TensorSeq K) (lv rv : Option (Tensor K)) (par : Bool)
    (B : Shape) (hw : WellRanked ms lv rv) (hB : IsBroadcast (batchShapes ms lv rv) B)
    (m0 : Mat K) (rest0 : List (Mat K)) (h0 : chainAt ms lv rv [] = m0 :: rest0)
    (hchain : ChainOK (m0 :: rest0)) (hempty : EmptyFits ms lv rv) (hpar : UsesParallel ms lv rv par) :
    ∃ out, contractMatseq ms lv rv par = .ok out ∧
      ∀ b, InRange b B → ∃ m rest, chainAt ms lv rv b = m :: rest ∧
        ∀ y z l, matsAt ms b = y :: z :: l → ¬ IsZero (matProd y (z :: l)) →
        0 < parScale (matProd y (z :: l)) ∧
        out.logScale.get (outIndex lv rv b 0 0) = some (Real.log (parScale (matProd y (z :: l)))) ∧
        ∀ i < (matProd m rest).r, ∀ j < (matProd m rest).c, out.product.get (outIndex lv rv b i j) =
          some ((matProd m rest).e i j / (parScale (matProd y (z :: l)) : K)) := by
  classical
  obtain ⟨out, h1, -, -, h4⟩ := contractMatseq_spec ms lv rv par B hw hB m0 rest0 h0 hchain hempty
  refine ⟨out, h1, fun b hb => ?_⟩
  obtain ⟨m, rest, val, k1, k2, k3, k4, k5, k6, k7, keval, k8, k9⟩ := h4 b hb
  refine ⟨m, rest, k1, fun y z l hm hz => ?_⟩
  have hyz : y.c = z.r := by
    have hc := (chainOK_iff _).1 k3
    rw [← k1, chainAt, hm, List.append_assoc] at hc
    have := (List.isChain_append.1 hc).2.1
    simp only [List.cons_append, List.isChain_cons_cons] at this
    exact this.1
  have hd := parallel_dims ms lv rv par hw hpar b y z l hm hyz
  unfold evalAt at keval
  rw [if_pos hpar, hm] at keval
  simp only at keval
  obtain ⟨q1, q2⟩ := matReducePar_spec y.c y (z :: l) (fun _ => hd)
  cases hq : matReducePar y.c (y :: z :: l) with
  | none => exact absurd (q1.1 hq).2 hz
  | some p =>
    obtain ⟨Q, s⟩ := p
    rw [hq] at keval
    simp only at keval
    have hQ := q2 Q s hq
    have hloop : parLoop y.c (y :: z :: l) 0 = some (Q, s) := hq
    have habs := parLoop_absSum y.c _ (y :: z :: l) 0 rfl (by simp) Q s hloop
    have hcc : (matProd y (z :: l)).c = y.c := by
      rw [matProd_c]; exact (hd _ (List.getLast_mem _)).2
    have hD : (0 : ℝ) < y.c := by
      have : y.c ≠ 0 := by
        intro h
        refine hz fun i hi j hj => ?_
        rw [hcc] at hj
        omega
      exact_mod_cast Nat.pos_of_ne_zero this
    obtain ⟨e1, e2, e3⟩ := scale_of_mantissa Q _ s _ hD habs hQ
    have hS : (matProd y (z :: l)).absSum / (y.c : ℝ) = parScale (matProd y (z :: l)) := by
      unfold parScale; rw [entrySum_eq, hcc]
    rw [hS] at e1 e2 e3
    rw [keval] at k5 k6
    refine ⟨e1, by rw [k6 0 0, e2]; rfl, fun i hi j hj => ?_⟩
    have hPs := k7 _ s keval
    have hexp : Real.exp s = parScale (matProd y (z :: l)) := by rw [e2, Real.exp_log e1]
    rw [k5 i j ?_ ?_]
    · rw [← hPs, hexp]
      have hne : (parScale (matProd y (z :: l)) : K) ≠ 0 := by exact_mod_cast e1.ne'
      simp only [Option.map_some, Mat.smul]
      congr 1
      field_simp
    · intro hl
      rw [matProd_r, chain_row ms lv rv b m rest k1 hl] at hi
      omega
    · intro hr
      rw [matProd_c, chain_col ms lv rv b m rest k1 hr] at hj
      omega

theorem absSum_rowMat [RCLike K] {D : ℕ} (v : Fin D → K) : (rowMat v).absSum = ∑ i, ‖v i‖ := by
  simp only [Mat.absSum, rowMat, ofMatrix, Finset.sum_range_one]
  rw [Finset.sum_range]
  refine Finset.sum_congr rfl fun i _ => ?_
  simp

/-- C76, slim evaluation. With at least one site and `v = leftᵀ M_1 ... M_T` not zero, `slim_eval_fun` returns `vᵀ right / S` and `log S` with
`S = Σ |v_i| / D`. -/
theorem C76_slim [RCLike K] (x : SeqInput K) (core bound : Tensor K) (B T d D : ℕ) (hD : D ≠ 0)
    (hx : ValidInput x B T d) (hc : CoreShape core T d D) (hb : bound.shape = [2, D]) (hT : 0 < T) :
    ∃ out, slimEvalFun x core bound = .ok out ∧
      ∀ b < B, ∀ v, v = Matrix.vecMul (boundVec bound D 0) (inputMats x core T d D b).prod → v ≠ 0 → ∀ S : ℝ, S = (∑ i, ‖v i‖) / D →
        0 < S ∧ out.logScale.get [b] = some (Real.log S) ∧
        out.product.get [b] = some (amplitude (boundVec bound D 0) (boundVec bound D 1) (inputMats x core T d D b) / (S : K)) := by
  obtain ⟨out, h1, -, -, h4⟩ := slimEvalFun_val x core bound B T d D hx hc hb (Or.inl hT)
  refine ⟨out, h1, fun b hb v hv hv0 S hS => ?_⟩
  obtain ⟨val, k1, k2, k3⟩ := h4 b hb
  have hne : (inputMats x core T d D b).map ofMatrix ≠ [] := by
    unfold inputMats
    rw [ne_eq, List.map_eq_nil_iff, List.map_eq_nil_iff, List.range_eq_nil]
    omega
  obtain ⟨q1, q2⟩ := slim_loop D hD (rowMat (boundVec bound D 0)) 0 ((inputMats x core T d D b).map ofMatrix)
  cases hq : ((inputMats x core T d D b).map ofMatrix).foldl (slimStep D) (some (rowMat (boundVec bound D 0), 0)) with
  | none =>
    have := (q1.1 hq).2
    rw [matProd_rowMat, isZero_rowMat, ← hv] at this
    exact absurd this hv0
  | some p =>
    obtain ⟨P, s⟩ := p
    rw [hq] at k3
    have hP := q2 P s hq
    rw [Real.exp_zero, RCLike.ofReal_one, Mat.one_smul] at hP
    have ha := slim_fold_absSum D hD _ _ _ P s hne hq
    have hD' : (0 : ℝ) < D := by exact_mod_cast Nat.pos_of_ne_zero hD
    obtain ⟨e1, e2, e3⟩ := scale_of_mantissa P _ s _ hD' ha hP
    have hSS : (matProd (rowMat (boundVec bound D 0)) ((inputMats x core T d D b).map ofMatrix)).absSum / (D : ℝ) = S := by
      rw [matProd_rowMat, absSum_rowMat, hS, hv]
    rw [hSS] at e1 e2 e3
    refine ⟨e1, by rw [k2, k3, e2]; rfl, ?_⟩
    rw [k1, k3, ← matProd_amplitude, ← hP]
    have hne : (S : K) ≠ 0 := by exact_mod_cast e1.ne'
    rw [Mat.smul_mul, e2, Real.exp_log e1]
    simp only [Option.map_some, Mat.smul]
    congr 1
    field_simp

/-- `n + 2` stacked 2 x 2 matrices `(1000, 0; 1, 1)`, with non-zero product -/
def hugeStack (n : ℕ) : Tensor ℝ := ⟨[n + 2, 2, 2], fun idx => if idx.getD 1 0 = 0 then (if idx.getD 2 0 = 0 then 1000 else 0) else 1⟩

/-- Concrete case for C76_parallel: products of any length. -/
example (n : ℕ) : WellRanked (.single (hugeStack n)) none none ∧ IsBroadcast (batchShapes (.single (hugeStack n)) none none) [] ∧
    EmptyFits (.single (hugeStack n)) none none ∧ UsesParallel (.single (hugeStack n)) none none false ∧
    ∃ y z l, matsAt (.single (hugeStack n)) [] = y :: z :: l ∧ chainAt (.single (hugeStack n)) none none [] = y :: z :: l ∧
      ChainOK (y :: z :: l) ∧ ¬ IsZero (matProd y (z :: l)) := by
  have hm : matsAt (.single (hugeStack n)) [] =
      (List.range (n + 2)).map (fun k => Mat.of 2 2 (fun i j => (hugeStack n).get ([] ++ [k, i, j]))) := rfl
  have hm2 : matsAt (.single (hugeStack n)) [] = List.replicate (n + 2) (ofMatrix !![(1000 : ℝ), 0; 1, 1]) := by
    rw [hm, List.eq_replicate_iff]
    refine ⟨by simp, fun a ha => ?_⟩
    obtain ⟨k, _, rfl⟩ := List.mem_map.1 ha
    refine Mat.ext' rfl rfl (funext fun i => funext fun j => ?_)
    simp only [Mat.of, ofMatrix, hugeStack]
    split
    · rename_i h
      obtain ⟨hi, hj⟩ := h
      interval_cases i <;> interval_cases j <;> simp
    · rfl
  refine ⟨⟨by simp [hugeStack, Tensor.ndim], by simp, by simp⟩, by rw [← shapeBroadcast_ok_iff]; rfl,
    fun h => by simp [hugeStack, Tensor.ndim] at h, ⟨trivial, Or.inr ⟨rfl, rfl⟩⟩, _, _, _, by rw [hm2]; rfl, ?_, ?_, ?_⟩
  · unfold chainAt; rw [hm2]; simp [List.replicate_succ]
  · rw [chainOK_iff, ← List.replicate_succ, ← List.replicate_succ]
    rw [List.isChain_iff_getElem]
    simp [ofMatrix]
  · intro h
    obtain ⟨e1, e2, e3⟩ := ofMatrix_list_prod 2 !![(1000 : ℝ), 0; 1, 1] (List.replicate (n + 1) !![(1000 : ℝ), 0; 1, 1])
    rw [List.map_replicate] at e1 e2 e3
    rw [← List.replicate_succ, isZero_iff_toMatrix, e2, e3, e1, ← List.replicate_succ, List.prod_replicate] at h
    have h2 := congrArg Matrix.det h
    rw [Matrix.det_pow, Matrix.det_fin_two_of] at h2
    simp at h2

/-- Concrete case for C76_sequential: a 1 x 2 and a 2 x 1 matrix of ones, evaluated sequentially as their shapes differ. -/
example : let ms : TensorSeq ℝ := .seq [⟨[1, 2], fun _ => 1⟩, ⟨[2, 1], fun _ => 1⟩]
    WellRanked ms none none ∧ IsBroadcast (batchShapes ms none none) [] ∧ EmptyFits ms none none ∧ (∀ par, ¬ UsesParallel ms none none par) ∧
    ∃ y z, chainAt ms none none [] = [y, z] ∧ ChainOK [y, z] ∧ ¬ IsZero (matProd y [z]) := by
  intro ms
  refine ⟨⟨?_, by simp, by simp⟩, by rw [← shapeBroadcast_ok_iff]; rfl, ?_, ?_, _, _, rfl, ⟨rfl, trivial⟩, ?_⟩
  · intro t ht
    simp only [List.mem_cons, List.not_mem_nil, or_false] at ht
    rcases ht with rfl | rfl <;> simp [Tensor.ndim]
  · trivial
  · rintro par ⟨⟨-, h⟩, -⟩
    have := h ⟨[1, 2], fun _ => 1⟩ (by simp) ⟨[2, 1], fun _ => 1⟩ (by simp)
    simp at this
  · intro h
    have := h 0 (by simp [matProd, Mat.of, Mat.mul, nonBatchShape, Tensor.ndim]) 0 (by simp [matProd, Mat.of, Mat.mul, nonBatchShape, Tensor.ndim])
    simp [matProd, Mat.of, Mat.mul, nonBatchShape, Tensor.ndim, Finset.sum_range_succ] at this

end TorchMPS
