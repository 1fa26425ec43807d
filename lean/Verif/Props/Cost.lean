import Verif.Lemmas.Cost
import Verif.Props.Autodiff
/-
C102: the work done by `contract_matseq`.
-/
namespace TorchMPS
open Spec

theorem matOf_idle (r c : ℕ) (f : ℕ → ℕ → Work) (h : ∀ i j, f i j = 0) : ∀ i j, (Mat.of r c f).e i j = 0 := by
  intro i j
  simp only [Mat.of]
  split
  · exact h i j
  · rfl

theorem matsAt_idle {ms : TensorSeq Work} (hz : NoWorkSeq ms) (b : List ℕ) : ∀ x ∈ matsAt ms b, ∀ i j, x.e i j = 0 := by
  intro x hx
  cases ms with
  | single t =>
    simp only [matsAt] at hx
    split at hx
    · obtain ⟨k, -, rfl⟩ := List.mem_map.1 hx
      exact matOf_idle _ _ _ (fun i j => hz _)
    · simp at hx
  | seq ts =>
    simp only [matsAt] at hx
    obtain ⟨t, ht, rfl⟩ := List.mem_map.1 hx
    split
    · exact matOf_idle _ _ _ (fun i j => hz t ht _)
    · exact matOf_idle _ _ _ (fun i j => rfl)

theorem chainAt_idle {ms : TensorSeq Work} {lv rv : Option (Tensor Work)} (hz : NoWorkSeq ms) (hl : ∀ v ∈ lv, NoWork v) (hr : ∀ v ∈ rv, NoWork v)
    (b : List ℕ) : ∀ x ∈ chainAt ms lv rv b, ∀ i j, x.e i j = 0 := by
  intro x hx
  simp only [chainAt, List.mem_append, Option.mem_toList, Option.map_eq_some_iff] at hx
  rcases hx with (⟨v, hv, rfl⟩ | hx) | ⟨v, hv, rfl⟩
  · exact matOf_idle _ _ _ (fun i j => hl v hv _)
  · exact matsAt_idle hz b x hx
  · exact matOf_idle _ _ _ (fun i j => hr v hv _)

theorem matsAt_sizes (ms : TensorSeq Work) (b b' : List ℕ) : (matsAt ms b).map (fun m => (m.r, m.c)) = (matsAt ms b').map (fun m => (m.r, m.c)) := by
  cases ms with
  | single t =>
    simp only [matsAt]
    split
    · rw [List.map_map, List.map_map]; rfl
    · rfl
  | seq ts =>
    simp only [matsAt, List.map_map]
    refine List.map_congr_left (fun t _ => ?_)
    simp only [Function.comp]
    split <;> rfl

theorem chainAt_sizes (ms : TensorSeq Work) (lv rv : Option (Tensor Work)) (b b' : List ℕ) :
    (chainAt ms lv rv b).map (fun m => (m.r, m.c)) = (chainAt ms lv rv b').map (fun m => (m.r, m.c)) := by
  simp only [chainAt, List.map_append, matsAt_sizes ms b b']
  cases lv <;> cases rv <;> rfl

theorem chainSizes_congr {m m' : Mat Work} {l l' : List (Mat Work)} (h : (m :: l).map (fun m => (m.r, m.c)) = (m' :: l').map (fun m => (m.r, m.c))) :
    chainSizes m l = chainSizes m' l' := by
  have h1 : m.r = m'.r := by
    simp only [List.map_cons, List.cons.injEq, Prod.mk.injEq] at h; exact h.1.1
  have h2 := congrArg (List.map Prod.snd) h
  rw [List.map_map, List.map_map] at h2
  simp only [chainSizes, h1]
  congr 1

/-- C102, sequential evaluation. Without the parallel algorithm, `contract_matseq` multiplies all factors (boundary vectors included) one after the other,
either from the left or from the right: from the right exactly when the product has fewer columns than rows. The number of multiplications per batch element is
that of the chosen direction. -/
theorem C102_sequential (ms : TensorSeq Work) (lv rv : Option (Tensor Work)) (par : Bool) (B : Shape) (hz : NoWorkSeq ms) (hl : ∀ v ∈ lv, NoWork v)
    (hr : ∀ v ∈ rv, NoWork v) (hw : WellRanked ms lv rv) (hB : IsBroadcast (batchShapes ms lv rv) B) (m0 : Mat Work) (rest0 : List (Mat Work))
    (h0 : chainAt ms lv rv [] = m0 :: rest0) (hchain : ChainOK (m0 :: rest0)) (hempty : EmptyFits ms lv rv) (hseq : ¬ UsesParallel ms lv rv par) :
    ∃ out, costOps.contractMatseq ms lv rv par = .ok out ∧
      ∀ b, InRange b B → ∀ i < m0.r, ∀ j < ((m0 :: rest0).getLast (by simp)).c, out.product.get (outIndex lv rv b i j) =
        some (if ((m0 :: rest0).getLast (by simp)).c < m0.r then rightCost (chainSizes m0 rest0) else leftCost (chainSizes m0 rest0), rest0.length) := by
  obtain ⟨out, ho, -, -, hv⟩ := costOps.contractMatseq_gen ms lv rv par B hw hB m0 rest0 h0 hchain hempty
  refine ⟨out, ho, ?_⟩
  intro b hb i hi j hj
  obtain ⟨m, rest, val, c1, c2, c3, c4, c5, c6, c7⟩ := hv b hb
  have hs := chainAt_sizes ms lv rv b []
  rw [c1, h0] at hs
  have hij := entry_range c1 i j (c2 ▸ hi) (c4 ▸ hj)
  rw [c5 i j hij.1 hij.2, c7]
  unfold Arith.evalOne
  rw [if_neg hseq]
  have c1' : (lv.map (rowAt · b)).toList ++ matsAt ms b ++ (rv.map (colAt · b)).toList = m :: rest := c1
  rw [c1']
  have hidle := chainAt_idle hz hl hr b
  rw [c1] at hidle
  obtain ⟨Q, q1, q2, q3⟩ := cost_reduceSeq m rest (fun x hx => hidle x hx 0 0) c3
  have hlen : rest.length = rest0.length := by
    have := congrArg List.length hs
    simpa using this
  simp only
  rw [q1, Option.map_some, Option.some.injEq]
  simp only
  by_cases hr0 : rest = []
  · rw [q2 hr0, hidle m (by simp)]
    have hr00 : rest0 = [] := by rw [hr0] at hlen; simpa using hlen.symm
    subst hr00
    have e1 : rightCost (chainSizes m0 []) = 0 := by simp [chainSizes, rightCost, leftCost, rowCost]
    have e2 : leftCost (chainSizes m0 []) = 0 := by simp [chainSizes, leftCost, rowCost]
    rw [e1, e2, ite_self]
    rfl
  · rw [q3 hr0, chainSizes_congr hs, c4, c2, hlen]

/-- C102, parallel evaluation. The parallel algorithm, for `n` matrices of size `D × D`, takes `(n - 1) * D³` multiplications for the products of matrices and
then those for applying the boundary vectors, in `⌈log₂ n⌉` rounds of simultaneous products and one more product for each boundary vector. -/
theorem C102_parallel (ms : TensorSeq Work) (lv rv : Option (Tensor Work)) (par : Bool) (B : Shape) (hz : NoWorkSeq ms) (hl : ∀ v ∈ lv, NoWork v)
    (hr : ∀ v ∈ rv, NoWork v) (hw : WellRanked ms lv rv) (hB : IsBroadcast (batchShapes ms lv rv) B) (m0 : Mat Work) (rest0 : List (Mat Work))
    (h0 : chainAt ms lv rv [] = m0 :: rest0) (hchain : ChainOK (m0 :: rest0)) (hne : matsAt ms [] ≠ []) (hpar : UsesParallel ms lv rv par)
    (D : ℕ) (hD : ∀ x ∈ matsAt ms [], x.r = D ∧ x.c = D) :
    ∃ out, costOps.contractMatseq ms lv rv par = .ok out ∧
      ∀ b, InRange b B → ∀ i < m0.r, ∀ j < ((m0 :: rest0).getLast (by simp)).c, out.product.get (outIndex lv rv b i j) =
        some (((matsAt ms []).length - 1) * D ^ 3 + vecCost D lv rv, Nat.clog 2 (matsAt ms []).length + vecCount lv rv) := by
  obtain ⟨out, ho, -, -, hv⟩ := costOps.contractMatseq_gen ms lv rv par B hw hB m0 rest0 h0 hchain (emptyFits_of_ne hw hne)
  refine ⟨out, ho, ?_⟩
  intro b hb i hi j hj
  obtain ⟨m, rest, val, c1, c2, c3, c4, c5, c6, c7⟩ := hv b hb
  have hij := entry_range c1 i j (c2 ▸ hi) (c4 ▸ hj)
  rw [c5 i j hij.1 hij.2, c7]
  unfold Arith.evalOne
  rw [if_pos hpar]
  have hlen := matsAt_length ms b []
  have hidle := matsAt_idle hz b
  have hDb : ∀ x ∈ matsAt ms b, x.r = D ∧ x.c = D := by
    intro x hx
    have hs := matsAt_sizes ms b []
    have : (x.r, x.c) ∈ (matsAt ms []).map (fun m => (m.r, m.c)) := hs ▸ List.mem_map_of_mem hx
    obtain ⟨y, hy, e⟩ := List.mem_map.1 this
    simp only [Prod.mk.injEq] at e
    rw [← e.1, ← e.2]; exact hD y hy
  have hneb : matsAt ms b ≠ [] := by
    intro h; apply hne; rw [h] at hlen; simpa using hlen.symm
  obtain ⟨Q, q1, q2, q3, q4, q5, q6⟩ := cost_reducePar D (Arith.evalOne.match_1 (fun _ => ℕ) (matsAt ms b) (fun _ => lastAxis ms) (fun m _ => m.c)) (matsAt ms b) hneb
    (fun x hx => ⟨hidle x hx 0 0, hDb x hx⟩)
  have hQ : ∀ i j, Q.e i j = Q.work := by
    rcases Nat.lt_or_ge 1 (matsAt ms b).length with h | h
    · exact q5 h
    · have h1 := q4 (by have := List.length_pos_iff.2 hneb; omega)
      intro i j
      have := hidle Q (by rw [h1]; simp)
      rw [this i j]; exact (this 0 0).symm
  simp only
  rw [q1]
  simp only
  rw [hlen] at q6
  cases lv with
  | none =>
    cases rv with
    | none => simp only [Option.map_none, Option.map_some, hQ, q6, vecCost, vecCount]; simp
    | some w =>
      have hww : (colAt w b).work = 0 := matOf_idle _ _ _ (fun i j => hr w rfl _) 0 0
      simp only [Option.map_none, Option.map_some, vecCost, vecCount, costOps, hww, q6, q2, q3]
      have : (colAt w b).c = 1 := rfl
      simp [this]; ring
  | some v =>
    have hvw : (rowAt v b).work = 0 := matOf_idle _ _ _ (fun i j => hl v rfl _) 0 0
    have hr1 : (rowAt v b).r = 1 := rfl
    have hvc : (rowAt v b).c = D := by
      rcases hx : matsAt ms b with _ | ⟨x, xs⟩
      · exact absurd hx hneb
      have c3' := c3
      rw [← c1] at c3'
      simp only [chainAt, Option.map_some, Option.toList_some, hx, List.cons_append, List.nil_append] at c3'
      rw [c3'.1]; exact (hDb x (by simp [hx])).1
    cases rv with
    | none =>
      simp only [Option.map_none, Option.map_some, vecCost, vecCount, costOps, hvw, q6, q2, q3, hr1, hvc]
      simp; ring
    | some w =>
      have hww : (colAt w b).work = 0 := matOf_idle _ _ _ (fun i j => hr w rfl _) 0 0
      have : (colAt w b).c = 1 := rfl
      have hwork : ∀ (r c : ℕ) (x : Work), (Mat.mk r c (fun _ _ => x)).work = x := fun _ _ _ => rfl
      simp only [Option.map_some, vecCost, vecCount, costOps, hvw, hww, q6, q2, q3, hr1, hvc, this, hwork]
      simp; ring

theorem rowCost_replicate (r D : ℕ) : ∀ n, rowCost r (List.replicate (n + 1) D) = n * (r * D ^ 2)
  | 0 => by simp [rowCost]
  | n + 1 => by
    have ih := rowCost_replicate r D n
    rw [List.replicate_succ] at ih
    rw [List.replicate_succ, List.replicate_succ, rowCost, ih]
    ring

theorem rowCost_append (r D x : ℕ) : ∀ n, rowCost r (List.replicate (n + 1) D ++ [x]) = n * (r * D ^ 2) + r * D * x
  | 0 => by simp [rowCost]
  | n + 1 => by
    have ih := rowCost_append r D x n
    rw [List.replicate_succ, List.cons_append] at ih
    rw [List.replicate_succ, List.replicate_succ, List.cons_append, List.cons_append, rowCost, ih]
    ring

/-- C102, which direction. When all matrices but the first and the last have the same number `D` of rows and columns, the direction chosen by the sequential
algorithm is the one which takes fewer multiplications. -/
theorem C102_direction (d₀ d₁ D k : ℕ) :
    (if d₁ < d₀ then rightCost (d₀ :: (List.replicate (k + 1) D ++ [d₁])) else leftCost (d₀ :: (List.replicate (k + 1) D ++ [d₁]))) =
      min (leftCost (d₀ :: (List.replicate (k + 1) D ++ [d₁]))) (rightCost (d₀ :: (List.replicate (k + 1) D ++ [d₁]))) := by
  have h1 : leftCost (d₀ :: (List.replicate (k + 1) D ++ [d₁])) = k * (d₀ * D ^ 2) + d₀ * D * d₁ := by
    rw [leftCost, rowCost_append]
  have h2 : rightCost (d₀ :: (List.replicate (k + 1) D ++ [d₁])) = k * (d₁ * D ^ 2) + d₁ * D * d₀ := by
    rw [rightCost, List.reverse_cons, List.reverse_append, List.reverse_replicate]
    simp only [List.reverse_cons, List.reverse_nil, List.nil_append, List.cons_append, leftCost]
    rw [rowCost_append]
  have e : d₁ * D * d₀ = d₀ * D * d₁ := by ring
  rw [h1, h2, e]
  split
  · rename_i h
    rw [min_eq_right]
    exact Nat.add_le_add_right (Nat.mul_le_mul_left _ (Nat.mul_le_mul_right _ h.le)) _
  · rename_i h
    rw [min_eq_left]
    exact Nat.add_le_add_right (Nat.mul_le_mul_left _ (Nat.mul_le_mul_right _ (not_lt.1 h))) _

/-- C102, which direction, in general: the comparison of the outer sizes (`if it's cheaper to multiply from right to left`) can take the wrong direction. For
matrices of sizes `2 × 100`, `100 × 1` and `1 × 1`, `contract_matseq` multiplies from the right, with 300 multiplications, where 202 were enough. -/
theorem C102_direction_wrong : ∃ out, costOps.contractMatseq (.seq [⟨[2, 100], fun _ => 0⟩, ⟨[100, 1], fun _ => 0⟩, ⟨[1, 1], fun _ => 0⟩]) none none false = .ok out ∧
    (∀ i < 2, out.product.get [i, 0] = some (300, 2)) ∧ leftCost [2, 100, 1, 1] = 202 := by
  obtain ⟨out, h1, h2⟩ := C102_sequential (.seq [⟨[2, 100], fun _ => 0⟩, ⟨[100, 1], fun _ => 0⟩, ⟨[1, 1], fun _ => 0⟩]) none none false []
    (by intro t ht idx; simp at ht; rcases ht with rfl | rfl | rfl <;> rfl) (by simp) (by simp)
    ⟨by intro t ht; simp at ht; rcases ht with rfl | rfl | rfl <;> simp [Tensor.ndim], by simp, by simp⟩
    (by rw [← shapeBroadcast_ok_iff]; rfl) (Mat.of 2 100 (fun _ _ => 0)) [Mat.of 100 1 (fun _ _ => 0), Mat.of 1 1 (fun _ _ => 0)] rfl
    (by simp [ChainOK, Mat.of]) trivial (by simp [UsesParallel])
  refine ⟨out, h1, ?_, rfl⟩
  intro i hi
  have := h2 [] (by simp [InRange]) i hi 0 (by simp [Mat.of])
  exact this

/-- C102, sequential against parallel. For `n ≥ 1` matrices of size `D × D` in one tensor and at least one boundary vector, the sequential algorithm (the default)
only multiplies vectors with matrices: `n * D²` multiplications (and `D` more if there are two vectors), one product after the other. The parallel algorithm
takes `(n - 1) * D³` more multiplications than for the vectors alone, never fewer than the sequential one, but in `⌈log₂ n⌉` rounds and one product for each vector,
never more than the sequential one. -/
theorem C102_tradeoff (t : Tensor Work) (lv rv : Option (Tensor Work)) (B : Shape) (n D : ℕ) (hn : 1 ≤ n) (hD : 1 ≤ D) (hz : NoWork t)
    (hl : ∀ v ∈ lv, NoWork v ∧ 1 ≤ v.ndim ∧ v.shape.getLastD 0 = D) (hr : ∀ v ∈ rv, NoWork v ∧ 1 ≤ v.ndim ∧ v.shape.getLastD 0 = D)
    (ht : 3 ≤ t.ndim) (hsh : nonBatchShape t 3 = [n, D, D]) (hB : IsBroadcast (batchShapes (.single t) lv rv) B) (hv : lv ≠ none ∨ rv ≠ none) :
    ∃ outS outP ws wp, costOps.contractMatseq (.single t) lv rv false = .ok outS ∧ costOps.contractMatseq (.single t) lv rv true = .ok outP ∧
      (∀ b, InRange b B → ∀ i < (if lv.isSome then 1 else D), ∀ j < (if rv.isSome then 1 else D),
        outS.product.get (outIndex lv rv b i j) = some ws ∧ outP.product.get (outIndex lv rv b i j) = some wp) ∧
      ws = (n * D ^ 2 + (if lv.isSome ∧ rv.isSome then D else 0), n + vecCount lv rv - 1) ∧
      wp = ((n - 1) * D ^ 3 + vecCost D lv rv, Nat.clog 2 n + vecCount lv rv) ∧ ws.1 ≤ wp.1 ∧ wp.2 ≤ ws.2 := by
  have hw : WellRanked (.single t) lv rv := ⟨ht, fun v hv => (hl v hv).2.1, fun v hv => (hr v hv).2.1⟩
  have hm := matsAt_single t hsh []
  have hlen : (matsAt (.single t) []).length = n := by rw [hm]; simp
  have hne : matsAt (.single t) [] ≠ [] := by intro h; rw [h] at hlen; simp at hlen; omega
  have hDD : ∀ x ∈ matsAt (.single t) [], x.r = D ∧ x.c = D := by
    rw [hm]; intro x hx
    obtain ⟨k, -, rfl⟩ := List.mem_map.1 hx
    exact ⟨rfl, rfl⟩
  rcases hc : chainAt (.single t) lv rv [] with _ | ⟨m0, rest0⟩
  · exfalso; apply hne
    simp only [chainAt, List.append_eq_nil_iff] at hc; exact hc.1.2
  have hsizes : (m0 :: rest0).map (fun m => (m.r, m.c)) = (lv.toList.map (fun _ => (1, D))) ++ List.replicate n (D, D) ++ (rv.toList.map (fun _ => (D, 1))) := by
    rw [← hc, chainAt, List.map_append, List.map_append]
    congr 1
    · congr 1
      · cases lv with
        | none => rfl
        | some v =>
          simp only [Option.map_some, Option.toList_some, List.map_cons, List.map_nil]
          rw [← (hl v rfl).2.2]; rfl
      · rw [List.eq_replicate_iff]
        refine ⟨by simp [hlen], ?_⟩
        intro p hp
        obtain ⟨x, hx, rfl⟩ := List.mem_map.1 hp
        rw [(hDD x hx).1, (hDD x hx).2]
    · cases rv with
      | none => rfl
      | some v =>
        simp only [Option.map_some, Option.toList_some, List.map_cons, List.map_nil]
        rw [← (hr v rfl).2.2]; rfl
  have hchain : ChainOK (m0 :: rest0) := by
    rw [chainOK_iff]
    have e : List.IsChain (fun a b : Mat Work => a.c = b.r) (m0 :: rest0) ↔
        List.IsChain (fun (p q : ℕ × ℕ) => p.2 = q.1) ((m0 :: rest0).map (fun m => (m.r, m.c))) := by rw [List.isChain_map]
    rw [e, hsizes]
    have hrep : List.IsChain (fun (p q : ℕ × ℕ) => p.2 = q.1) (List.replicate n (D, D)) := List.isChain_replicate_of_rel n rfl
    obtain ⟨k, rfl⟩ : ∃ k, n = k + 1 := ⟨n - 1, by omega⟩
    rw [List.isChain_append, List.isChain_append]
    refine ⟨⟨?_, hrep, ?_⟩, ?_, ?_⟩
    · cases lv <;> simp
    · intro x hx y hy
      rw [List.replicate_succ, List.head?_cons] at hy
      cases hy
      cases lv with
      | none => simp at hx
      | some v => simp at hx; rw [← hx]
    · cases rv <;> simp
    · intro x hx y hy
      rw [List.replicate_succ', ← List.append_assoc, List.getLast?_append, List.getLast?_singleton] at hx
      cases hx
      cases rv with
      | none => simp at hy
      | some v => simp at hy; rw [← hy]
  have hcs : chainSizes m0 rest0 = m0.r :: ((lv.toList.map (fun _ => D)) ++ List.replicate n D ++ (rv.toList.map (fun _ => 1))) := by
    have h2 := congrArg (List.map Prod.snd) hsizes
    rw [List.map_map] at h2
    have e : (Prod.snd ∘ fun m : Mat Work => (m.r, m.c)) = Mat.c := rfl
    rw [e] at h2
    rw [chainSizes, h2]
    simp only [List.map_append, List.map_map, List.map_replicate]
    rfl
  have hr0 : m0.r = if lv.isSome then 1 else D := by
    have h2 := congrArg (fun l => l.head?) hsizes
    obtain ⟨k, rfl⟩ : ∃ k, n = k + 1 := ⟨n - 1, by omega⟩
    cases lv <;> simp [List.replicate_succ] at h2 <;> simp [h2.1]
  have hlast : ((m0 :: rest0).getLast (by simp)).c = if rv.isSome then 1 else D := by
    have h2 := congrArg (fun l => l.getLast?.map Prod.snd) hsizes
    obtain ⟨k, rfl⟩ : ∃ k, n = k + 1 := ⟨n - 1, by omega⟩
    simp only [List.getLast?_map, List.getLast?_eq_getLast_of_ne_nil (l := m0 :: rest0) (by simp), Option.map_some, List.replicate_succ',
      List.getLast?_append, List.getLast?_singleton] at h2
    cases rv <;> simp at h2 <;> simp [h2]
  have hlenR : rest0.length = n + vecCount lv rv - 1 := by
    have h2 := congrArg List.length hsizes
    simp only [List.length_map, List.length_cons, List.length_append, List.length_replicate] at h2
    unfold vecCount
    omega
  have hzl : ∀ v ∈ lv, NoWork v := fun v hv => (hl v hv).1
  have hzr : ∀ v ∈ rv, NoWork v := fun v hv => (hr v hv).1
  have hns : ¬ UsesParallel (.single t) lv rv false := by
    rintro ⟨-, h | ⟨h1, h2⟩⟩
    · simp at h
    · rcases hv with h | h <;> contradiction
  obtain ⟨outS, s1, s2⟩ := C102_sequential (.single t) lv rv false B hz hzl hzr hw hB m0 rest0 hc hchain (emptyFits_of_ne hw hne) hns
  obtain ⟨outP, p1, p2⟩ := C102_parallel (.single t) lv rv true B hz hzl hzr hw hB m0 rest0 hc hchain hne ⟨trivial, Or.inl rfl⟩ D hDD
  have hcost : (if ((m0 :: rest0).getLast (by simp)).c < m0.r then rightCost (chainSizes m0 rest0) else leftCost (chainSizes m0 rest0)) =
      n * D ^ 2 + (if lv.isSome ∧ rv.isSome then D else 0) := by
    rw [hlast, hcs, hr0]
    obtain ⟨k, rfl⟩ : ∃ k, n = k + 1 := ⟨n - 1, by omega⟩
    cases lv with
    | none =>
      cases rv with
      | none => rcases hv with h | h <;> exact absurd rfl h
      | some w =>
        simp only [Option.isSome_none, Option.isSome_some, Option.toList_none, Option.toList_some, List.map_nil, List.map_cons, List.nil_append, if_true,
          Bool.false_eq_true, if_false, false_and]
        split
        · rw [rightCost]
          have e : (D :: (List.replicate (k + 1) D ++ [1])).reverse = 1 :: List.replicate (k + 2) D := by
            rw [← List.cons_append, ← List.replicate_succ, List.reverse_append, List.reverse_replicate]
            rfl
          rw [e, leftCost, rowCost_replicate]; ring
        · have : D = 1 := by omega
          subst this
          rw [leftCost, rowCost_append]; ring
    | some v =>
      cases rv with
      | none =>
        simp only [Option.isSome_none, Option.isSome_some, Option.toList_none, Option.toList_some, List.map_nil, List.map_cons, List.nil_append, if_true,
          Bool.false_eq_true, if_false, and_false, List.append_nil]
        rw [if_neg (by omega), List.singleton_append, ← List.replicate_succ, leftCost, rowCost_replicate]; ring
      | some w =>
        simp only [Option.isSome_some, Option.toList_some, List.map_nil, List.map_cons, if_true, and_self]
        rw [if_neg (by omega), List.singleton_append, ← List.replicate_succ, leftCost, rowCost_append]; ring
  refine ⟨outS, outP, _, _, s1, p1, ?_, rfl, rfl, ?_, ?_⟩
  · intro b hb i hi j hj
    have := s2 b hb i (hr0 ▸ hi) j (hlast ▸ hj)
    rw [hcost, hlenR] at this
    refine ⟨this, ?_⟩
    have := p2 b hb i (hr0 ▸ hi) j (hlast ▸ hj)
    rw [hlen] at this
    exact this
  · obtain ⟨k, rfl⟩ : ∃ k, n = k + 1 := ⟨n - 1, by omega⟩
    have h3 : k * D ^ 2 ≤ k * D ^ 3 := Nat.mul_le_mul_left _ (Nat.pow_le_pow_right hD (by omega))
    have e1 : (k + 1) * D ^ 2 = k * D ^ 2 + D ^ 2 := by ring
    simp only [Nat.add_sub_cancel, e1]
    cases lv <;> cases rv <;> simp [vecCost] at hv ⊢ <;> omega
  · have : Nat.clog 2 n ≤ n - 1 := by
      rw [Nat.clog_le_iff_le_pow (by omega)]
      have := Nat.lt_two_pow_self (n := n - 1)
      omega
    simp only
    omega

/-- C102 applies: a batch of two sequences of 100 matrices of size 20 × 20 with both boundary vectors takes 40020 multiplications in 101 steps one after the
other, or 792420 multiplications in 9 steps. -/
example : ∃ outS outP, costOps.contractMatseq (.single ⟨[2, 100, 20, 20], fun _ => 0⟩) (some ⟨[20], fun _ => 0⟩) (some ⟨[20], fun _ => 0⟩) false = .ok outS ∧
    costOps.contractMatseq (.single ⟨[2, 100, 20, 20], fun _ => 0⟩) (some ⟨[20], fun _ => 0⟩) (some ⟨[20], fun _ => 0⟩) true = .ok outP ∧
    ∀ b < 2, outS.product.get [b] = some (40020, 101) ∧ outP.product.get [b] = some (792420, 9) := by
  obtain ⟨outS, outP, ws, wp, h1, h2, h3, h4, h5, -, -⟩ := C102_tradeoff ⟨[2, 100, 20, 20], fun _ => 0⟩ (some ⟨[20], fun _ => 0⟩) (some ⟨[20], fun _ => 0⟩) [2]
    100 20 (by omega) (by omega) (fun _ => rfl) (by rintro v ⟨⟩; exact ⟨fun _ => rfl, by simp [Tensor.ndim], rfl⟩)
    (by rintro v ⟨⟩; exact ⟨fun _ => rfl, by simp [Tensor.ndim], rfl⟩) (by simp [Tensor.ndim]) rfl (by rw [← shapeBroadcast_ok_iff]; rfl) (Or.inl (by simp))
  refine ⟨outS, outP, h1, h2, ?_⟩
  intro b hb
  have := h3 [b] (by simpa [InRange] using hb) 0 (by simp) 0 (by simp)
  have hc : Nat.clog 2 100 = 7 := by decide +kernel
  rw [h4, h5] at this
  simpa [outIndex, vecCount, vecCost, hc] using this

end TorchMPS
