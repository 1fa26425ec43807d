import Verif.Lemmas.EvalSeq
import Verif.Lemmas.Rounded
import Verif.Model.Autodiff
/-
The matrix reductions and `contract_matseq` over an arbitrary arithmetic: exactness up to the scalars represented by the log scale, simulation of one
arithmetic by another, and the reduction of `contract_matseq` to its batch elements.
-/
namespace TorchMPS
open Spec
variable {K S : Type}

namespace Arith

theorem parPairs_eq (ops : Arith K S) : ∀ ms : List (Mat K), ops.parPairs ms = pairBy ops.mm ms
  | [] => by simp [Arith.parPairs, pairBy, everyOther]
  | [a] => by simp [Arith.parPairs, pairBy, everyOther]
  | a :: b :: l => by
    have ih := parPairs_eq ops l
    simp only [pairBy, ← ih, Arith.parPairs, List.length_cons]
    have h : (l.length + 1 + 1) / 2 * 2 = l.length / 2 * 2 + 2 := by omega
    rw [h]
    simp only [List.take_succ_cons, List.drop_succ_cons, everyOther, List.drop_zero, List.zipWith_cons_cons, List.cons_append]
    congr 1
    congr 1
    generalize l.take (l.length / 2 * 2) = l'
    cases l' with
    | nil => simp [everyOther]
    | cons c l' => cases l' <;> simp [everyOther]

theorem parLoop_step (ops : Arith K S) (D : ℕ) (ms : List (Mat K)) (l : S) (h : 1 < ms.length) :
    ops.parLoop D ms l = (ops.parStep D ms l).bind (fun p => ops.parLoop D p.1 p.2) := by
  rw [Arith.parLoop, dif_pos h]
  split <;> rename_i h <;> rw [h] <;> rfl

theorem seqStep_none (ops : Arith K S) (ms : List (Mat K)) : ms.foldl ops.seqStep none = none := by
  induction ms with
  | nil => rfl
  | cons m ms ih => exact ih

end Arith

/-! ### exactness -/

/-- The arithmetic is exact: `ex` is the scalar represented by a log scale and `sc` the one represented by a rescaling factor. -/
structure ExactArith [CommSemiring K] [Zero S] (ops : Arith K S) (ex sc : S → K) : Prop where
  mm : ∀ A B, ops.mm A B = A.mul B
  zero : ex 0 = 1
  logAdd : ∀ l rs, (∀ r ∈ rs, ¬ ops.isZero r ∧ ∃ t A, 0 ≤ t ∧ r = ops.scale t A) → ex (ops.logAdd l rs) = ex l * (rs.map sc).prod
  div : ∀ A r, ¬ ops.isZero r → (ops.div A r).smul (sc r) = A

theorem one_smul_mat [CommSemiring K] (A : Mat K) : A.smul (1 : K) = A := by
  obtain ⟨r, c, e⟩ := A
  simp [Mat.smul]

namespace ExactArith
variable [CommSemiring K] [Zero S] {ops : Arith K S} {ex sc : S → K}

theorem seq (h : ExactArith ops ex sc) (ms : List (Mat K)) : ∀ (p : Mat K) (l : S) (P : Mat K) (l' : S),
    ms.foldl ops.seqStep (some (p, l)) = some (P, l') → P.smul (ex l') = (matProd p ms).smul (ex l) := by
  induction ms with
  | nil =>
    intro p l P l' he
    simp only [List.foldl_nil, Option.some.injEq, Prod.mk.injEq] at he
    obtain ⟨rfl, rfl⟩ := he
    rfl
  | cons m ms ih =>
    intro p l P l' he
    rw [List.foldl_cons] at he
    simp only [Arith.seqStep] at he
    split at he
    · rw [Arith.seqStep_none] at he; cases he
    · rename_i hz
      have := ih _ _ _ _ he
      rw [this, h.logAdd _ _ (by
        intro r hr
        rw [List.mem_singleton] at hr
        exact hr ▸ ⟨hz, _, _, Real.sqrt_nonneg _, rfl⟩), List.map_cons, List.map_nil, List.prod_singleton, matProd_cons, ← h.mm,
        ← Mat.smul_smul _ (ex l), ← matProd_smul, h.div _ _ hz]

theorem reduceSeq (h : ExactArith ops ex sc) (m : Mat K) (ms : List (Mat K)) (hc : ChainOK (m :: ms)) (P : Mat K) (l : S)
    (he : ops.reduceSeq m ms = some (P, l)) : P.smul (ex l) = matProd m ms := by
  unfold Arith.reduceSeq at he
  simp only at he
  split at he
  · obtain ⟨m', ms', h1, h2, -⟩ := reverse_transpose_prod m ms hc
    rw [h1] at he
    simp only [Option.map_eq_some_iff] at he
    obtain ⟨⟨Q, k⟩, h3, h4⟩ := he
    simp only [Prod.mk.injEq] at h4
    obtain ⟨rfl, rfl⟩ := h4
    have := h.seq ms' _ _ _ _ h3
    rw [h.zero, h2] at this
    rw [one_smul_mat] at this
    have h5 := congrArg Mat.transpose this
    exact h5
  · have := h.seq ms _ _ _ _ he
    rw [h.zero, one_smul_mat] at this
    exact this

theorem prodL_div (h : ExactArith ops ex sc) (f : Mat K → S) (m : Mat K) (ms : List (Mat K)) (hf : ∀ x ∈ m :: ms, ¬ ops.isZero (f x)) :
    (matProd (ops.div m (f m)) (ms.map (fun x => ops.div x (f x)))).smul ((((m :: ms).map f).map sc).prod) = matProd m ms := by
  have key : ∀ (ms : List (Mat K)) (m0 : Mat K), (∀ x ∈ ms, ¬ ops.isZero (f x)) →
      (matProd m0 (ms.map (fun x => ops.div x (f x)))).smul (((ms.map f).map sc).prod) = matProd m0 ms := by
    intro ms
    induction ms with
    | nil => intro m0 _; simp [matProd, Mat.smul]
    | cons a ms ih =>
      intro m0 hf
      simp only [List.map_cons, matProd_cons, List.prod_cons]
      rw [mul_comm, ← Mat.smul_smul, ← matProd_smul, ← Mat.mul_smul, h.div a _ (hf a (by simp))]
      exact ih _ (fun x hx => hf x (List.mem_cons_of_mem _ hx))
  rw [List.map_cons, List.map_cons, List.prod_cons, mul_comm, ← Mat.smul_smul, ← matProd_smul, h.div m _ (hf m (by simp))]
  exact key ms m (fun x hx => hf x (List.mem_cons_of_mem _ hx))

theorem pairBy_pairUp (h : ExactArith ops ex sc) : ∀ ms : List (Mat K), pairBy ops.mm ms = pairUp ms
  | [] => rfl
  | [_] => rfl
  | a :: b :: l => by rw [pairBy, pairUp, h.mm, pairBy_pairUp h l]

theorem par (h : ExactArith ops ex sc) (D : ℕ) : ∀ (n : ℕ) (ms : List (Mat K)) (l : S) (P : Mat K) (l' : S), ms.length ≤ n →
    ops.parLoop D ms l = some (P, l') → ∃ M, prodL ms = some M ∧ P.smul (ex l') = M.smul (ex l) := by
  intro n
  induction n with
  | zero =>
    intro ms l P l' hn he
    obtain rfl := List.length_eq_zero_iff.1 (Nat.le_zero.1 hn)
    rw [Arith.parLoop, dif_neg (by simp)] at he
    cases he
  | succ n ih =>
    intro ms l P l' hn he
    by_cases hl : 1 < ms.length
    · rw [ops.parLoop_step D ms l hl] at he
      obtain ⟨⟨ms', l1⟩, h1, h2⟩ := Option.bind_eq_some_iff.1 he
      simp only [Arith.parStep] at h1
      split at h1
      · cases h1
      · rename_i hz
        rw [Option.some.injEq, Prod.mk.injEq] at h1
        obtain ⟨rfl, rfl⟩ := h1
        have hlen : (ops.parPairs ms).length = ms.length - ms.length / 2 := ops.parPairs_length ms
        obtain ⟨M, k1, k2⟩ := ih _ _ _ _ (by rw [List.length_map, hlen]; omega) h2
        have hnz : ∀ x ∈ ops.parPairs ms, ¬ ops.isZero (ops.scale (D : ℝ) x) := fun x hx h0 => hz ⟨_, List.mem_map.2 ⟨x, hx, rfl⟩, h0⟩
        rw [h.logAdd _ _ (by
          intro r hr
          obtain ⟨x, hx, rfl⟩ := List.mem_map.1 hr
          exact ⟨hnz x hx, _, x, Nat.cast_nonneg D, rfl⟩)] at k2
        have hpu : prodL (ops.parPairs ms) = prodL ms := by rw [ops.parPairs_eq, h.pairBy_pairUp, prodL_pairUp]
        cases hp : ops.parPairs ms with
        | nil => rw [hp] at hlen; simp at hlen; omega
        | cons y ys =>
          rw [hp] at k1 k2 hnz hpu
          have key := h.prodL_div (ops.scale (D : ℝ)) y ys hnz
          rw [List.map_cons, prodL, Option.some.injEq] at k1
          refine ⟨matProd y ys, by rw [← hpu]; rfl, ?_⟩
          rw [k2, ← k1, ← key, Mat.smul_smul]
    · rw [Arith.parLoop, dif_neg hl] at he
      obtain _ | ⟨m, _ | ⟨b, ms⟩⟩ := ms
      · cases he
      · simp only [Option.some.injEq, Prod.mk.injEq] at he
        obtain ⟨rfl, rfl⟩ := he
        exact ⟨m, rfl, rfl⟩
      · simp at hl

theorem reducePar (h : ExactArith ops ex sc) (D : ℕ) (m : Mat K) (ms : List (Mat K)) (P : Mat K) (l : S)
    (he : ops.reducePar D (m :: ms) = some (P, l)) : P.smul (ex l) = matProd m ms := by
  have h1 : ∀ A : Mat K, A.smul (1 : K) = A := fun A => by simp [Mat.smul]
  cases ms with
  | nil =>
    simp only [Arith.reducePar, Option.some.injEq, Prod.mk.injEq] at he
    obtain ⟨rfl, rfl⟩ := he
    rw [h.zero, h1]; rfl
  | cons a ms =>
    obtain ⟨M, k1, k2⟩ := h.par D _ _ _ _ _ (le_refl _) (show ops.parLoop D (m :: a :: ms) 0 = _ from he)
    rw [h.zero, h1] at k2
    rw [k2]
    simp only [prodL, Option.some.injEq] at k1
    exact k1.symm

end ExactArith

/-! ### simulation -/

/-- the arithmetic `ops` on `K` projects to the arithmetic `ops'` on `K'` -/
structure ArithSim {K' S' : Type} [Semiring K] [Semiring K'] [Zero S] [Zero S'] (ops : Arith K S) (ops' : Arith K' S') (f : K → K') (σ : S → S') : Prop where
  mm : ∀ A B, (ops.mm A B).map f = ops'.mm (A.map f) (B.map f)
  scale : ∀ t A, σ (ops.scale t A) = ops'.scale t (A.map f)
  div : ∀ A s, (ops.div A s).map f = ops'.div (A.map f) (σ s)
  logAdd : ∀ l rs, σ (ops.logAdd l rs) = ops'.logAdd (σ l) (rs.map σ)
  isZero : ∀ s, ops'.isZero (σ s) ↔ ops.isZero s
  zero : σ 0 = 0
  eye : ∀ n, (Mat.eye n : Mat K).map f = Mat.eye n

namespace ArithSim
variable {K' S' : Type} [Semiring K] [Semiring K'] [Zero S] [Zero S'] {ops : Arith K S} {ops' : Arith K' S'} {f : K → K'} {σ : S → S'}

theorem seqStep (h : ArithSim ops ops' f σ) (st : Option (Mat K × S)) (m : Mat K) :
    (ops.seqStep st m).map (fun p => (p.1.map f, σ p.2)) = ops'.seqStep (st.map (fun p => (p.1.map f, σ p.2))) (m.map f) := by
  cases st with
  | none => rfl
  | some p =>
    obtain ⟨P, l⟩ := p
    simp only [Arith.seqStep, Option.map_some]
    rw [← h.mm]
    have hr : ((ops.mm P m).map f).r = (ops.mm P m).r := rfl
    have hc : ((ops.mm P m).map f).c = (ops.mm P m).c := rfl
    rw [hr, hc, ← h.scale]
    split
    · rename_i hz
      rw [if_pos ((h.isZero _).2 hz)]; rfl
    · rename_i hz
      rw [if_neg (fun h0 => hz ((h.isZero _).1 h0)), Option.map_some, h.div, h.logAdd]
      rfl

theorem foldl (h : ArithSim ops ops' f σ) (ms : List (Mat K)) : ∀ st : Option (Mat K × S),
    (ms.foldl ops.seqStep st).map (fun p => (p.1.map f, σ p.2)) = (ms.map (Mat.map f)).foldl ops'.seqStep (st.map (fun p => (p.1.map f, σ p.2))) := by
  induction ms with
  | nil => intro st; rfl
  | cons m ms ih =>
    intro st
    rw [List.foldl_cons, ih, h.seqStep]
    rfl

theorem reduceSeq (h : ArithSim ops ops' f σ) (m : Mat K) (ms : List (Mat K)) :
    (ops.reduceSeq m ms).map (fun p => (p.1.map f, σ p.2)) = ops'.reduceSeq (m.map f) (ms.map (Mat.map f)) := by
  unfold Arith.reduceSeq
  simp only
  have e1 : ((m.map f :: ms.map (Mat.map f)).getLast (by simp)).c = ((m :: ms).getLast (by simp)).c := by
    have : m.map f :: ms.map (Mat.map f) = (m :: ms).map (Mat.map f) := rfl
    simp only [this, List.getLast_map]
    rfl
  have e2 : (m.map f).r = m.r := rfl
  have e3 : (m.map f :: ms.map (Mat.map f)).reverse.map Mat.transpose = ((m :: ms).reverse.map Mat.transpose).map (Mat.map f) := by
    rw [← List.map_cons, ← List.map_reverse, List.map_map, List.map_map]
    rfl
  rw [e1, e2, e3]
  split
  · cases hl : (m :: ms).reverse.map Mat.transpose with
    | nil => rfl
    | cons m' ms' =>
      simp only [List.map_cons]
      have := h.foldl ms' (some (m', 0))
      rw [Option.map_some, h.zero] at this
      rw [← this]
      cases ms'.foldl ops.seqStep (some (m', 0)) <;> rfl
  · have := h.foldl ms (some (m, 0))
    rw [Option.map_some, h.zero] at this
    exact this

theorem parPairs (h : ArithSim ops ops' f σ) (ms : List (Mat K)) : (ops.parPairs ms).map (Mat.map f) = ops'.parPairs (ms.map (Mat.map f)) := by
  rw [ops.parPairs_eq, ops'.parPairs_eq]
  have : ∀ ms : List (Mat K), (pairBy ops.mm ms).map (Mat.map f) = pairBy ops'.mm (ms.map (Mat.map f)) := by
    intro ms
    induction ms using pairBy.induct with
    | case1 a b l ih => simp only [pairBy, List.map_cons, ih, h.mm]
    | case2 l hl =>
      obtain _ | ⟨a, _ | ⟨b, l⟩⟩ := l
      · rfl
      · rfl
      · exact absurd rfl (hl a b l)
  exact this ms

theorem parStep (h : ArithSim ops ops' f σ) (D : ℕ) (ms : List (Mat K)) (l : S) :
    (ops.parStep D ms l).map (fun p => (p.1.map (Mat.map f), σ p.2)) = ops'.parStep D (ms.map (Mat.map f)) (σ l) := by
  have e : ((ops.parPairs ms).map (Mat.map f)).map (ops'.scale (D : ℝ)) = ((ops.parPairs ms).map (ops.scale (D : ℝ))).map σ := by
    rw [List.map_map, List.map_map]
    exact List.map_congr_left (fun x _ => (h.scale _ x).symm)
  simp only [Arith.parStep]
  rw [← h.parPairs, e]
  have hz : (∃ r ∈ ((ops.parPairs ms).map (ops.scale (D : ℝ))).map σ, ops'.isZero r) ↔ ∃ r ∈ (ops.parPairs ms).map (ops.scale (D : ℝ)), ops.isZero r := by
    constructor
    · rintro ⟨r, hr, h0⟩
      obtain ⟨r', hr', rfl⟩ := List.mem_map.1 hr
      exact ⟨r', hr', (h.isZero _).1 h0⟩
    · rintro ⟨r, hr, h0⟩
      exact ⟨σ r, List.mem_map.2 ⟨r, hr, rfl⟩, (h.isZero _).2 h0⟩
  by_cases h0 : ∃ r ∈ (ops.parPairs ms).map (ops.scale (D : ℝ)), ops.isZero r
  · rw [if_pos h0, if_pos (hz.2 h0)]; rfl
  · rw [if_neg h0, if_neg (fun h1 => h0 (hz.1 h1)), Option.map_some, h.logAdd]
    congr 2
    rw [List.map_map, List.map_map]
    exact List.map_congr_left (fun x _ => by simp only [Function.comp, h.div, h.scale])

theorem parLoop (h : ArithSim ops ops' f σ) (D : ℕ) : ∀ (n : ℕ) (ms : List (Mat K)) (l : S), ms.length ≤ n →
    (ops.parLoop D ms l).map (fun p => (p.1.map f, σ p.2)) = ops'.parLoop D (ms.map (Mat.map f)) (σ l) := by
  intro n
  induction n with
  | zero =>
    intro ms l hn
    obtain rfl := List.length_eq_zero_iff.1 (Nat.le_zero.1 hn)
    rw [Arith.parLoop, dif_neg (by simp), Arith.parLoop, dif_neg (by simp)]
    rfl
  | succ n ih =>
    intro ms l hn
    by_cases hl : 1 < ms.length
    · rw [ops.parLoop_step D ms l hl, ops'.parLoop_step D _ _ (by simpa using hl), ← h.parStep]
      cases hs : ops.parStep D ms l with
      | none => rfl
      | some p =>
        obtain ⟨ms', l'⟩ := p
        simp only [Option.bind_some, Option.map_some]
        refine ih _ _ ?_
        simp only [Arith.parStep] at hs
        split at hs
        · cases hs
        · rw [Option.some.injEq, Prod.mk.injEq] at hs
          rw [← hs.1, List.length_map, ops.parPairs_length]
          omega
    · rw [Arith.parLoop, dif_neg hl, Arith.parLoop, dif_neg (by simpa using hl)]
      cases ms <;> rfl

theorem reducePar (h : ArithSim ops ops' f σ) (D : ℕ) (ms : List (Mat K)) :
    (ops.reducePar D ms).map (fun p => (p.1.map f, σ p.2)) = ops'.reducePar D (ms.map (Mat.map f)) := by
  rcases ms with _ | ⟨a, _ | ⟨b, ms⟩⟩
  · simp only [Arith.reducePar, Option.map_some, h.eye, h.zero, List.map_nil]
  · simp only [Arith.reducePar, Option.map_some, h.zero, List.map_cons, List.map_nil]
  · have := h.parLoop D _ (a :: b :: ms) 0 (le_refl _)
    rw [h.zero] at this
    exact this

end ArithSim

/-! ### `contract_matseq` -/

/-- the evaluation of one batch element, from its factors only -/
noncomputable def Arith.evalOne [Semiring K] [Zero S] (ops : Arith K S) (par : Prop) (D : ℕ) (left : Option (Mat K)) (mats : List (Mat K)) (right : Option (Mat K)) :
    Option (Mat K × S) :=
  open Classical in
  if par then
    match ops.reducePar (match mats with | [] => D | m :: _ => m.c) mats with
    | none => none
    | some (p, l) =>
      let p := match left with
        | some v => ops.mm v p
        | none => p
      let p := match right with
        | some v => ops.mm p v
        | none => p
      some (p, l)
  else
    match left.toList ++ mats ++ right.toList with
    | [] => none
    | m :: ms => ops.reduceSeq m ms

theorem Arith.evalMatSeq_ok [Semiring K] [Zero S] (ops : Arith K S) (s : MatSeq K) (par : Bool) (D : ℕ) (x : BMat K) (xs : List (BMat K))
    (hfull : s.full = x :: xs) (hchain : List.IsChain (fun a b => a.c = b.r) (x :: xs))
    (hsame : s.sameShape = true → ∀ m ∈ s.mats, ∀ m' ∈ s.mats, m.r = m'.r ∧ m.c = m'.c)
    (h0 : s.sameShape = true → s.mats = [] → (∀ l ∈ s.left, l.c = D) ∧ (∀ w ∈ s.right, w.r = D)) :
    ∃ r c, ops.evalMatSeq s par D = .ok (packOut s r c (if s.sameShape && (par || (s.left.isNone && s.right.isNone)) then
        ops.elemPar s (match s.mats with | [] => D | m :: _ => m.c) else ops.elemSeq s)) ∧
      (s.left = none → r = x.r) ∧ (s.right = none → c = ((x :: xs).getLast (by simp)).c) := by
  unfold Arith.evalMatSeq
  simp only
  by_cases hp : (s.sameShape && (par || (s.left.isNone && s.right.isNone))) = true
  · rw [if_pos hp]
    simp only [if_pos hp]
    have hs : s.sameShape = true := by
      simp only [Bool.and_eq_true] at hp; exact hp.1
    cases hm : s.mats with
    | nil =>
      simp only
      rw [if_pos (h0 hs hm)]
      refine ⟨D, D, rfl, ?_, ?_⟩
      · intro hl
        have := (h0 hs hm).2
        simp only [MatSeq.full, hl, hm, Option.toList_none, List.nil_append] at hfull
        cases hr : s.right with
        | none => rw [hr] at hfull; simp at hfull
        | some w =>
          rw [hr] at hfull; simp at hfull
          rw [← hfull.1]; exact (this w hr).symm
      · intro hr
        have := (h0 hs hm).1
        simp only [MatSeq.full, hr, hm, Option.toList_none, List.append_nil] at hfull
        cases hl : s.left with
        | none => rw [hl] at hfull; simp at hfull
        | some w =>
          rw [hl] at hfull; simp at hfull
          obtain ⟨rfl, rfl⟩ := hfull
          exact (this w hl).symm
    | cons m ms =>
      simp only
      have hsq : ms ≠ [] → m.r = m.c := by
        intro hne
        obtain _ | ⟨m2, ms⟩ := ms
        · exact absurd rfl hne
        have hch : List.IsChain (fun a b => a.c = b.r) s.full := by rw [hfull]; exact hchain
        simp only [MatSeq.full, hm] at hch
        have h1 := (List.isChain_append.1 (List.isChain_append.1 hch).1).2.1
        simp only [List.isChain_cons_cons] at h1
        have h2 := hsame hs m (by simp [hm]) m2 (by simp [hm])
        rw [h1.1, h2.1]
      rw [if_neg (by rintro ⟨h1, h2⟩; exact h2 (hsq h1))]
      have hdims : ∀ y ∈ m :: ms, y.r = m.r ∧ y.c = m.c := fun y hy =>
        hsame hs y (by rw [hm]; exact hy) m (by rw [hm]; simp)
      have hb : (∀ l ∈ s.left, l.c = m.r) ∧ (∀ w ∈ s.right, w.r = m.c) := by
        have hch : List.IsChain (fun a b => a.c = b.r) s.full := by rw [hfull]; exact hchain
        simp only [MatSeq.full, hm] at hch
        obtain ⟨c1, c2, c3⟩ := List.isChain_append.1 hch
        obtain ⟨d1, d2, d3⟩ := List.isChain_append.1 c1
        refine ⟨?_, ?_⟩
        · intro l hl
          have hl : s.left = some l := hl
          exact d3 l (by simp [hl]) m (by simp)
        · intro w hw
          have hw : s.right = some w := hw
          have hlast : (m :: ms).getLast (by simp) ∈ (s.left.toList ++ m :: ms).getLast? := by
            rw [List.getLast?_append_of_ne_nil _ (by simp), List.getLast?_eq_getLast_of_ne_nil (by simp)]
            simp
          have := c3 _ hlast w (by simp [hw])
          rw [← this]
          exact (hdims _ (List.getLast_mem (by simp))).2
      rw [if_pos hb]
      refine ⟨m.r, m.c, rfl, ?_, ?_⟩
      · intro hl
        simp only [MatSeq.full, hl, hm, Option.toList_none, List.nil_append, List.cons_append,
          List.cons.injEq] at hfull
        rw [← hfull.1]
      · intro hr
        have hl : ((x :: xs).getLast (by simp)) ∈ m :: ms := by
          have hh : s.left.toList ++ (m :: ms) = x :: xs := by
            rw [← hfull]; simp [MatSeq.full, hr, hm]
          have : (x :: xs).getLast (by simp) = (m :: ms).getLast (by simp) := by
            simp only [← hh]
            rw [List.getLast_append_of_ne_nil _ (by simp)]
          rw [this]; exact List.getLast_mem _
        exact (hdims _ hl).2.symm
  · rw [if_neg hp, hfull]
    simp only [if_neg hp]
    rw [if_pos hchain]
    exact ⟨x.r, _, rfl, fun _ => rfl, fun _ => rfl⟩

theorem packOut_get [Zero K] {ms : TensorSeq K} {lv rv : Option (Tensor K)} {B : Shape} {s : MatSeq K}
    (hd : Delivers ms lv rv B s) (r c : ℕ) (val : List ℕ → Option (Mat K × S)) (b : List ℕ)
    (hb : InRange b B) (i j : ℕ) (hi : lv ≠ none → i = 0) (hj : rv ≠ none → j = 0) :
    (packOut s r c val).product.get (outIndex lv rv b i j) = (val b).map (fun p => p.1.e i j) ∧
    ∀ i' j', (packOut s r c val).logScale.get (outIndex lv rv b i' j') = (val b).map (fun p => p.2) := by
  have hl : b.length = s.batch.length := by rw [hd.batch]; exact hb.length_eq
  have e1 : ∀ (x y : List ℕ), (b ++ x ++ y).take s.batch.length = b := by
    intro x y; rw [← hl, List.append_assoc, List.take_left]
  simp only [packOut, outIndex]
  refine ⟨?_, ?_⟩
  · rw [e1]
    have h1 := hd.left
    have h2 := hd.right
    cases hsl : s.left <;> cases hsr : s.right <;> rw [hsl] at h1 <;> rw [hsr] at h2 <;>
      cases lv <;> cases rv <;> simp at h1 h2 <;> simp [← hl] <;> simp_all
  · intro i' j'; rw [e1]

/-- `contract_matseq` over any arithmetic, in terms of the evaluation of its batch elements -/
theorem Arith.contractMatseq_gen [Semiring K] [Zero S] (ops : Arith K S) (ms : TensorSeq K) (lv rv : Option (Tensor K)) (par : Bool)
    (B : Shape) (hw : WellRanked ms lv rv) (hB : IsBroadcast (batchShapes ms lv rv) B)
    (m0 : Mat K) (rest0 : List (Mat K)) (h0 : chainAt ms lv rv [] = m0 :: rest0)
    (hchain : ChainOK (m0 :: rest0)) (hempty : EmptyFits ms lv rv) :
    ∃ out, ops.contractMatseq ms lv rv par = .ok out ∧
      out.product.shape = B ++ (if lv.isNone then [m0.r] else []) ++
        (if rv.isNone then [((m0 :: rest0).getLast (by simp)).c] else []) ∧
      out.logScale.shape = B ++ (if lv.isNone then [1] else []) ++ (if rv.isNone then [1] else []) ∧
      ∀ b, InRange b B → ∃ m rest val, chainAt ms lv rv b = m :: rest ∧ m.r = m0.r ∧ ChainOK (m :: rest) ∧
        ((m :: rest).getLast (by simp)).c = ((m0 :: rest0).getLast (by simp)).c ∧
        (∀ i j, (lv ≠ none → i = 0) → (rv ≠ none → j = 0) →
          out.product.get (outIndex lv rv b i j) = val.map (fun p : Mat K × S => p.1.e i j)) ∧
        (∀ i j, out.logScale.get (outIndex lv rv b i j) = val.map (fun p => p.2)) ∧
        val = ops.evalOne (UsesParallel ms lv rv par) (lastAxis ms) (lv.map (rowAt · b)) (matsAt ms b) (rv.map (colAt · b)) := by
  obtain ⟨s, D, hprep, hd, hbund, hsame, hsingle, hseq⟩ := prepareMatseq_ok ms lv rv B hw hB
  have he : ops.contractMatseq ms lv rv par = ops.evalMatSeq s par D := by rw [ops.contractMatseq_prepare, hprep]; rfl
  rcases hfull : s.full with _ | ⟨x, xs⟩
  · have := hd.dims
    rw [hfull, h0] at this; simp at this
  have hdims := hd.dims
  rw [hfull, h0] at hdims
  have hch : List.IsChain (fun a b => a.c = b.r) (x :: xs) :=
    (isChain_dims _ _ hdims).2 ((chainOK_iff _).1 hchain)
  have hx : x.r = m0.r := by
    simp only [List.map_cons, List.cons.injEq, Prod.mk.injEq] at hdims; exact hdims.1.1
  have hlast : ∀ (l : List (BMat K)) (l' : List (Mat K)) (hl : l ≠ []) (hl' : l' ≠ []),
      l.map (fun m => (m.r, m.c)) = l'.map (fun m => (m.r, m.c)) →
      (l.getLast hl).c = (l'.getLast hl').c := by
    intro l l' hl hl' h
    have e1 : (l.map (fun m => (m.r, m.c))).getLast? = (l'.map (fun m => (m.r, m.c))).getLast? := by
      rw [h]
    rw [List.getLast?_map, List.getLast?_map, List.getLast?_eq_getLast_of_ne_nil hl,
      List.getLast?_eq_getLast_of_ne_nil hl'] at e1
    simp only [Option.map_some, Option.some.injEq, Prod.mk.injEq] at e1
    exact e1.2
  have h0' : s.sameShape = true → s.mats = [] →
      (∀ l ∈ s.left, l.c = D) ∧ (∀ w ∈ s.right, w.r = D) := by
    intro hs hm
    cases ms with
    | single t =>
      obtain ⟨hD, hn⟩ := hsingle t rfl
      obtain ⟨e1, e2⟩ := hempty (hn.1 hm)
      refine ⟨?_, ?_⟩
      · intro l hl
        obtain ⟨v, hv, h1, _⟩ := hd.leftDim l hl
        rw [h1, e1 v hv, hD]
      · intro l hl
        obtain ⟨v, hv, h1, _⟩ := hd.rightDim l hl
        rw [h1, e2 v hv, hD]
    | seq ts =>
      exact absurd hm (hseq ts rfl (hbund.1 hs).1)
  obtain ⟨r, c, hev, hr, hc⟩ := ops.evalMatSeq_ok s par D x xs hfull hch hsame h0'
  refine ⟨_, he.trans hev, ?_, ?_, ?_⟩
  · have h1 := hd.left
    have h2 := hd.right
    simp only [packOut, hd.batch]
    rw [← h1, ← h2]
    congr 1
    · congr 1
      by_cases hl : s.left = none
      · rw [hr hl, hx]
      · cases hsl : s.left <;> simp_all
    · by_cases hl : s.right = none
      · rw [hc hl]
        simp only [hl, Option.isNone_none, if_true]
        rw [hlast (x :: xs) (m0 :: rest0) (by simp) (by simp) hdims]
      · cases hsl : s.right <;> simp_all
  · have h1 := hd.left
    have h2 := hd.right
    simp only [packOut, hd.batch]
    rw [← h1, ← h2]
    congr 1
    · congr 1; split <;> simp
    · split <;> simp
  · intro b hb
    have hv := hd.vals b hb
    rw [hfull] at hv
    have hd1 : (x :: xs).map (fun m => (m.r, m.c)) =
        (x.at b :: xs.map (·.at b)).map (fun m => (m.r, m.c)) := (map_at_dims (x :: xs) b).symm
    refine ⟨x.at b, xs.map (fun y => y.at b), _, by rw [← hv]; rfl, hx, ?_, ?_,
      fun i j hi hj => (packOut_get hd r c _ b hb i j hi hj).1,
      fun i j => (packOut_get hd r c _ b hb 0 0 (fun _ => rfl) (fun _ => rfl)).2 i j, ?_⟩
    · rw [chainOK_iff]
      exact (isChain_dims (x :: xs) _ hd1).1 hch
    · rw [← hlast (x :: xs) (x.at b :: xs.map (·.at b)) (by simp) (by simp) hd1,
        hlast (x :: xs) (m0 :: rest0) (by simp) (by simp) hdims]
    · obtain ⟨p1, p2⟩ := hd.parts b hb
      by_cases hp : UsesParallel ms lv rv par
      · rw [if_pos ((usesParallel_iff hd hbund).2 hp)]
        unfold Arith.evalOne Arith.elemPar
        rw [if_pos hp, ← hd.mats b hb, ← p1, ← p2]
        have hDD : ops.reducePar (match s.mats with | [] => D | m :: _ => m.c)
            (s.mats.map (fun y => y.at b)) =
            ops.reducePar (match s.mats.map (fun y => y.at b) with
              | [] => lastAxis ms | m :: _ => m.c) (s.mats.map (fun y => y.at b)) := by
          cases hm : s.mats with
          | nil =>
            simp only [List.map_nil]
            cases ms with
            | single t => rw [(hsingle t rfl).1]; rfl
            | seq ts =>
              exact absurd hm (hseq ts rfl hp.1.1)
          | cons m l => rfl
        rw [hDD]
        cases ops.reducePar (match s.mats.map (fun y => y.at b) with
              | [] => lastAxis ms | m :: _ => m.c) (s.mats.map (fun y => y.at b)) with
        | none => rfl
        | some q =>
          obtain ⟨q1, q2⟩ := q
          cases s.left <;> cases s.right <;> rfl
      · rw [if_neg (fun h => hp ((usesParallel_iff hd hbund).1 h))]
        unfold Arith.evalOne Arith.elemSeq
        rw [if_neg hp]
        have hv' := hd.vals b hb
        simp only [chainAt] at hv'
        rw [hv']
        generalize (lv.map (rowAt · b)).toList ++ matsAt ms b ++ (rv.map (colAt · b)).toList = L
        cases L <;> rfl

/-- exactness of one batch element -/
theorem ExactArith.evalOne [CommSemiring K] [Zero S] {ops : Arith K S} {ex sc : S → K} (h : ExactArith ops ex sc) (par : Prop) (D : ℕ) (left : Option (Mat K))
    (mats : List (Mat K)) (right : Option (Mat K)) (x : Mat K) (xs : List (Mat K)) (hx : left.toList ++ mats ++ right.toList = x :: xs) (hc : ChainOK (x :: xs))
    (hne : mats ≠ []) (P : Mat K) (l : S) (he : ops.evalOne par D left mats right = some (P, l)) : P.smul (ex l) = matProd x xs := by
  unfold Arith.evalOne at he
  by_cases hp : par
  · rw [if_pos hp] at he
    obtain _ | ⟨m, ms⟩ := mats
    · exact absurd rfl hne
    simp only at he
    cases hq : ops.reducePar m.c (m :: ms) with
    | none => rw [hq] at he; cases he
    | some q =>
      obtain ⟨Q, k⟩ := q
      rw [hq] at he
      have hQ := h.reducePar m.c m ms Q k hq
      cases left with
      | none =>
        cases right with
        | none =>
          simp only [Option.some.injEq, Prod.mk.injEq] at he
          obtain ⟨rfl, rfl⟩ := he
          simp only [Option.toList_none, List.nil_append, List.append_nil, List.cons.injEq] at hx
          obtain ⟨rfl, rfl⟩ := hx
          exact hQ
        | some w =>
          simp only [Option.some.injEq, Prod.mk.injEq] at he
          obtain ⟨rfl, rfl⟩ := he
          simp only [Option.toList_none, List.nil_append, Option.toList_some, List.cons_append, List.cons.injEq] at hx
          obtain ⟨rfl, rfl⟩ := hx
          rw [h.mm, ← Mat.smul_mul, hQ, matProd_append]; rfl
      | some v =>
        cases right with
        | none =>
          simp only [Option.some.injEq, Prod.mk.injEq] at he
          obtain ⟨rfl, rfl⟩ := he
          simp only [Option.toList_none, Option.toList_some, List.cons_append, List.nil_append, List.append_nil, List.cons.injEq] at hx
          obtain ⟨rfl, rfl⟩ := hx
          rw [h.mm, ← Mat.mul_smul, hQ, matProd_cons, matProd_mul]
        | some w =>
          simp only [Option.some.injEq, Prod.mk.injEq] at he
          obtain ⟨rfl, rfl⟩ := he
          simp only [Option.toList_some, List.cons_append, List.nil_append, List.cons.injEq] at hx
          obtain ⟨rfl, rfl⟩ := hx
          rw [h.mm, h.mm, ← Mat.smul_mul, ← Mat.mul_smul, hQ, matProd_cons, matProd_append, matProd_mul]; rfl
  · rw [if_neg hp, hx] at he
    exact h.reduceSeq x xs hc P l he

/-- simulation of one batch element -/
theorem ArithSim.evalOne {K' S' : Type} [Semiring K] [Semiring K'] [Zero S] [Zero S'] {ops : Arith K S} {ops' : Arith K' S'} {f : K → K'} {σ : S → S'}
    (h : ArithSim ops ops' f σ) (par : Prop) (D : ℕ) (left : Option (Mat K)) (mats : List (Mat K)) (right : Option (Mat K)) :
    (ops.evalOne par D left mats right).map (fun p => (p.1.map f, σ p.2)) =
      ops'.evalOne par D (left.map (Mat.map f)) (mats.map (Mat.map f)) (right.map (Mat.map f)) := by
  unfold Arith.evalOne
  by_cases hp : par
  · rw [if_pos hp, if_pos hp]
    have key : ∀ q : Option (Mat K × S), (match q with
        | none => none
        | some (p, l) =>
          let p := match left with
            | some v => ops.mm v p
            | none => p
          let p := match right with
            | some v => ops.mm p v
            | none => p
          some (p, l) : Option (Mat K × S)).map (fun p => (p.1.map f, σ p.2)) =
        match q.map (fun p => (p.1.map f, σ p.2)) with
        | none => none
        | some (p, l) =>
          let p := match left.map (Mat.map f) with
            | some v => ops'.mm v p
            | none => p
          let p := match right.map (Mat.map f) with
            | some v => ops'.mm p v
            | none => p
          some (p, l) := by
      intro q
      cases q with
      | none => rfl
      | some q =>
        obtain ⟨Q, k⟩ := q
        cases left <;> cases right <;> simp only [Option.map_some, Option.map_none, h.mm]
    obtain _ | ⟨m, ms⟩ := mats
    · have := key (ops.reducePar D [])
      rw [h.reducePar] at this
      exact this
    · have := key (ops.reducePar m.c (m :: ms))
      rw [h.reducePar] at this
      exact this
  · rw [if_neg hp, if_neg hp]
    have e : (left.map (Mat.map f)).toList ++ mats.map (Mat.map f) ++ (right.map (Mat.map f)).toList = (left.toList ++ mats ++ right.toList).map (Mat.map f) := by
      cases left <;> cases right <;> simp
    rw [e]
    cases left.toList ++ mats ++ right.toList with
    | nil => rfl
    | cons m ms => exact h.reduceSeq m ms

end TorchMPS
