import Verif.Lemmas.Contract
/-
`contract_matseq`: evaluation after broadcasting.
-/
namespace TorchMPS
open Spec
variable {K : Type}

theorem chainOK_iff (l : List (Mat K)) : ChainOK l ↔ List.IsChain (fun a b => a.c = b.r) l := by
  induction l with
  | nil => simp [ChainOK]
  | cons a l ih =>
    cases l with
    | nil => simp [ChainOK]
    | cons b l => simp only [ChainOK, List.isChain_cons_cons, ih]

theorem isChain_dims (l : List (BMat K)) (l' : List (Mat K))
    (h : l.map (fun m => (m.r, m.c)) = l'.map (fun m => (m.r, m.c))) :
    List.IsChain (fun a b => a.c = b.r) l ↔ List.IsChain (fun a b => a.c = b.r) l' := by
  have e1 : List.IsChain (fun a b => a.c = b.r) l ↔
      List.IsChain (fun (p q : ℕ × ℕ) => p.2 = q.1) (l.map (fun m => (m.r, m.c))) := by
    rw [List.isChain_map]
  have e2 : List.IsChain (fun a b => a.c = b.r) l' ↔
      List.IsChain (fun (p q : ℕ × ℕ) => p.2 = q.1) (l'.map (fun m => (m.r, m.c))) := by
    rw [List.isChain_map]
  rw [e1, e2, h]

theorem map_at_dims [Zero K] (l : List (BMat K)) (b : List ℕ) :
    (l.map (·.at b)).map (fun m => (m.r, m.c)) = l.map (fun m => (m.r, m.c)) := by
  rw [List.map_map]; rfl

/-- what the chain of factors multiplies to; `none` only for the empty chain -/
def chainProd [Semiring K] (l : List (Mat K)) : Option (Mat K) := prodL l

theorem elemSeq_spec [RCLike K] (s : MatSeq K) (b : List ℕ) (m : Mat K) (ms : List (Mat K))
    (hf : s.full.map (·.at b) = m :: ms) (hc : ChainOK (m :: ms)) :
    (elemSeq s b = none ↔ ms ≠ [] ∧ IsZero (matProd m ms)) ∧
    ∀ P l, elemSeq s b = some (P, l) → P.smul (Real.exp l : K) = matProd m ms := by
  unfold elemSeq
  rw [hf]
  exact matReduceSeq_spec m ms hc

/-- parallel evaluation, with at least one factor in total -/
theorem elemPar_spec [RCLike K] (s : MatSeq K) (D : ℕ) (b : List ℕ) (m : Mat K) (ms : List (Mat K))
    (hf : s.full.map (·.at b) = m :: ms)
    (hD : ∀ a b l, s.mats = a :: b :: l → ∀ x ∈ s.mats, x.r = D ∧ x.c = D)
    (h0 : s.mats = [] → (∀ l ∈ s.left, l.c = D) ∧ (∀ w ∈ s.right, w.r = D)) :
    (elemPar s D b = none ↔ ∃ x y l, s.mats.map (·.at b) = x :: y :: l ∧
      IsZero (matProd x (y :: l))) ∧
    ∀ P l, elemPar s D b = some (P, l) → P.smul (Real.exp l : K) = matProd m ms := by
  unfold elemPar
  obtain ⟨B, same, mats, left, right⟩ := s
  simp only [MatSeq.full] at hf hD h0 ⊢
  cases mats with
  | nil =>
    simp only [List.map_nil, matReducePar]
    refine ⟨by simp, ?_⟩
    intro P l h
    simp only [Option.some.injEq, Prod.mk.injEq] at h
    obtain ⟨h1, h2⟩ := h
    rw [← h2, Real.exp_zero]
    obtain ⟨hl, hr⟩ := h0 rfl
    cases left with
    | none =>
      cases right with
      | none => simp at hf
      | some w =>
        simp at hf
        have := hr w rfl
        subst this
        simp only at h1
        rw [Mat.eye_mul_at] at h1
        rw [← h1, ← hf.1, hf.2]; simp [matProd]
    | some v =>
      have := hl v rfl
      subst this
      simp only [Mat.at_mul_eye] at h1
      cases right with
      | none =>
        simp at hf
        simp only at h1
        rw [← h1, ← hf.1, hf.2]; simp [matProd]
      | some w =>
        simp at hf
        simp only at h1
        rw [← h1, ← hf.1, ← hf.2]; simp [matProd]
  | cons x xs =>
    have hdim : xs.map (·.at b) ≠ [] → ∀ a ∈ x.at b :: xs.map (·.at b), a.r = D ∧ a.c = D := by
      intro hne a ha
      obtain _ | ⟨y, ys⟩ := xs
      · simp at hne
      have ha' : a ∈ (x :: y :: ys).map (·.at b) := by simpa using ha
      obtain ⟨z, hz, rfl⟩ := List.mem_map.1 ha'
      exact hD x y ys rfl z hz
    obtain ⟨k1, k2⟩ := matReducePar_spec D (x.at b) (xs.map (·.at b)) hdim
    simp only [List.map_cons]
    cases hp : matReducePar D (x.at b :: xs.map (·.at b)) with
    | none =>
      simp only [true_iff, reduceCtorEq, false_implies, implies_true, and_true]
      obtain ⟨hne, hz⟩ := k1.1 hp
      rcases hq : xs.map (·.at b) with _ | ⟨y, ys⟩
      · exact absurd hq hne
      · rw [hq] at hz; exact ⟨_, _, _, by rw [hq], hz⟩
    | some p =>
      obtain ⟨P0, l0⟩ := p
      have hP0 := k2 P0 l0 hp
      refine ⟨?_, ?_⟩
      · constructor
        · intro h; simp at h
        · rintro ⟨x', y', l', he, hz⟩
          rw [List.cons.injEq] at he
          have : matReducePar D (x.at b :: xs.map (·.at b)) = none :=
            k1.2 ⟨by rw [he.2]; simp, by rw [he.1, he.2]; exact hz⟩
          rw [hp] at this; simp at this
      · intro P l h
        simp only [Option.some.injEq, Prod.mk.injEq] at h
        obtain ⟨h1, h2⟩ := h
        rw [← h2]
        cases left with
        | none =>
          cases right with
          | none =>
            simp only at h1
            simp only [Option.toList_none, List.nil_append, List.append_nil, List.map_cons,
              List.cons.injEq] at hf
            rw [← h1, hP0, hf.1, hf.2]
          | some w =>
            simp only at h1
            simp only [Option.toList_none, List.nil_append, List.map_append,
              List.map_cons, Option.toList_some, List.map_nil, List.cons_append,
              List.cons.injEq] at hf
            rw [← h1, ← Mat.smul_mul, hP0, ← hf.1, ← hf.2, matProd_append]; rfl
        | some v =>
          cases right with
          | none =>
            simp only at h1
            simp only [Option.toList_none, List.append_nil, List.map_cons,
              List.cons.injEq, Option.toList_some, List.cons_append, List.nil_append] at hf
            rw [← h1, ← Mat.mul_smul, hP0, ← hf.1, ← hf.2, matProd_cons, matProd_mul]
          | some w =>
            simp only at h1
            simp only [List.map_append,
              List.map_cons, Option.toList_some, List.map_nil, List.cons_append,
              List.cons.injEq, List.nil_append] at hf
            rw [← h1, ← Mat.smul_mul, ← Mat.mul_smul, hP0, ← hf.1, ← hf.2, matProd_cons,
              matProd_append, matProd_mul]; rfl

/-- the three ingredients of the result: sizes and values -/
theorem evalMatSeq_ok [RCLike K] (s : MatSeq K) (par : Bool) (D : ℕ) (x : BMat K) (xs : List (BMat K))
    (hfull : s.full = x :: xs) (hchain : List.IsChain (fun a b => a.c = b.r) (x :: xs))
    (hsame : s.sameShape = true → ∀ m ∈ s.mats, ∀ m' ∈ s.mats, m.r = m'.r ∧ m.c = m'.c)
    (h0 : s.sameShape = true → s.mats = [] →
      (∀ l ∈ s.left, l.c = D) ∧ (∀ w ∈ s.right, w.r = D)) :
    ∃ r c val, evalMatSeq s par D = .ok (packOut s r c val) ∧
      val = (if s.sameShape && (par || (s.left.isNone && s.right.isNone)) then
        elemPar s (match s.mats with | [] => D | m :: _ => m.c) else elemSeq s) ∧
      (s.left = none → r = x.r) ∧
      (s.right = none → c = ((x :: xs).getLast (by simp)).c) ∧
      ∀ b, (∀ P l, val b = some (P, l) →
          P.smul (Real.exp l : K) = matProd (x.at b) (xs.map (·.at b))) ∧
        (val b = none ↔
          if s.sameShape && (par || (s.left.isNone && s.right.isNone)) then
            ∃ y z l, s.mats.map (·.at b) = y :: z :: l ∧ IsZero (matProd y (z :: l))
          else xs ≠ [] ∧ IsZero (matProd (x.at b) (xs.map (·.at b)))) := by
  unfold evalMatSeq
  simp only
  by_cases hp : (s.sameShape && (par || (s.left.isNone && s.right.isNone))) = true
  · rw [if_pos hp]
    have hs : s.sameShape = true := by
      simp only [Bool.and_eq_true] at hp; exact hp.1
    cases hm : s.mats with
    | nil =>
      simp only
      rw [if_pos (h0 hs hm)]
      refine ⟨D, D, elemPar s D, rfl, by rw [if_pos hp], ?_, ?_, ?_⟩
      · intro hl
        have := (h0 hs hm).2
        simp only [MatSeq.full, hl, hm, Option.toList_none, List.nil_append] at hfull
        cases hr : s.right with
        | none => rw [hr] at hfull; simp at hfull
        | some w =>
          rw [hr] at hfull; simp at hfull
          rw [← hfull.1]; exact (this w hr).symm
      · intro hr
        have := (h0 hs hm).1
        simp only [MatSeq.full, hr, hm, Option.toList_none, List.append_nil] at hfull
        cases hl : s.left with
        | none => rw [hl] at hfull; simp at hfull
        | some w =>
          rw [hl] at hfull; simp at hfull
          obtain ⟨rfl, rfl⟩ := hfull
          exact (this w hl).symm
      · intro b
        have key := elemPar_spec s D b (x.at b) (xs.map (·.at b)) (by rw [hfull]; rfl)
          (by simp [hm]) (h0 hs)
        rw [hm] at key
        exact ⟨key.2, by rw [if_pos hp]; exact key.1⟩
    | cons m ms =>
      simp only
      have hsq : ms ≠ [] → m.r = m.c := by
        intro hne
        obtain _ | ⟨m2, ms⟩ := ms
        · exact absurd rfl hne
        have hch : List.IsChain (fun a b => a.c = b.r) s.full := by rw [hfull]; exact hchain
        simp only [MatSeq.full, hm] at hch
        have h1 := (List.isChain_append.1 (List.isChain_append.1 hch).1).2.1
        simp only [List.isChain_cons_cons] at h1
        have h2 := hsame hs m (by simp [hm]) m2 (by simp [hm])
        rw [h1.1, h2.1]
      rw [if_neg (by rintro ⟨h1, h2⟩; exact h2 (hsq h1))]
      have hdims : ∀ y ∈ m :: ms, y.r = m.r ∧ y.c = m.c := fun y hy =>
        hsame hs y (by rw [hm]; exact hy) m (by rw [hm]; simp)
      have hb : (∀ l ∈ s.left, l.c = m.r) ∧ (∀ w ∈ s.right, w.r = m.c) := by
        have hch : List.IsChain (fun a b => a.c = b.r) s.full := by rw [hfull]; exact hchain
        simp only [MatSeq.full, hm] at hch
        obtain ⟨c1, c2, c3⟩ := List.isChain_append.1 hch
        obtain ⟨d1, d2, d3⟩ := List.isChain_append.1 c1
        refine ⟨?_, ?_⟩
        · intro l hl
          have hl : s.left = some l := hl
          exact d3 l (by simp [hl]) m (by simp)
        · intro w hw
          have hw : s.right = some w := hw
          have hlast : (m :: ms).getLast (by simp) ∈ (s.left.toList ++ m :: ms).getLast? := by
            rw [List.getLast?_append_of_ne_nil _ (by simp), List.getLast?_eq_getLast_of_ne_nil (by simp)]
            simp
          have := c3 _ hlast w (by simp [hw])
          rw [← this]
          exact (hdims _ (List.getLast_mem (by simp))).2
      rw [if_pos hb]
      refine ⟨m.r, m.c, elemPar s m.c, rfl, by rw [if_pos hp], ?_, ?_, ?_⟩
      · intro hl
        simp only [MatSeq.full, hl, hm, Option.toList_none, List.nil_append, List.cons_append,
          List.cons.injEq] at hfull
        rw [← hfull.1]
      · intro hr
        have hl : ((x :: xs).getLast (by simp)) ∈ m :: ms := by
          have hh : s.left.toList ++ (m :: ms) = x :: xs := by
            rw [← hfull]; simp [MatSeq.full, hr, hm]
          have : (x :: xs).getLast (by simp) = (m :: ms).getLast (by simp) := by
            simp only [← hh]
            rw [List.getLast_append_of_ne_nil _ (by simp)]
          rw [this]; exact List.getLast_mem _
        exact (hdims _ hl).2.symm
      · intro b
        have key := elemPar_spec s m.c b (x.at b) (xs.map (·.at b)) (by rw [hfull]; rfl)
          (by
            intro a a' l he y hy
            rw [hm] at he hy
            have hne : ms ≠ [] := by
              rintro rfl; simp at he
            have := hdims y hy
            exact ⟨by rw [this.1, hsq hne], this.2⟩)
          (by simp [hm])
        rw [hm] at key
        exact ⟨key.2, by rw [if_pos hp]; exact key.1⟩
  · rw [if_neg hp, hfull]
    simp only
    rw [if_pos hchain]
    refine ⟨x.r, _, elemSeq s, rfl, by rw [if_neg hp], fun _ => rfl, fun _ => rfl, ?_⟩
    intro b
    have hch : ChainOK (x.at b :: xs.map (·.at b)) := by
      rw [chainOK_iff]
      exact (isChain_dims (x :: xs) _ (map_at_dims (x :: xs) b).symm).1 hchain
    have key := elemSeq_spec s b (x.at b) (xs.map (·.at b)) (by rw [hfull]; rfl) hch
    refine ⟨key.2, ?_⟩
    rw [if_neg hp, key.1]
    simp

end TorchMPS

namespace TorchMPS
open Spec
variable {K : Type}

theorem usesParallel_iff [Zero K] {ms : TensorSeq K} {lv rv : Option (Tensor K)} {par : Bool} {B : Shape}
    {s : MatSeq K} (hd : Delivers ms lv rv B s) (hb : s.sameShape = true ↔ Bundled ms) :
    (s.sameShape && (par || (s.left.isNone && s.right.isNone))) = true ↔ UsesParallel ms lv rv par := by
  rw [Bool.and_eq_true, Bool.or_eq_true, Bool.and_eq_true, hd.left, hd.right, hb]
  unfold UsesParallel Bundled
  simp only [Option.isNone_iff_eq_none]
  cases ms <;> rfl

theorem packOut_product [Zero K] {ms : TensorSeq K} {lv rv : Option (Tensor K)} {B : Shape} {s : MatSeq K}
    (hd : Delivers ms lv rv B s) (r c : ℕ) (val : List ℕ → Option (Mat K × ℝ)) (b : List ℕ)
    (hb : InRange b B) (i j : ℕ) (hi : lv ≠ none → i = 0) (hj : rv ≠ none → j = 0) :
    (packOut s r c val).product.get (outIndex lv rv b i j) =
      (val b).map (fun p => p.1.e i j) ∧
    ∀ i' j', (packOut s r c val).logScale.get (outIndex lv rv b i' j') =
      (val b).map (fun p => p.2) := by
  have hl : b.length = s.batch.length := by rw [hd.batch]; exact hb.length_eq
  have e1 : ∀ (x y : List ℕ), (b ++ x ++ y).take s.batch.length = b := by
    intro x y; rw [← hl, List.append_assoc, List.take_left]
  simp only [packOut, outIndex]
  refine ⟨?_, ?_⟩
  · rw [e1]
    have h1 := hd.left
    have h2 := hd.right
    cases hsl : s.left <;> cases hsr : s.right <;> rw [hsl] at h1 <;> rw [hsr] at h2 <;>
      cases lv <;> cases rv <;> simp at h1 h2 <;> simp [← hl] <;> simp_all
  · intro i' j'; rw [e1]

/-- the evaluation of one batch element, from its factors only -/
noncomputable def evalAt [RCLike K] (par : Prop) (D : ℕ) (left : Option (Mat K)) (mats : List (Mat K))
    (right : Option (Mat K)) : Option (Mat K × ℝ) :=
  open Classical in
  if par then
    match matReducePar (match mats with | [] => D | m :: _ => m.c) mats with
    | none => none
    | some (p, l) =>
      let p := match left with
        | some v => v.mul p
        | none => p
      let p := match right with
        | some v => p.mul v
        | none => p
      some (p, l)
  else
    match left.toList ++ mats ++ right.toList with
    | [] => none
    | m :: ms => matReduceSeq m ms

/-- the last axis of a tensor of matrices -/
def lastAxis (ms : TensorSeq K) : ℕ :=
  match ms with
  | .single t => t.shape.getLastD 0
  | .seq _ => 0

theorem Delivers.parts [Zero K] {ms : TensorSeq K} {lv rv : Option (Tensor K)} {B : Shape}
    {s : MatSeq K} (hd : Delivers ms lv rv B s) (b : List ℕ) (hb : InRange b B) :
    s.left.map (·.at b) = lv.map (rowAt · b) ∧ s.right.map (·.at b) = rv.map (colAt · b) := by
  have h1 := hd.left
  have h2 := hd.right
  have h3 := hd.vals b hb
  have h4 := hd.mats b hb
  simp only [MatSeq.full, chainAt, List.map_append, h4] at h3
  cases hl : s.left <;> cases lv <;> simp [hl] at h1 <;>
    cases hr : s.right <;> cases rv <;> simp [hr] at h2 <;> simp_all

/-- the central fact about `contract_matseq` -/
theorem contractMatseq_spec [RCLike K] (ms : TensorSeq K) (lv rv : Option (Tensor K)) (par : Bool)
    (B : Shape) (hw : WellRanked ms lv rv) (hB : IsBroadcast (batchShapes ms lv rv) B)
    (m0 : Mat K) (rest0 : List (Mat K)) (h0 : chainAt ms lv rv [] = m0 :: rest0)
    (hchain : ChainOK (m0 :: rest0)) (hempty : EmptyFits ms lv rv) :
    ∃ out, contractMatseq ms lv rv par = .ok out ∧
      out.product.shape = B ++ (if lv.isNone then [m0.r] else []) ++
        (if rv.isNone then [((m0 :: rest0).getLast (by simp)).c] else []) ∧
      out.logScale.shape = B ++ (if lv.isNone then [1] else []) ++ (if rv.isNone then [1] else []) ∧
      ∀ b, InRange b B → ∃ m rest val, chainAt ms lv rv b = m :: rest ∧ m.r = m0.r ∧
        ChainOK (m :: rest) ∧
        ((m :: rest).getLast (by simp)).c = ((m0 :: rest0).getLast (by simp)).c ∧
        (∀ i j, (lv ≠ none → i = 0) → (rv ≠ none → j = 0) →
          out.product.get (outIndex lv rv b i j) = val.map (fun p : Mat K × ℝ => p.1.e i j)) ∧
        (∀ i j, out.logScale.get (outIndex lv rv b i j) = val.map (fun p => p.2)) ∧
        (∀ P l, val = some (P, l) → P.smul (Real.exp l : K) = matProd m rest) ∧
        val = evalAt (UsesParallel ms lv rv par) (lastAxis ms) (lv.map (rowAt · b)) (matsAt ms b)
          (rv.map (colAt · b)) ∧
        (UsesParallel ms lv rv par → (val = none ↔
          ∃ y z l, matsAt ms b = y :: z :: l ∧ IsZero (matProd y (z :: l)))) ∧
        (¬ UsesParallel ms lv rv par → (val = none ↔ rest ≠ [] ∧ IsZero (matProd m rest))) := by
  obtain ⟨s, D, he, hd, hbund, hsame, hsingle, hseq⟩ := contractMatseq_eq ms lv rv par B hw hB
  rcases hfull : s.full with _ | ⟨x, xs⟩
  · have := hd.dims
    rw [hfull, h0] at this; simp at this
  have hdims := hd.dims
  rw [hfull, h0] at hdims
  have hch : List.IsChain (fun a b => a.c = b.r) (x :: xs) :=
    (isChain_dims _ _ hdims).2 ((chainOK_iff _).1 hchain)
  have hx : x.r = m0.r := by
    simp only [List.map_cons, List.cons.injEq, Prod.mk.injEq] at hdims; exact hdims.1.1
  have hlast : ∀ (l : List (BMat K)) (l' : List (Mat K)) (hl : l ≠ []) (hl' : l' ≠ []),
      l.map (fun m => (m.r, m.c)) = l'.map (fun m => (m.r, m.c)) →
      (l.getLast hl).c = (l'.getLast hl').c := by
    intro l l' hl hl' h
    have e1 : (l.map (fun m => (m.r, m.c))).getLast? = (l'.map (fun m => (m.r, m.c))).getLast? := by
      rw [h]
    rw [List.getLast?_map, List.getLast?_map, List.getLast?_eq_getLast_of_ne_nil hl,
      List.getLast?_eq_getLast_of_ne_nil hl'] at e1
    simp only [Option.map_some, Option.some.injEq, Prod.mk.injEq] at e1
    exact e1.2
  have h0' : s.sameShape = true → s.mats = [] →
      (∀ l ∈ s.left, l.c = D) ∧ (∀ w ∈ s.right, w.r = D) := by
    intro hs hm
    cases ms with
    | single t =>
      obtain ⟨hD, hn⟩ := hsingle t rfl
      obtain ⟨e1, e2⟩ := hempty (hn.1 hm)
      refine ⟨?_, ?_⟩
      · intro l hl
        obtain ⟨v, hv, h1, _⟩ := hd.leftDim l hl
        rw [h1, e1 v hv, hD]
      · intro l hl
        obtain ⟨v, hv, h1, _⟩ := hd.rightDim l hl
        rw [h1, e2 v hv, hD]
    | seq ts =>
      exact absurd hm (hseq ts rfl (hbund.1 hs).1)
  obtain ⟨r, c, val, hev, hveq, hr, hc, hval⟩ := evalMatSeq_ok s par D x xs hfull hch hsame h0'
  refine ⟨packOut s r c val, by rw [he, hev], ?_, ?_, ?_⟩
  · have h1 := hd.left
    have h2 := hd.right
    simp only [packOut, hd.batch]
    rw [← h1, ← h2]
    congr 1
    · congr 1
      by_cases hl : s.left = none
      · rw [hr hl, hx]
      · cases hsl : s.left <;> simp_all
    · by_cases hl : s.right = none
      · rw [hc hl]
        simp only [hl, Option.isNone_none, if_true]
        rw [hlast (x :: xs) (m0 :: rest0) (by simp) (by simp) hdims]
      · cases hsl : s.right <;> simp_all
  · have h1 := hd.left
    have h2 := hd.right
    simp only [packOut, hd.batch]
    rw [← h1, ← h2]
    congr 1
    · congr 1; split <;> simp
    · split <;> simp
  · intro b hb
    have hv := hd.vals b hb
    rw [hfull] at hv
    have hd1 : (x :: xs).map (fun m => (m.r, m.c)) =
        (x.at b :: xs.map (·.at b)).map (fun m => (m.r, m.c)) := (map_at_dims (x :: xs) b).symm
    refine ⟨x.at b, xs.map (fun y => y.at b), val b, by rw [← hv]; rfl, hx, ?_, ?_, ?_, ?_, (hval b).1, ?_, ?_, ?_⟩
    · rw [chainOK_iff]
      exact (isChain_dims (x :: xs) _ hd1).1 hch
    · rw [← hlast (x :: xs) (x.at b :: xs.map (·.at b)) (by simp) (by simp) hd1,
        hlast (x :: xs) (m0 :: rest0) (by simp) (by simp) hdims]
    · intro i j hi hj
      exact (packOut_product hd r c val b hb i j hi hj).1
    · intro i j
      exact (packOut_product hd r c val b hb 0 0 (fun _ => rfl) (fun _ => rfl)).2 i j
    · rw [hveq]
      obtain ⟨p1, p2⟩ := hd.parts b hb
      by_cases hp : UsesParallel ms lv rv par
      · rw [if_pos ((usesParallel_iff hd hbund).2 hp)]
        unfold evalAt elemPar
        rw [if_pos hp, ← hd.mats b hb, ← p1, ← p2]
        have hDD : matReducePar (match s.mats with | [] => D | m :: _ => m.c)
            (s.mats.map (fun y => y.at b)) =
            matReducePar (match s.mats.map (fun y => y.at b) with
              | [] => lastAxis ms | m :: _ => m.c) (s.mats.map (fun y => y.at b)) := by
          cases hm : s.mats with
          | nil =>
            simp only [List.map_nil]
            cases ms with
            | single t => rw [(hsingle t rfl).1]; rfl
            | seq ts =>
              exact absurd hm (hseq ts rfl hp.1.1)
          | cons m l => rfl
        rw [hDD]
        cases matReducePar (match s.mats.map (fun y => y.at b) with
              | [] => lastAxis ms | m :: _ => m.c) (s.mats.map (fun y => y.at b)) with
        | none => rfl
        | some q =>
          obtain ⟨q1, q2⟩ := q
          cases s.left <;> cases s.right <;> rfl
      · rw [if_neg (fun h => hp ((usesParallel_iff hd hbund).1 h))]
        unfold evalAt elemSeq
        rw [if_neg hp]
        have hv' := hd.vals b hb
        simp only [chainAt] at hv'
        rw [hv']
        generalize (lv.map (rowAt · b)).toList ++ matsAt ms b ++ (rv.map (colAt · b)).toList = L
        cases L <;> rfl
    · intro hp
      rw [(hval b).2, if_pos ((usesParallel_iff hd hbund).2 hp), hd.mats b hb]
    · intro hp
      rw [(hval b).2, if_neg (fun h => hp ((usesParallel_iff hd hbund).1 h))]
      simp

end TorchMPS
