import Verif.Lemmas.ThreadsRun
import Verif.Lemmas.MulStrings
import Verif.Lemmas.Stale
/-
Batch sizes in the programs of Model/Threads.lean, whatever the other threads do.
-/
namespace TorchMPS
open Spec
variable {K : Type} {α β : Type}

/-- Whatever values satisfying `R` are read, only values satisfying `W` are written, and a result satisfies `Q`. -/
def Prog.Wp (R : Option ℕ → Prop) (W : ℕ → Prop) : Prog α → (α → Prop) → Prop
  | .ret (.ok a), Q => Q a
  | .ret (.error _), _ => True
  | .read k, Q => ∀ g, R g → Prog.Wp R W (k g) Q
  | .write n k, Q => W n ∧ Prog.Wp R W k Q

namespace Prog
variable {R : Option ℕ → Prop} {W : ℕ → Prop}

theorem wp_throw (e : Err) (Q : α → Prop) : Wp R W (.throw e) Q := trivial

theorem wp_pure (a : α) (Q : α → Prop) (h : Q a) : Wp R W (pure a) Q := h

theorem wp_lift (x : Except Err α) (Q : α → Prop) (h : ∀ a, x = .ok a → Q a) : Wp R W (.lift x) Q := by
  cases x with
  | ok a => exact h a rfl
  | error e => trivial

theorem wp_mono (p : Prog α) (Q Q' : α → Prop) (h : Wp R W p Q) (hq : ∀ a, Q a → Q' a) : Wp R W p Q' := by
  induction p with
  | ret r => cases r with
    | ok a => exact hq a h
    | error e => trivial
  | read k ih => exact fun g hg => ih g (h g hg)
  | write n k ih => exact ⟨h.1, ih h.2⟩

theorem wp_bind (p : Prog α) (f : α → Prog β) (Q : α → Prop) (Q' : β → Prop) (h : Wp R W p Q) (hf : ∀ a, Q a → Wp R W (f a) Q') :
    Wp R W (p >>= f) Q' := by
  induction p with
  | ret r => cases r with
    | ok a => exact hf a h
    | error e => trivial
  | read k ih => exact fun g hg => ih g (h g hg)
  | write n k ih => exact ⟨h.1, ih h.2⟩

theorem wp_lift_bind (x : Except Err α) (f : α → Prog β) (Q : β → Prop) (h : ∀ a, x = .ok a → Wp R W (f a) Q) :
    Wp R W (.lift x >>= f) Q := by
  cases x with
  | ok a => exact h a rfl
  | error e => trivial

theorem wp_exceptType (p q : Prog α) (Q : α → Prop) (h : Wp R W p Q) (h' : Wp R W q Q) : Wp R W (p.exceptType q) Q := by
  induction p with
  | ret r => cases r with
    | ok a => exact h
    | error e => cases e <;> first | exact h' | trivial
  | read k ih => exact fun g hg => ih g (h g hg)
  | write n k ih => exact ⟨h.1, ih h.2⟩

end Prog

open Prog
namespace Threads
variable {R : Option ℕ → Prop} {W : ℕ → Prop}

/-- the number of axes of the classes made from a tensor alone -/
def ClsLen (cls : Cls) (n : ℕ) : Prop := (cls = .matRegion ∨ cls = .outputCore → n = 4) ∧ (cls = .singleMat → n = 3)

/-- A well-formed object with `n` samples. -/
structure Batched (n : ℕ) (c : Contractable K) : Prop where
  first : c.bondStr.head? = some 'b'
  order : c.tensor.shape.length = c.bondStr.length
  size : c.tensor.shape.head? = some n
  region : ClsLen c.cls c.tensor.shape.length

/-- the number of samples of a product of objects with `a` and `b` samples -/
def Joint (a b M : ℕ) : Prop := (a = 1 ∨ a = M) ∧ (b = 1 ∨ b = M) ∧ (M = a ∨ M = b)

theorem Joint.symm {a b M : ℕ} (h : Joint a b M) : Joint b a M := ⟨h.2.1, h.1, h.2.2.symm⟩

theorem head_cons {sh : Shape} {n : ℕ} (h : sh.head? = some n) : ∃ r, sh = n :: r := by
  cases sh with
  | nil => simp at h
  | cons a r => simp at h; exact ⟨r, by rw [h]⟩

theorem str_cons {s : List Char} (h : s.head? = some 'b') : ∃ r, s = 'b' :: r := by
  cases s with
  | nil => simp at h
  | cons a r => simp at h; exact ⟨r, by rw [h]⟩

theorem wp_mk (cls : Cls) (t : Tensor K) (s : List Char) (n : ℕ) (Q : Contractable K → Prop) (h1 : s.head? = some 'b')
    (h2 : t.shape.head? = some n) (h3 : t.shape.length = s.length) (hr : ClsLen cls s.length) (hW : W n)
    (hQ : ∀ c, Batched n c → Q c) :
    Wp R W (mkContractable cls t s) Q := by
  obtain ⟨sh, hsh⟩ := head_cons h2
  obtain ⟨s', hs⟩ := str_cons h1
  have hne : ¬ needsExpand s t.ndim := by
    unfold needsExpand
    simp only [Tensor.ndim, h3, hs]
    simp
  have hc : Q ⟨cls, t, s⟩ := hQ _ ⟨h1, h3, h2, by rw [h3]; exact hr⟩
  intro g _
  have hz : ¬ (t.shape = [] ∨ s = []) := by simp [hsh, hs]
  show Wp R W (if t.shape = [] ∨ s = [] then _ else _) Q
  rw [if_neg hz, if_neg hne, if_neg (by simp [hs, Tensor.ndim, h3])]
  split
  · exact hc
  · refine ⟨?_, hc⟩
    rw [hsh]
    exact hW

theorem wp_mkMatRegion (t : Tensor K) (n : ℕ) (Q : Contractable K → Prop) (h2 : t.shape.head? = some n) (h3 : t.shape.length = 4) (hW : W n)
    (hQ : ∀ c, Batched n c → Q c) : Wp R W (mkMatRegion t) Q := by
  unfold mkMatRegion
  split
  · trivial
  · exact wp_mk _ _ _ n Q rfl h2 h3 (by simp [ClsLen]) hW hQ

theorem wp_mkOutputCore (t : Tensor K) (n : ℕ) (Q : Contractable K → Prop) (h2 : t.shape.head? = some n) (h3 : t.shape.length = 4) (hW : W n)
    (hQ : ∀ c, Batched n c → Q c) : Wp R W (mkOutputCore t) Q := by
  unfold mkOutputCore
  split
  · trivial
  · exact wp_mk _ _ _ n Q rfl h2 h3 (by simp [ClsLen]) hW hQ

/-- also for tensors which may have kept a site axis -/
theorem wp_mkSingleMat (t : Tensor K) (n : ℕ) (Q : Contractable K → Prop) (h2 : t.shape.head? = some n) (h3 : 3 ≤ t.shape.length) (hW : W n)
    (hQ : ∀ c, Batched n c → Q c) : Wp R W (mkSingleMat t) Q := by
  unfold mkSingleMat
  split
  · trivial
  · rename_i h
    exact wp_mk _ _ _ n Q rfl h2 (by simp only [Tensor.ndim] at h; simp; omega) (by simp [ClsLen]) hW hQ

theorem wp_mkEdgeVec (t : Tensor K) (b : Bool) (n : ℕ) (Q : Contractable K → Prop) (h2 : t.shape.head? = some n) (h3 : t.shape.length = 2) (hW : W n)
    (hQ : ∀ c, Batched n c → Q c) : Wp R W (mkEdgeVec t b) Q := by
  unfold mkEdgeVec
  split
  · trivial
  · exact wp_mk _ _ _ n Q rfl h2 h3 (by simp [ClsLen]) hW hQ

theorem wp_mkScalar (t : Tensor K) (n : ℕ) (Q : Contractable K → Prop) (h2 : t.shape.head? = some n) (hW : W n)
    (hQ : ∀ c, Batched n c → Q c) : Wp R W (mkScalar t) Q := by
  unfold mkScalar
  split
  · trivial
  · rename_i h
    exact wp_mk _ _ _ n Q rfl h2 (by simp only [Tensor.ndim] at h; simp; omega) (by simp [ClsLen]) hW hQ

theorem wp_wrapOut (t : Tensor K) (s : List Char) (n : ℕ) (Q : Contractable K → Prop) (h1 : s.head? = some 'b')
    (h2 : t.shape.head? = some n) (h3 : t.shape.length = s.length) (hW : W n) (hQ : ∀ c, Batched n c → Q c) :
    Wp R W (wrapOut t s) Q := by
  unfold wrapOut
  split
  · rename_i h; exact wp_mkEdgeVec t true n Q h2 (by rw [h3, h]; rfl) hW hQ
  · split
    · rename_i h; exact wp_mkEdgeVec t false n Q h2 (by rw [h3, h]; rfl) hW hQ
    · split
      · rename_i h; exact wp_mkSingleMat t n Q h2 (by rw [h3, h]; simp) hW hQ
      · split
        · rename_i h; exact wp_mkOutputCore t n Q h2 (by rw [h3, h]; rfl) hW hQ
        · exact wp_mk _ _ _ n Q h1 h2 h3 (by simp [ClsLen]) hW hQ

/-! ### Batch sizes of products -/

theorem filter_b (u : List Char) (A : ℕ) (sh : Shape) (hu : 'b' ∉ u) :
    (('b' :: u).zip (A :: sh)).filter (fun v => v.1 = 'b') = [('b', A)] := by
  rw [List.zip_cons_cons, List.filter_cons, if_pos (by simp)]
  congr 1
  rw [List.filter_eq_nil_iff]
  intro v hv
  have := (List.of_mem_zip hv).1
  simp only [decide_eq_true_eq]
  intro h
  exact hu (h ▸ this)

theorem einsum_batch [CommSemiring K] (u1 u2 out : List Char) (x y t : Tensor K) (A B : ℕ) (h1 : 'b' ∉ u1) (h2 : 'b' ∉ u2)
    (hx : x.shape.head? = some A) (hy : y.shape.head? = some B)
    (h : einsum ['b' :: u1, 'b' :: u2] ('b' :: out) [x, y] = .ok t) :
    ∃ M, Joint A B M ∧ t.shape.head? = some M ∧ t.shape.length = out.length + 1 := by
  obtain ⟨s1, hs1⟩ := head_cons hx
  obtain ⟨s2, hs2⟩ := head_cons hy
  unfold einsum at h
  simp only at h
  split at h
  · rename_i hc
    obtain ⟨_, _, hcompat, _, _⟩ := hc
    simp only [List.zip_cons_cons, List.zip_nil_right, List.flatMap_cons, List.flatMap_nil, List.append_nil] at hcompat h
    have hAB := hcompat ('b', A) (by rw [hs1]; simp) ('b', B) (by rw [hs2]; simp) rfl
    simp only at hAB
    cases h
    refine ⟨_, ?_, rfl, by simp⟩
    have hl : letterSize (('b' :: u1).zip x.shape ++ ('b' :: u2).zip y.shape) 'b' = if A ≠ 1 then A else if B ≠ 1 then B else 1 := by
      unfold letterSize
      rw [List.filter_append, hs1, hs2, filter_b u1 A s1 h1, filter_b u2 B s2 h2]
      by_cases hA : A = 1 <;> by_cases hB : B = 1 <;> simp [hA, hB, List.find?]
    rw [hl]
    unfold Joint
    split
    · omega
    · split <;> omega
  · cases h

theorem einsum_batch1 [CommSemiring K] (u out : List Char) (x t : Tensor K) (A : ℕ) (h1 : 'b' ∉ u)
    (hx : x.shape.head? = some A) (h : einsum ['b' :: u] ('b' :: out) [x] = .ok t) : t.shape.head? = some A := by
  obtain ⟨s1, hs1⟩ := head_cons hx
  unfold einsum at h
  simp only at h
  split at h
  · cases h
    simp only [List.zip_cons_cons, List.zip_nil_right, List.flatMap_cons, List.flatMap_nil, List.append_nil]
    simp only [List.map_cons, List.head?_cons, Option.some.injEq]
    unfold letterSize
    rw [hs1, filter_b u A s1 h1]
    by_cases hA : A = 1 <;> simp [hA, List.find?]
  · cases h

theorem mulStrings_b (s1 s2 t1 t2 out : List Char) (h1 : ('b' :: s1).Nodup) (h2 : ('b' :: s2).Nodup) (hr : 'r' ∈ 'b' :: s1) (hl : 'l' ∈ 'b' :: s2)
    (h : mulStrings ('b' :: s1) ('b' :: s2) = .ok (t1, t2, out)) :
    ∃ u1 u2 o, t1 = 'b' :: u1 ∧ t2 = 'b' :: u2 ∧ out = 'b' :: o ∧ 'b' ∉ u1 ∧ 'b' ∉ u2 := by
  have hen : EnoughLetters ('b' :: s1) ('b' :: s2) := by
    by_contra hcon
    rw [mulStrings_err _ _ h1 h2 hcon] at h
    cases h
  obtain ⟨a1, a2, a3, ρ, σ, e, sp⟩ := mulStrings_spec _ _ h1 h2 (by simp) hr hl hen
  rw [e] at h
  cases h
  have hσ : σ ≠ 'b' := fun hh => sp.sig1 (by rw [hh]; simp)
  have hb1 : 'b' ∉ s1 := (List.nodup_cons.1 h1).1
  have hb2 : 'b' ∉ s2 := (List.nodup_cons.1 h2).1
  refine ⟨s1.map (fun c => if c = 'r' then σ else c), s2.map (fun c => if c = 'l' then σ else ρ c), _, ?_, ?_, sp.out_eq, ?_, ?_⟩
  · rw [sp.t1_eq]; simp
  · rw [sp.t2_eq]
    simp [sp.special 'b' (by simp) (Or.inl rfl)]
  · intro hm
    obtain ⟨c, hc, he⟩ := List.mem_map.1 hm
    split at he
    · exact hσ he
    · rw [he] at hc
      exact hb1 hc
  · intro hm
    obtain ⟨c, hc, he⟩ := List.mem_map.1 hm
    split at he
    · exact hσ he
    · have hρb := sp.special 'b' (by simp) (Or.inl rfl)
      have := sp.inj c (by simp [hc]) 'b' (by simp) (by rw [he, hρb])
      rw [this] at hc
      exact hb2 hc

theorem nodup_of_dedup (s : List Char) (h : s.dedup.length = s.length) : s.Nodup := by
  have := List.Sublist.eq_of_length (List.dedup_sublist s) h
  rw [← this]
  exact List.nodup_dedup s

theorem checkBonds_inv (s : List Char) (side : Char) (u : Unit) (h : checkBonds s side = .ok u) : s.Nodup ∧ side ∈ s := by
  unfold checkBonds at h
  obtain ⟨_, h1, h⟩ := bind_inv h
  obtain ⟨_, h2, h⟩ := bind_inv h
  obtain ⟨_, h3, h⟩ := bind_inv h
  rw [assert_ok_iff] at h2 h
  exact ⟨nodup_of_dedup s h2, h⟩

/-- what a product satisfies -/
def JointC (A B : ℕ) (c : Contractable K) : Prop := ∃ M, Joint A B M ∧ Batched M c

/-- what a method returning a product or NotImplemented satisfies -/
def JointO (A B : ℕ) (c : Option (Contractable K)) : Prop := ∀ d ∈ c, JointC A B d

theorem JointC.symm {A B : ℕ} {c : Contractable K} (h : JointC A B c) : JointC B A c := by
  obtain ⟨M, h1, h2⟩ := h
  exact ⟨M, h1.symm, h2⟩

theorem wp_mulCore [CommSemiring K] (x y : Contractable K) (A B : ℕ) (hx : Batched A x) (hy : Batched B y) (hW : ∀ M, Joint A B M → W M) :
    Wp R W (do
      .lift (checkBonds x.bondStr 'r')
      .lift (checkBonds y.bondStr 'l')
      let s ← .lift (mulStrings x.bondStr y.bondStr)
      let t ← .lift (einsum [s.1, s.2.1] s.2.2 [x.tensor, y.tensor])
      let c ← wrapOut t s.2.2
      return some c) (JointO A B) := by
  refine wp_lift_bind _ _ _ fun _ c1 => wp_lift_bind _ _ _ fun _ c2 => wp_lift_bind _ _ _ fun s hs => wp_lift_bind _ _ _ fun t ht => ?_
  obtain ⟨n1, m1⟩ := checkBonds_inv _ _ _ c1
  obtain ⟨n2, m2⟩ := checkBonds_inv _ _ _ c2
  obtain ⟨s1, e1⟩ := str_cons hx.first
  obtain ⟨s2, e2⟩ := str_cons hy.first
  obtain ⟨t1, t2, out⟩ := s
  rw [e1] at n1 m1 hs
  rw [e2] at n2 m2 hs
  obtain ⟨u1, u2, o, r1, r2, r3, q1, q2⟩ := mulStrings_b _ _ _ _ _ n1 n2 m1 m2 hs
  simp only at ht ⊢
  rw [r1, r2, r3] at ht
  obtain ⟨M, j1, j2, j3⟩ := einsum_batch _ _ _ _ _ _ A B q1 q2 hx.size hy.size ht
  rw [r3]
  refine wp_bind _ _ (Batched M) _ (wp_wrapOut _ _ M _ rfl j2 (by rw [j3]; rfl) (hW M j1) (fun c hc => hc)) ?_
  intro c hc
  refine wp_pure _ _ ?_
  intro d hd
  simp only [Option.mem_def, Option.some.injEq] at hd
  subst hd
  exact ⟨M, j1, hc⟩

theorem wp_gmul [CommSemiring K] (x y : Contractable K) (r : Bool) (A B : ℕ) (hx : Batched A x) (hy : Batched B y)
    (hW : ∀ M, Joint A B M → W M) : Wp R W (gmul x y r) (JointO A B) := by
  unfold gmul
  split
  · exact wp_pure _ _ (fun d hd => by simp at hd)
  · cases r with
    | false => exact wp_mulCore x y A B hx hy hW
    | true =>
      refine wp_mono _ _ _ (wp_mulCore y x B A hy hx (fun M hM => hW M hM.symm)) ?_
      intro c hc d hd
      exact (hc d hd).symm

theorem bmm_inv [CommSemiring K] (a b c : Tensor K) (h : Tensor.bmm a b = .ok c) :
    ∃ B n m p, a.shape = [B, n, m] ∧ b.shape = [B, m, p] ∧ c.shape = [B, n, p] := by
  unfold Tensor.bmm at h
  split at h
  · rename_i B n m B' m' p h1 h2
    split at h
    · rename_i hc
      cases h
      exact ⟨B, n, m, p, h1, by rw [h2, hc.1, hc.2], rfl⟩
    · cases h
  · cases h

theorem regionApply_shape [CommSemiring K] (mats : Tensor K) (A : ℕ) (hm : mats.shape.head? = some A) (rmul : Bool) (sites : List ℕ) (vec v : Tensor K)
    (h : regionApply mats rmul sites vec = .ok v) (hne : sites ≠ [] ∨ (if rmul then ∃ D, vec.shape = [A, 1, D] else ∃ D, vec.shape = [A, D, 1]))
    (hd : if rmul then vec.shape.getD 1 0 = 1 else vec.shape.getD 2 0 = 1) :
    (vec.shape.head? = some A) ∧ if rmul then ∃ D, v.shape = [A, 1, D] else ∃ D, v.shape = [A, D, 1] := by
  induction sites generalizing vec with
  | nil =>
    simp only [regionApply] at h
    cases h
    have hne := hne.resolve_left (by simp)
    refine ⟨?_, hne⟩
    cases rmul with
    | true => obtain ⟨D, hD⟩ := hne; rw [hD]; rfl
    | false => obtain ⟨D, hD⟩ := hne; rw [hD]; rfl
  | cons s ss ih =>
    simp only [regionApply] at h
    obtain ⟨r, hr⟩ := head_cons hm
    have hsel : (mats.select 1 s).shape.head? = some A := by
      simp only [Tensor.select, hr]
      cases r <;> simp
    cases rmul with
    | true =>
      simp only [if_true] at h hd
      obtain ⟨w, hw, h⟩ := bind_inv h
      obtain ⟨B, n, m, p, e1, e2, e3⟩ := bmm_inv _ _ _ hw
      rw [e2] at hsel
      simp only [List.head?_cons, Option.some.injEq] at hsel
      subst hsel
      rw [e1] at hd
      simp only [List.getD_cons_succ, List.getD_cons_zero] at hd
      rw [hd] at e3
      have := ih w h (Or.inr (by simp only [if_true]; exact ⟨p, e3⟩)) (by simp only [if_true]; rw [e3]; rfl)
      exact ⟨by rw [e1]; rfl, this.2⟩
    | false =>
      simp only [Bool.false_eq_true, if_false] at h hd
      obtain ⟨w, hw, h⟩ := bind_inv h
      obtain ⟨B, n, m, p, e1, e2, e3⟩ := bmm_inv _ _ _ hw
      rw [e1] at hsel
      simp only [List.head?_cons, Option.some.injEq] at hsel
      subst hsel
      rw [e2] at hd
      simp only [List.getD_cons_succ, List.getD_cons_zero] at hd
      rw [hd] at e3
      have := ih w h (Or.inr (by simp only [Bool.false_eq_true, if_false]; exact ⟨n, e3⟩)) (by simp only [Bool.false_eq_true, if_false]; rw [e3]; rfl)
      exact ⟨by rw [e2]; rfl, this.2⟩

theorem wp_regionMul [CommSemiring K] (x y : Contractable K) (r : Bool) (A B : ℕ) (hx : Batched A x) (hy : Batched B y)
    (hW : ∀ M, Joint A B M → W M) : Wp R W (regionMul x y r) (JointO A B) := by
  unfold regionMul
  split
  · exact wp_pure _ _ (fun d hd => by simp at hd)
  · simp only
    split
    · trivial
    · rename_i hn
      refine wp_lift_bind _ _ _ fun v hv => ?_
      obtain ⟨ry, hry⟩ := head_cons hy.size
      cases r with
      | true =>
        simp only [if_true] at hv ⊢
        have hd : (y.tensor.unsqueeze 1).shape.getD 1 0 = 1 := by
          simp [Tensor.unsqueeze, hry]
        obtain ⟨k1, k2⟩ := regionApply_shape x.tensor A hx.size true _ _ v hv (Or.inl (by simpa using hn)) hd
        have hAB : B = A := by
          simp [Tensor.unsqueeze, hry] at k1
          exact k1
        simp only [if_true] at k2
        obtain ⟨D, hD⟩ := k2
        refine wp_bind _ _ (Batched A) _ (wp_mkEdgeVec _ _ A _ ?_ ?_ (hW A ⟨by simp, by simp [hAB], by simp⟩) (fun c hc => hc)) ?_
        · simp [Tensor.squeeze, hD]
        · simp [Tensor.squeeze, hD]
        · intro c hc
          refine wp_pure _ _ ?_
          intro d hd
          simp only [Option.mem_def, Option.some.injEq] at hd
          subst hd
          exact ⟨A, ⟨by simp, by simp [hAB], by simp⟩, hc⟩
      | false =>
        simp only [Bool.false_eq_true, if_false] at hv ⊢
        have hd3 : ∃ D, ry = [D] := by
          have hne : (List.range (x.tensor.shape.getD 1 0)).reverse ≠ [] := by simpa using hn
          obtain ⟨s0, ss, hss⟩ := List.exists_cons_of_ne_nil hne
          rw [hss] at hv
          simp only [regionApply, Bool.false_eq_true, if_false] at hv
          obtain ⟨w, hw, _⟩ := bind_inv hv
          obtain ⟨B', n, m, p, e1, e2, e3⟩ := bmm_inv _ _ _ hw
          simp only [Tensor.unsqueeze, hry] at e2
          match ry, e2 with
          | [], e2 => simp at e2
          | [D], e2 => exact ⟨D, rfl⟩
          | _ :: _ :: _, e2 => simp at e2
        obtain ⟨D0, hD0⟩ := hd3
        have hd : (y.tensor.unsqueeze 2).shape.getD 2 0 = 1 := by
          simp [Tensor.unsqueeze, hry, hD0]
        obtain ⟨k1, k2⟩ := regionApply_shape x.tensor A hx.size false _ _ v hv (Or.inl (by simpa using hn)) hd
        have hAB : B = A := by
          simp [Tensor.unsqueeze, hry, hD0] at k1
          exact k1
        simp only [Bool.false_eq_true, if_false] at k2
        obtain ⟨D, hD⟩ := k2
        refine wp_bind _ _ (Batched A) _ (wp_mkEdgeVec _ _ A _ ?_ ?_ (hW A ⟨by simp, by simp [hAB], by simp⟩) (fun c hc => hc)) ?_
        · simp [Tensor.squeeze, hD]
        · simp [Tensor.squeeze, hD]
        · intro c hc
          refine wp_pure _ _ ?_
          intro d hd
          simp only [Option.mem_def, Option.some.injEq] at hd
          subst hd
          exact ⟨A, ⟨by simp, by simp [hAB], by simp⟩, hc⟩

theorem wp_edgeMul [CommSemiring K] (x y : Contractable K) (A B : ℕ) (hx : Batched A x) (hy : Batched B y)
    (hW : ∀ M, Joint A B M → W M) : Wp R W (edgeMul x y) (JointO A B) := by
  unfold edgeMul
  split
  · exact wp_pure _ _ (fun d hd => by simp at hd)
  · refine wp_lift_bind _ _ _ fun p hp => wp_lift_bind _ _ _ fun q hq => ?_
    obtain ⟨rx, hrx⟩ := head_cons hx.size
    obtain ⟨ry, hry⟩ := head_cons hy.size
    obtain ⟨B', n, m, k, e1, e2, e3⟩ := bmm_inv _ _ _ hp
    have h1 : A = B' := by
      simp [Tensor.unsqueeze, hrx] at e1
      exact e1.1
    have h2 : B = B' := by
      simp only [Tensor.unsqueeze, hry] at e2
      rw [List.insertIdx_succ_cons] at e2
      exact (List.cons.inj e2).1
    have hj : Joint A B A := ⟨by simp, by omega, by simp⟩
    have hq' : q.shape = [A] := by
      unfold Tensor.view at hq
      split at hq
      · cases hq; simp [hrx]
      · cases hq
    refine wp_bind _ _ (Batched A) _ (wp_mkScalar _ A _ (by rw [hq']; rfl) (hW A hj) (fun c hc => hc)) ?_
    intro c hc
    refine wp_pure _ _ ?_
    intro d hd
    simp only [Option.mem_def, Option.some.injEq] at hd
    subst hd
    exact ⟨A, hj, hc⟩

theorem wp_sameClass (c : Contractable K) (A M : ℕ) (hc : Batched A c) (t : Tensor K) (h1 : t.shape.head? = some M) (h2 : t.shape.length = c.bondStr.length)
    (hM : W M) : Wp R W (sameClass c t) (Batched M) := by
  unfold sameClass
  cases hcls : c.cls with
  | contractable => exact wp_mk _ _ _ M _ hc.first h1 h2 (by simp [ClsLen]) hM (fun _ h => h)
  | matRegion => exact wp_mkMatRegion _ M _ h1 (by rw [h2, ← hc.order]; exact hc.region.1 (Or.inl hcls)) hM (fun _ h => h)
  | outputCore =>
    exact wp_mkOutputCore _ M _ h1 (by rw [h2, ← hc.order]; exact hc.region.1 (Or.inr hcls)) hM (fun _ h => h)
  | singleMat => exact wp_mkSingleMat _ M _ h1 (by rw [h2, ← hc.order, hc.region.2 hcls]) hM (fun _ h => h)
  | outputMat => trivial
  | edgeVec => trivial
  | scalar => exact wp_mkScalar _ M _ h1 hM (fun _ h => h)

end Threads
end TorchMPS
