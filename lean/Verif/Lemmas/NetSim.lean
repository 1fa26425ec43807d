import Verif.Lemmas.NetRel
import Verif.Lemmas.ThreadsList
/-
The rounded program runs in lockstep with the exact program on triples: computations and objects.
-/
namespace TorchMPS
open Spec
variable {K : Type} [RCLike K] {α β α' β' : Type}

/-- the same effect on the global batch size, the same exception or related results -/
def RelM (Q : α → β → Prop) (p : CM α) (q : CM β) : Prop := ∀ g, (p g).2 = (q g).2 ∧ ExRel Q (p g).1 (q g).1

theorem rel_pure {Q : α → β → Prop} {a : α} {b : β} (h : Q a b) : RelM Q (pure a) (pure b) := fun _ => ⟨rfl, .ok a b h⟩
theorem rel_throw {Q : α → β → Prop} (e : Err) : RelM Q (CM.throw e) (CM.throw e) := fun _ => ⟨rfl, .error e⟩
theorem rel_lift {Q : α → β → Prop} {x : Except Err α} {y : Except Err β} (h : ExRel Q x y) : RelM Q (CM.lift x) (CM.lift y) := fun _ => ⟨rfl, h⟩

theorem rel_bind {Q : α → β → Prop} {Q' : α' → β' → Prop} {p : CM α} {q : CM β} {f : α → CM α'} {f' : β → CM β'} (h : RelM Q p q)
    (hf : ∀ a b, Q a b → RelM Q' (f a) (f' b)) : RelM Q' (p >>= f) (q >>= f') := by
  intro g
  obtain ⟨h1, h2⟩ := h g
  rw [CM.bind_apply, CM.bind_apply]
  unfold CM.bind
  cases hp : p g with
  | mk r g1 =>
    cases hq : q g with
    | mk r' g2 =>
      rw [hp, hq] at h1 h2
      simp only at h1 h2
      subst h1
      cases h2 with
      | ok a b h => exact hf a b h g1
      | error e => exact ⟨rfl, .error e⟩

theorem rel_lift_bind {Q : α → β → Prop} {Q' : α' → β' → Prop} {x : Except Err α} {y : Except Err β} {f : α → CM α'} {f' : β → CM β'} (h : ExRel Q x y)
    (hf : ∀ a b, x = .ok a → y = .ok b → Q a b → RelM Q' (f a) (f' b)) : RelM Q' (CM.lift x >>= f) (CM.lift y >>= f') := by
  cases h with
  | ok a b h => exact hf a b rfl rfl h
  | error e => exact rel_throw e

theorem rel_same {Q' : α' → β' → Prop} (x : Except Err α) {f : α → CM α'} {f' : α → CM β'}
    (hf : ∀ a, x = .ok a → RelM Q' (f a) (f' a)) : RelM Q' (CM.lift x >>= f) (CM.lift x >>= f') := by
  cases x with
  | ok a => exact hf a rfl
  | error e => exact rel_throw e

theorem rel_exceptType {Q : α → β → Prop} {p p' : CM α} {q q' : CM β} (h : RelM Q p q) (h' : RelM Q p' q') : RelM Q (CM.exceptType p p') (CM.exceptType q q') := by
  intro g
  obtain ⟨h1, h2⟩ := h g
  unfold CM.exceptType
  cases hp : p g with
  | mk r g1 =>
    cases hq : q g with
    | mk r' g2 =>
      rw [hp, hq] at h1 h2
      simp only at h1 h2
      subst h1
      cases h2 with
      | ok a b h => exact ⟨rfl, .ok a b h⟩
      | error e =>
        cases e
        case type => exact h' g1
        all_goals exact ⟨rfl, .error _⟩

/-! ### Objects -/

/-- how many axes of an object are not bond or output axes -/
def freeAxes (c : Cls) : ℕ := if c = .matRegion then 2 else 1

/-- objects of the same class and shape with approximating entries, with bond and output axes of size at most `S` -/
structure RelC (q : ℝ) (S : ℕ) (c : Contractable K) (c' : Contractable (Tri K)) : Prop where
  cls : c'.cls = c.cls
  str : c'.bondStr = c.bondStr
  rel : TR q c.tensor c'.tensor
  first : c.bondStr.head? = some 'b'
  order : c.tensor.shape.length = c.bondStr.length
  region : Threads.ClsLen c.cls c.tensor.shape.length
  sz : ∀ n ∈ c.tensor.shape.drop (freeAxes c.cls), n ≤ S

theorem rel_mk {q : ℝ} {S : ℕ} (cls : Cls) (t : Tensor K) (t' : Tensor (Tri K)) (s : List Char) (h1 : s.head? = some 'b') (ht : TR q t t')
    (h3 : t.shape.length = s.length) (hr : Threads.ClsLen cls s.length) (hz : ∀ n ∈ t.shape.drop (freeAxes cls), n ≤ S) :
    RelM (RelC q S) (mkContractable cls t s) (mkContractable cls t' s) := by
  obtain ⟨s', hs⟩ := Threads.str_cons h1
  have h0 : t.shape ≠ [] := by
    intro h
    rw [h, hs] at h3
    simp at h3
  have hne : ¬ needsExpand s t.ndim := by
    unfold needsExpand
    simp only [Tensor.ndim, h3, hs]
    simp
  have e : t'.ndim = t.ndim := by simp [Tensor.ndim, ht.1]
  unfold mkContractable
  have k1 : ¬ (t.shape = [] ∨ s = []) := by simp [h0, hs]
  have k2 : ¬ (s.head? ≠ some 'b' ∨ s.length ≠ t.ndim) := by simp [hs, Tensor.ndim, h3]
  simp only [ht.1, e]
  rw [if_neg k1, if_neg k1, if_neg hne, if_neg hne, if_neg k2, if_neg k2]
  intro g
  exact ⟨rfl, .ok _ _ ⟨rfl, rfl, ht, h1, h3, by rw [h3]; exact hr, hz⟩⟩

/-- a tensor without batch axis -/
theorem rel_expand {q : ℝ} {S : ℕ} (cls : Cls) (t : Tensor K) (t' : Tensor (Tri K)) (s : List Char) (h1 : s.head? = some 'b') (ht : TR q t t') (h0 : t.shape ≠ [])
    (h3 : t.shape.length + 1 = s.length) (hr : Threads.ClsLen cls s.length) (hz : ∀ n ∈ t.shape, n ≤ S) :
    RelM (RelC q S) (mkContractable cls t s) (mkContractable cls t' s) := by
  obtain ⟨s', hs⟩ := Threads.str_cons h1
  have hne : needsExpand s t.ndim := Or.inr ⟨h1, by rw [Tensor.ndim, h3]⟩
  have e : t'.ndim = t.ndim := by simp [Tensor.ndim, ht.1]
  unfold mkContractable
  have k1 : ¬ (t.shape = [] ∨ s = []) := by simp [h0, hs]
  simp only [ht.1, e]
  rw [if_neg k1, if_neg k1, if_pos hne, if_pos hne]
  intro g
  cases g with
  | none => exact ⟨rfl, .error _⟩
  | some n =>
    refine ⟨rfl, .ok _ _ ⟨rfl, rfl, ⟨rfl, fun idx => ht.2 _⟩, ?_, ?_, ?_, ?_⟩⟩
    · simp [h1]
    · simp [h1, h3]
    · simp only [List.length_cons, h3]
      exact hr
    · intro n' hn
      refine hz n' ?_
      by_cases hc : cls = .matRegion
      · simp only [freeAxes, if_pos hc] at hn
        exact List.mem_of_mem_drop (i := 1) hn
      · simp only [freeAxes, if_neg hc] at hn
        exact hn

theorem rel_ite_throw {c : Prop} [Decidable c] {c' : Prop} [Decidable c'] {Q : α → β → Prop} {p : CM α} {q : CM β} (hc : c ↔ c') (h : ¬ c → RelM Q p q) (e : Err) :
    RelM Q (if c then CM.throw e else p) (if c' then CM.throw e else q) := by
  by_cases h' : c
  · rw [if_pos h', if_pos (hc.1 h')]
    exact rel_throw e
  · rw [if_neg h', if_neg (fun h => h' (hc.2 h))]
    exact h h'

section
variable {q : ℝ} {S : ℕ} (t : Tensor K) (t' : Tensor (Tri K)) (ht : TR q t t')
include ht

theorem rel_mkMatRegion (h3 : t.shape.length = 4) (hz : ∀ n ∈ t.shape.drop 2, n ≤ S) : RelM (RelC q S) (mkMatRegion t) (mkMatRegion t') := by
  refine rel_ite_throw (by simp only [Tensor.ndim, ht.1]) (fun _ => rel_mk _ t t' _ rfl ht (by rw [h3]; rfl) (by simp [Threads.ClsLen]) (by simpa [freeAxes] using hz)) _

theorem rel_mkOutputCore (h3 : t.shape.length = 4) (hz : ∀ n ∈ t.shape.drop 1, n ≤ S) : RelM (RelC q S) (mkOutputCore t) (mkOutputCore t') := by
  refine rel_ite_throw (by simp only [Tensor.ndim, ht.1]) (fun _ => rel_mk _ t t' _ rfl ht (by rw [h3]; rfl) (by simp [Threads.ClsLen]) (by simpa [freeAxes] using hz)) _

theorem rel_mkOutputCore3 (h3 : t.shape.length = 3) (hz : ∀ n ∈ t.shape, n ≤ S) : RelM (RelC q S) (mkOutputCore t) (mkOutputCore t') := by
  refine rel_ite_throw (by simp only [Tensor.ndim, ht.1]) (fun _ => rel_expand _ t t' _ rfl ht (by intro h; simp [h] at h3) (by rw [h3]; rfl) (by simp [Threads.ClsLen]) hz) _

theorem rel_mkSingleMat (h3 : 3 ≤ t.shape.length) (hz : t.shape.length = 3 → ∀ n ∈ t.shape.drop 1, n ≤ S) : RelM (RelC q S) (mkSingleMat t) (mkSingleMat t') := by
  refine rel_ite_throw (by simp only [Tensor.ndim, ht.1]) (fun h => ?_) _
  have h : t.shape.length = 3 := by
    unfold Tensor.ndim at h
    omega
  exact rel_mk _ t t' _ rfl ht h (by simp [Threads.ClsLen]) (by simpa [freeAxes] using hz h)

theorem rel_mkEdgeVec (l : Bool) (h3 : t.shape.length = 2) (hz : ∀ n ∈ t.shape.drop 1, n ≤ S) : RelM (RelC q S) (mkEdgeVec t l) (mkEdgeVec t' l) := by
  refine rel_ite_throw (by simp only [Tensor.ndim, ht.1]) (fun _ => rel_mk _ t t' _ rfl ht (by rw [h3]; rfl) (by simp [Threads.ClsLen]) (by simpa [freeAxes] using hz)) _

theorem rel_mkEdgeVec1 (l : Bool) (h3 : t.shape.length = 1) (hz : ∀ n ∈ t.shape, n ≤ S) : RelM (RelC q S) (mkEdgeVec t l) (mkEdgeVec t' l) := by
  refine rel_ite_throw (by simp only [Tensor.ndim, ht.1]) (fun _ => rel_expand _ t t' _ rfl ht (by intro h; simp [h] at h3) (by rw [h3]; rfl) (by simp [Threads.ClsLen]) hz) _

theorem rel_mkOutputMat2 (l : Bool) (h3 : t.shape.length = 2) (hz : ∀ n ∈ t.shape, n ≤ S) : RelM (RelC q S) (mkOutputMat t l) (mkOutputMat t' l) := by
  refine rel_ite_throw (by simp only [Tensor.ndim, ht.1]) (fun _ => rel_expand _ t t' _ rfl ht (by intro h; simp [h] at h3) (by rw [h3]; rfl) (by simp [Threads.ClsLen]) hz) _

theorem rel_mkScalar : RelM (RelC q S) (mkScalar t) (mkScalar t') := by
  refine rel_ite_throw (by simp only [Tensor.ndim, ht.1]) (fun h => ?_) _
  have h : t.shape.length = 1 := by
    unfold Tensor.ndim at h
    omega
  refine rel_mk _ t t' _ rfl ht h (by simp [Threads.ClsLen]) ?_
  intro n hn
  rw [List.drop_eq_nil_of_le (by simp [h, freeAxes])] at hn
  simp at hn

theorem rel_wrapOut (s : List Char) (h1 : s.head? = some 'b') (h3 : t.shape.length = s.length) (hz : ∀ n ∈ t.shape.drop 1, n ≤ S) :
    RelM (RelC q S) (wrapOut t s) (wrapOut t' s) := by
  unfold wrapOut
  split
  · rename_i h; exact rel_mkEdgeVec t t' ht _ (by rw [h3, h]; rfl) hz
  · split
    · rename_i h; exact rel_mkEdgeVec t t' ht _ (by rw [h3, h]; rfl) hz
    · split
      · rename_i h; exact rel_mkSingleMat t t' ht (by rw [h3, h]; decide) (fun _ => hz)
      · split
        · rename_i h; exact rel_mkOutputCore t t' ht (by rw [h3, h]; rfl) hz
        · exact rel_mk _ t t' _ h1 ht h3 (by simp [Threads.ClsLen]) (by simpa [freeAxes] using hz)

end

/-- NotImplemented on both sides, or related objects -/
def RelO (q : ℝ) (S : ℕ) : Option (Contractable K) → Option (Contractable (Tri K)) → Prop
  | none, none => True
  | some c, some c' => RelC q S c c'
  | _, _ => False

theorem rel_some {q : ℝ} {S : ℕ} {p : CM (Contractable K)} {p' : CM (Contractable (Tri K))} (h : RelM (RelC q S) p p') :
    RelM (RelO q S) (p >>= fun c => pure (some c)) (p' >>= fun c => pure (some c)) :=
  rel_bind h fun _ _ hc => rel_pure hc

theorem rel_none {q : ℝ} {S : ℕ} : RelM (RelO (K := K) q S) (pure none) (pure none) := rel_pure trivial

/-! ### Sizes -/

theorem letterSize_le (S : ℕ) (hS : 1 ≤ S) (uses : List (Char × ℕ)) (c : Char) (h : ∀ v ∈ uses, v.1 = c → v.2 ≤ S) : letterSize uses c ≤ S := by
  unfold letterSize
  cases hf : ((uses.filter (fun u => u.1 = c)).map Prod.snd).find? (· ≠ 1) with
  | none => simpa using hS
  | some n =>
    have hm := List.mem_of_find?_eq_some hf
    obtain ⟨v, hv, rfl⟩ := List.mem_map.1 hm
    obtain ⟨hv, hc⟩ := List.mem_filter.1 hv
    exact h v hv (by simpa using hc)

omit [RCLike K] in
theorem uses_le (S : ℕ) (u1 u2 : List Char) (a b : Tensor K) (ha : ∀ n ∈ a.shape.drop 1, n ≤ S) (hb : ∀ n ∈ b.shape.drop 1, n ≤ S) (c : Char) (hc : c ≠ 'b') :
    ∀ v ∈ einUses ['b' :: u1, 'b' :: u2] [a, b], v.1 = c → v.2 ≤ S := by
  have key : ∀ (u : List Char) (t : Tensor K), (∀ n ∈ t.shape.drop 1, n ≤ S) → ∀ v ∈ ('b' :: u).zip t.shape, v.1 = c → v.2 ≤ S := by
    intro u t ht v hv hvc
    cases hsh : t.shape with
    | nil => rw [hsh] at hv; simp at hv
    | cons n l =>
      rw [hsh] at hv ht
      simp only [List.zip_cons_cons, List.mem_cons] at hv
      rcases hv with rfl | hv
      · exact absurd hvc.symm hc
      · exact ht _ (by simpa using (List.of_mem_zip hv).2)
  intro v hv
  simp only [einUses, List.zip_cons_cons, List.zip_nil_right, List.flatMap_cons, List.flatMap_nil, List.append_nil, List.mem_append] at hv
  rcases hv with hv | hv
  · exact key u1 a ha v hv
  · exact key u2 b hb v hv

theorem einsum_shape {L : Type} [CommSemiring L] (ins : List (List Char)) (out : List Char) (ops : List (Tensor L)) (t : Tensor L) (h : einsum ins out ops = .ok t) :
    t.shape = out.map (letterSize (einUses ins ops)) := by
  unfold einsum at h
  simp only at h
  split at h
  · cases h
    rfl
  · cases h

theorem nodup_le_one {l : List Char} (h : l.Nodup) (σ : Char) (hl : ∀ c ∈ l, c = σ) : l.length ≤ 1 := by
  have : l ⊆ [σ] := fun c hc => by simp [hl c hc]
  simpa using (List.Nodup.subperm h this).length_le

theorem mulStrings_inner (s1 s2 t1 t2 out : List Char) (h : mulStrings s1 s2 = .ok (t1, t2, out)) : (einInner [t1, t2] out).length ≤ 1 := by
  unfold mulStrings at h
  obtain ⟨⟨s2', free⟩, _, h⟩ := bind_inv h
  cases free with
  | nil => cases h
  | cons σ free =>
    simp only at h
    cases h
    refine nodup_le_one ((List.nodup_dedup _).filter _) σ ?_
    intro c hc
    obtain ⟨hc, ho⟩ := List.mem_filter.1 hc
    have hc := List.mem_dedup.1 hc
    simp only [List.flatten_cons, List.flatten_nil, List.append_nil, List.mem_append] at hc
    by_contra hne
    simp only [decide_eq_true_eq, List.mem_cons, List.mem_append, List.mem_filter, not_or] at ho
    obtain ⟨ob, ⟨⟨o1, o2⟩, o3⟩, o4⟩ := ho
    rcases hc with hc | hc
    · have hcr : c ≠ 'r' := by
        intro hcr
        obtain ⟨d, _, hd⟩ := List.mem_map.1 hc
        split at hd
        · exact hne hd.symm
        · rename_i hd'
          exact hd' (by rw [hd, hcr])
      by_cases hcl : c = 'l'
      · rw [if_pos (by rw [← hcl]; exact hc)] at o3
        simp [hcl] at o3
      · exact o1 ⟨hc, by simp [ob, hcl, hcr, hne]⟩
    · have hcl : c ≠ 'l' := by
        intro hcl
        obtain ⟨d, _, hd⟩ := List.mem_map.1 hc
        split at hd
        · exact hne hd.symm
        · rename_i hd'
          exact hd' (by rw [hd, hcl])
      by_cases hcr : c = 'r'
      · rw [if_pos (by rw [← hcr]; exact hc)] at o4
        simp [hcr] at o4
      · exact o2 ⟨hc, by simp [ob, hcl, hcr, hne]⟩

end TorchMPS
