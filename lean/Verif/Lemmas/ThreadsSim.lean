import Verif.Lemmas.ThreadsRow
import Verif.Lemmas.ThreadsRun
import Verif.Lemmas.ThreadsExec
/-
Whatever other threads do, a thread computes sample by sample what an undisturbed evaluation of the single sample computes.
-/
namespace TorchMPS
open Spec Prog
variable {K : Type} {α β γ δ : Type}

/-- all possible results, for arbitrary values of the reads, satisfy `P` -/
def Prog.All (P : Except Err α → Prop) : Prog α → Prop
  | .ret r => P r
  | .read k => ∀ g, All P (k g)
  | .write _ k => All P k

namespace Threads

/-- a result, compared with the undisturbed evaluation of a single sample -/
def Post (q : Prog β) (Q : α → β → Prop) : Except Err α → Prop
  | .ok a => ∃ a', q.run (some 1) = (.ok a', some 1) ∧ Q a a'
  | .error e => e = .type → q.run (some 1) = (.error .type, some 1)

/-- `p`, disturbed arbitrarily, against `q`, undisturbed -/
def Sim (p : Prog α) (q : Prog β) (Q : α → β → Prop) : Prop := p.All (Post q Q)

theorem all_mono (P P' : Except Err α → Prop) (h : ∀ r, P r → P' r) (p : Prog α) (hp : p.All P) : p.All P' := by
  induction p with
  | ret r => exact h r hp
  | read k ih => exact fun g => ih g (hp g)
  | write n k ih => exact ih hp

theorem sim_mono {p : Prog α} {q : Prog β} {Q Q' : α → β → Prop} (h : Sim p q Q) (hQ : ∀ a b, Q a b → Q' a b) : Sim p q Q' := by
  refine all_mono _ _ ?_ p h
  intro r hr
  cases r with
  | ok a =>
    obtain ⟨a', h1, h2⟩ := hr
    exact ⟨a', h1, hQ _ _ h2⟩
  | error e => exact hr

theorem sim_bind {p : Prog α} {q : Prog β} {f : α → Prog γ} {f' : β → Prog δ} {Q : α → β → Prop} {Q' : γ → δ → Prop} (h : Sim p q Q)
    (hf : ∀ a a', Q a a' → Sim (f a) (f' a') Q') : Sim (p >>= f) (q >>= f') Q' := by
  unfold Sim at h ⊢
  induction p with
  | ret r =>
    cases r with
    | ok a =>
      obtain ⟨a', h1, h2⟩ := h
      refine all_mono (Post (f' a') Q') _ ?_ (f a) (hf a a' h2)
      intro r hr
      have hrun : (q >>= f').run (some 1) = (f' a').run (some 1) := by
        rw [Prog.run_bind, CM.bind_ok h1]
      cases r with
      | ok c =>
        obtain ⟨c', e1, e2⟩ := hr
        exact ⟨c', by rw [hrun, e1], e2⟩
      | error e => exact fun he => by rw [hrun]; exact hr he
    | error e =>
      intro he
      rw [Prog.run_bind, CM.bind_err (h he)]
  | read k ih => exact fun g => ih g (h g)
  | write n k ih => exact ih h

theorem sim_exceptType {p y : Prog α} {q z : Prog β} {Q : α → β → Prop} (h : Sim p q Q) (h' : Sim y z Q) : Sim (p.exceptType y) (q.exceptType z) Q := by
  unfold Sim at h
  induction p with
  | ret r =>
    cases r with
    | ok a =>
      obtain ⟨a', h1, h2⟩ := h
      refine ⟨a', ?_, h2⟩
      rw [Prog.run_exceptType]
      simp only [CM.exceptType, h1]
    | error e =>
      by_cases he : e = .type
      · subst he
        refine all_mono _ _ ?_ y h'
        have hrun : (q.exceptType z).run (some 1) = z.run (some 1) := by
          rw [Prog.run_exceptType]
          simp only [CM.exceptType, h rfl]
        intro r hr
        cases r with
        | ok c =>
          obtain ⟨c', e1, e2⟩ := hr
          exact ⟨c', by rw [hrun, e1], e2⟩
        | error e => exact fun he => by rw [hrun]; exact hr he
      · have : (Prog.ret (.error e) : Prog α).exceptType y = .ret (.error e) := by
          cases e <;> first | rfl | exact absurd rfl he
        rw [this]
        exact fun h => absurd h he
  | read k ih => exact fun g => ih g (h g)
  | write n k ih => exact ih h

theorem sim_pure {a : α} {a' : β} {Q : α → β → Prop} (h : Q a a') : Sim (pure a) (pure a') Q := ⟨a', rfl, h⟩

theorem sim_throw {Q : α → β → Prop} (e : Err) : Sim (.throw e) (.throw e) Q := by
  intro he
  subst he
  rfl

theorem sim_throw' {q : Prog β} {Q : α → β → Prop} (e : Err) (he : e ≠ .type) : Sim (.throw e) q Q := fun h => absurd h he

/-- the computation does not raise TypeError -/
def NoType (x : Except Err α) : Prop := x ≠ .error .type

theorem sim_lift {x : Except Err α} {x' : Except Err β} {Q : α → β → Prop} (hx : NoType x) (h : ∀ a, x = .ok a → ∃ a', x' = .ok a' ∧ Q a a') :
    Sim (.lift x) (.lift x') Q := by
  cases x with
  | ok a =>
    obtain ⟨a', e1, e2⟩ := h a rfl
    exact ⟨a', by rw [e1]; rfl, e2⟩
  | error e =>
    intro he
    subst he
    exact absurd rfl hx

theorem sim_same (x : Except Err α) {f : α → Prog γ} {f' : α → Prog δ} {Q : γ → δ → Prop} (h : ∀ a, x = .ok a → Sim (f a) (f' a) Q) :
    Sim (.lift x >>= f) (.lift x >>= f') Q := by
  cases x with
  | ok a => exact h a rfl
  | error e =>
    intro he
    subst he
    rfl

theorem sim_lift_bind {x : Except Err α} {x' : Except Err β} {f : α → Prog γ} {f' : β → Prog δ} {Q : α → β → Prop} {Q' : γ → δ → Prop} (hx : NoType x)
    (h : ∀ a, x = .ok a → ∃ a', x' = .ok a' ∧ Q a a') (hf : ∀ a a', x = .ok a → Q a a' → Sim (f a) (f' a') Q') :
    Sim (.lift x >>= f) (.lift x' >>= f') Q' := by
  cases x with
  | ok a =>
    obtain ⟨a', e1, e2⟩ := h a rfl
    rw [e1]
    exact hf a a' rfl e2
  | error e =>
    intro he
    subst he
    exact absurd rfl hx

theorem noType_bind {x : Except Err α} {f : α → Except Err β} (h : NoType x) (hf : ∀ a, NoType (f a)) : NoType (x >>= f) := by
  cases x with
  | ok a => exact hf a
  | error e => exact fun he => h (by cases he; rfl)

theorem noType_assert (p : Prop) [Decidable p] : NoType (assert p) := by
  unfold NoType assert
  split <;> simp

theorem noType_einsum [CommSemiring K] (ins : List (List Char)) (out : List Char) (ops : List (Tensor K)) : NoType (einsum ins out ops) := by
  unfold NoType einsum
  simp only
  split <;> simp

theorem noType_bmm [CommSemiring K] (a b : Tensor K) : NoType (Tensor.bmm a b) := by
  unfold NoType Tensor.bmm
  split
  · split <;> simp
  · simp

theorem noType_view (a : Tensor K) (s : Shape) : NoType (a.view s) := by
  unfold NoType Tensor.view
  split <;> simp

theorem noType_cat (a b : Tensor K) (d : ℕ) : NoType (a.cat b d) := by
  unfold NoType Tensor.cat
  split <;> simp

theorem noType_expand (a : Tensor K) (s : Shape) : NoType (a.expand s) := by
  unfold NoType Tensor.expand
  split <;> simp

theorem noType_regionApply [CommSemiring K] (m : Tensor K) (r : Bool) (l : List ℕ) (v : Tensor K) : NoType (regionApply m r l v) := by
  induction l generalizing v with
  | nil => simp [regionApply, NoType]
  | cons i l ih =>
    simp only [regionApply]
    split
    · exact noType_bind (noType_bmm _ _) ih
    · exact noType_bind (noType_bmm _ _) ih

theorem noType_regionLoop [CommSemiring K] (f : ℕ) (m : Tensor K) (n : ℕ) : NoType (regionLoop f m n) := by
  induction f generalizing m n with
  | zero => simp [regionLoop, NoType]
  | succ f ih =>
    simp only [regionLoop]
    split
    · exact noType_bind (noType_bind (noType_einsum _ _ _) (fun _ => noType_cat _ _ _)) (fun _ => ih _ _)
    · simp [NoType]

theorem noType_inputRegionMats [CommSemiring K] (t : Tensor K) (bias : Option (Tensor K)) (x : Tensor K) : NoType (inputRegionMats t bias x) := by
  refine noType_bind (noType_assert _) fun _ => noType_bind (noType_assert _) fun _ => noType_bind (noType_assert _) fun _ =>
    noType_bind (noType_einsum _ _ _) fun m => ?_
  cases bias with
  | none => simp [addRegionBias, NoType]
  | some b => exact noType_bind (noType_expand _ _) (fun _ => by simp [NoType, pure, Except.pure])

/-! ### Objects -/

/-- the objects agree in sample `b` -/
structure RowC (b : ℕ) (c c' : Contractable K) : Prop where
  cls : c'.cls = c.cls
  str : c'.bondStr = c.bondStr
  row : Row b c.tensor c'.tensor
  wf : ∃ n, Batched n c

/-- NotImplemented on both sides, or agreeing objects -/
def RowO (b : ℕ) : Option (Contractable K) → Option (Contractable K) → Prop
  | none, none => True
  | some c, some c' => RowC b c c'
  | _, _ => False

theorem sim_mk (b : ℕ) (cls : Cls) (t t' : Tensor K) (s : List Char) (h1 : s.head? = some 'b') (ht : Row b t t') (h3 : t.shape.length = s.length)
    (hr : ClsLen cls s.length) : Sim (mkContractable cls t s) (mkContractable cls t' s) (RowC b) := by
  obtain ⟨n, sh, e1, e2, _⟩ := id ht
  obtain ⟨s', hs⟩ := str_cons h1
  have hne : ¬ needsExpand s t.ndim := by
    unfold needsExpand
    simp only [Tensor.ndim, h3, hs]
    simp
  have h3' : t'.shape.length = s.length := by rw [ht.len, h3]
  have hne' : ¬ needsExpand s t'.ndim := by
    unfold needsExpand
    simp only [Tensor.ndim, h3', hs]
    simp
  have hq : (mkContractable cls t' s).run (some 1) = (.ok ⟨cls, t', s⟩, some 1) := by
    show (if t'.shape = [] ∨ s = [] then _ else _ : Prog (Contractable K)).run (some 1) = _
    rw [if_neg (by simp [e2, hs]), if_neg hne', if_neg (by simp [hs, Tensor.ndim, h3']), if_pos (by simp [e2])]
    rfl
  have hc : Post (mkContractable cls t' s) (RowC b) (.ok ⟨cls, t, s⟩) :=
    ⟨_, hq, rfl, rfl, ht, n, h1, h3, by simp [e1], by rw [h3]; exact hr⟩
  intro g
  show Prog.All _ (if t.shape = [] ∨ s = [] then _ else _)
  rw [if_neg (by simp [e1, hs]), if_neg hne, if_neg (by simp [hs, Tensor.ndim, h3])]
  split
  · exact hc
  · exact hc

theorem sim_ite_throw {c c' : Prop} [Decidable c] [Decidable c'] {p : Prog α} {q : Prog β} {Q : α → β → Prop} (hc : c' → c) (h : Sim p q Q) :
    Sim (if c then .throw .value else p) (if c' then .throw .value else q) Q := by
  split
  · exact sim_throw' _ (by simp)
  · rename_i h1
    rw [if_neg (fun h => h1 (hc h))]
    exact h

theorem sim_mkMatRegion (b : ℕ) (t t' : Tensor K) (ht : Row b t t') (h3 : t.shape.length = 4) : Sim (mkMatRegion t) (mkMatRegion t') (RowC b) := by
  refine sim_ite_throw ?_ (sim_mk b _ t t' _ rfl ht h3 (by simp [ClsLen]))
  unfold Tensor.ndim
  rw [ht.len, h3]
  simp only [show 4 - 2 = 1 + 1 from rfl, show 4 - 1 = 2 + 1 from rfl, ht.axis]
  exact id

theorem sim_mkOutputCore (b : ℕ) (t t' : Tensor K) (ht : Row b t t') (h3 : t.shape.length = 4) : Sim (mkOutputCore t) (mkOutputCore t') (RowC b) := by
  refine sim_ite_throw ?_ (sim_mk b _ t t' _ rfl ht h3 (by simp [ClsLen]))
  unfold Tensor.ndim
  rw [ht.len]
  exact id

theorem sim_mkSingleMat (b : ℕ) (t t' : Tensor K) (ht : Row b t t') (h3 : 3 ≤ t.shape.length) : Sim (mkSingleMat t) (mkSingleMat t') (RowC b) := by
  by_cases h : t.shape.length = 3
  · refine sim_ite_throw ?_ (sim_mk b _ t t' _ rfl ht h (by simp [ClsLen]))
    unfold Tensor.ndim
    rw [ht.len]
    exact id
  · unfold mkSingleMat
    rw [if_pos (by unfold Tensor.ndim; omega)]
    exact sim_throw' _ (by simp)

theorem sim_mkEdgeVec (b : ℕ) (t t' : Tensor K) (l : Bool) (ht : Row b t t') (h3 : t.shape.length = 2) : Sim (mkEdgeVec t l) (mkEdgeVec t' l) (RowC b) := by
  refine sim_ite_throw ?_ (sim_mk b _ t t' _ rfl ht h3 (by simp [ClsLen]))
  unfold Tensor.ndim
  rw [ht.len]
  exact id

theorem sim_mkScalar (b : ℕ) (t t' : Tensor K) (ht : Row b t t') : Sim (mkScalar t) (mkScalar t') (RowC b) := by
  by_cases h : t.shape.length = 1
  · refine sim_ite_throw ?_ (sim_mk b _ t t' _ rfl ht h (by simp [ClsLen]))
    unfold Tensor.ndim
    rw [ht.len]
    exact id
  · unfold mkScalar
    rw [if_pos (by unfold Tensor.ndim; omega)]
    exact sim_throw' _ (by simp)

theorem sim_wrapOut (b : ℕ) (t t' : Tensor K) (s : List Char) (h1 : s.head? = some 'b') (ht : Row b t t') (h3 : t.shape.length = s.length) :
    Sim (wrapOut t s) (wrapOut t' s) (RowC b) := by
  unfold wrapOut
  split
  · rename_i h; exact sim_mkEdgeVec b t t' _ ht (by rw [h3, h]; rfl)
  · split
    · rename_i h; exact sim_mkEdgeVec b t t' _ ht (by rw [h3, h]; rfl)
    · split
      · rename_i h; exact sim_mkSingleMat b t t' ht (by rw [h3, h]; decide)
      · split
        · rename_i h; exact sim_mkOutputCore b t t' ht (by rw [h3, h]; rfl)
        · exact sim_mk b _ t t' _ h1 ht h3 (by simp [ClsLen])

/-- a tensor without batch axis -/
theorem sim_expand (b : ℕ) (cls : Cls) (t : Tensor K) (s : List Char) (h1 : s.head? = some 'b')
    (h0 : t.shape ≠ []) (h3 : t.shape.length + 1 = s.length) (hr : ClsLen cls s.length) :
    Sim (mkContractable cls t s) (mkContractable cls t s) (RowC b) := by
  obtain ⟨s', hs⟩ := str_cons h1
  have hne : needsExpand s t.ndim := Or.inr ⟨h1, by rw [Tensor.ndim, h3]⟩
  have hz : ¬ (t.shape = [] ∨ s = []) := by simp [h0, hs]
  intro g
  show Prog.All _ (if t.shape = [] ∨ s = [] then _ else _)
  rw [if_neg hz, if_pos hne]
  cases g with
  | none => exact fun h => absurd h (by simp)
  | some n =>
    refine ⟨⟨cls, ⟨1 :: t.shape, fun idx => t.get (idx.drop 1)⟩, if s.head? = some 'b' then s else 'b' :: s⟩, ?_, rfl, rfl, ?_, n, ?_, ?_, rfl, ?_⟩
    · show (if t.shape = [] ∨ s = [] then _ else _ : Prog (Contractable K)).run (some 1) = _
      rw [if_neg hz, if_pos hne]
      rfl
    · exact ⟨n, t.shape, rfl, rfl, fun _ idx => rfl⟩
    · simp [h1]
    · simp [h1, h3]
    · simp only [List.length_cons, h3]
      exact hr

end Threads
end TorchMPS
