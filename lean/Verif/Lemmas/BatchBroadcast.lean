import Verif.Lemmas.Broadcast
/-
Auxiliary lemmas about `batchBroadcast`.
-/
namespace TorchMPS
open Spec
variable {K : Type}

/-- the action of `batchBroadcast` on one tensor, given the common batch shape -/
def bcOne (B : Shape) (p : Tensor K × ℕ) : Except Err (Tensor K) :=
  let t' := p.1.unsqueezeFront (B.length + p.2 - p.1.ndim)
  safeExpand t' (B ++ t'.shape.drop B.length)

theorem axis_getElem (s : Shape) (i : ℕ) (hi : i < s.length) :
    sizeAt s (s.length - 1 - i) = s[i] := by
  unfold sizeAt
  have h : s.length - 1 - i < s.reverse.length := by simp; omega
  rw [List.getD_eq_getElem?_getD, List.getElem?_eq_getElem h]
  simp only [Option.getD_some, List.getElem_reverse]
  congr 1
  omega

theorem bcOne_ok (B : Shape) (t : Tensor K) (k : ℕ) (hk : k ≤ t.ndim)
    (hlen : (t.shape.take (t.ndim - k)).length ≤ B.length)
    (hfit : ∀ j, sizeAt (t.shape.take (t.ndim - k)) j = 1 ∨
      sizeAt (t.shape.take (t.ndim - k)) j = sizeAt B j) :
    ∃ out, bcOne B (t, k) = .ok out ∧ out.shape = B ++ t.shape.drop (t.ndim - k) ∧
      ∀ b nb, InRange b B → InRange nb (t.shape.drop (t.ndim - k)) →
        out.get (b ++ nb) = t.get (sourceIndex (t.shape.take (t.ndim - k)) b ++ nb) := by
  set bs := t.shape.take (t.ndim - k) with hbs
  set nbs := t.shape.drop (t.ndim - k) with hnbs
  have hsh : t.shape = bs ++ nbs := (List.take_append_drop _ _).symm
  have hbl : bs.length = t.ndim - k := by
    rw [hbs, List.length_take]; unfold Tensor.ndim; omega
  set p := B.length + k - t.ndim with hp
  have hp' : p = B.length - bs.length := by omega
  have hdrop : (List.replicate p 1 ++ t.shape).drop B.length = nbs := by
    rw [hsh, ← List.append_assoc]
    rw [List.drop_left' (by simp; omega)]
  have hshape : List.replicate p 1 ++ t.shape = (List.replicate p 1 ++ bs) ++ nbs := by
    rw [hsh, List.append_assoc]
  have hF : List.Forall₂ (fun n m => n = m ∨ n = 1) (List.replicate p 1 ++ bs) B := by
    rw [List.forall₂_iff_get]
    refine ⟨by simp; omega, ?_⟩
    intro i h1 h2
    simp only [List.get_eq_getElem]
    by_cases hi : i < p
    · right; rw [List.getElem_append_left (by simpa using hi)]; simp
    · rw [List.getElem_append_right (by simpa using hi)]
      have h3 : i - (List.replicate p 1).length < bs.length := by
        simp at h1 ⊢; omega
      have e1 := axis_getElem bs _ h3
      have e2 := axis_getElem B i h2
      have e3 : bs.length - 1 - (i - (List.replicate p 1).length) = B.length - 1 - i := by
        simp at h3 ⊢; omega
      rw [← e1, ← e2, e3]
      rcases hfit (B.length - 1 - i) with h | h
      · right; exact h
      · left; exact h
  have hF2 : List.Forall₂ (fun n m => n = m ∨ n = 1)
      (List.replicate p 1 ++ t.shape) (B ++ nbs) := by
    rw [hshape]
    exact List.rel_append hF (List.forall₂_same.2 (fun _ _ => Or.inl rfl))
  have hent : ∀ b nb, InRange b B → InRange nb nbs →
      (Tensor.clampIdx (List.replicate p 1 ++ t.shape) (b ++ nb)).drop p =
        sourceIndex bs b ++ nb := by
    intro b nb hb hnb
    have hbl2 := hb.length_eq
    unfold Tensor.clampIdx
    rw [List.drop_zipWith, List.drop_left' (by simp)]
    rw [List.drop_append_of_le_length (by omega), hsh]
    rw [List.zipWith_append (by simp; omega)]
    have := Tensor.clampIdx_of_inRange hnb
    unfold Tensor.clampIdx at this
    rw [this]
    unfold sourceIndex
    congr 3
    omega
  unfold bcOne
  simp only [Tensor.unsqueezeFront]
  rw [hdrop]
  unfold safeExpand
  split
  · rename_i h0
    rw [List.length_eq_zero_iff, List.append_eq_nil_iff] at h0
    obtain ⟨hB, hn⟩ := h0
    have hbz : bs = [] := by
      rw [hB] at hlen
      simpa using hlen
    have hpz : p = 0 := by rw [hp', hB]; simp
    refine ⟨_, rfl, ?_, ?_⟩
    · change List.replicate p 1 ++ t.shape = B ++ nbs
      rw [hsh, hbz, hpz, hB]; rfl
    · intro b nb hb hnb
      change t.get ((b ++ nb).drop p) = _
      rw [hbz, hpz]
      rw [hB] at hb
      have hb' : b = [] := by simpa using hb.length_eq
      rw [hb']; rfl
  · unfold Tensor.expand
    rw [if_pos hF2]
    refine ⟨_, rfl, rfl, ?_⟩
    intro b nb hb hnb
    exact congrArg t.get (hent b nb hb hnb)

theorem mapM_except_ok {α β : Type} (f : α → Except Err β) (l : List α) (P : α → β → Prop)
    (h : ∀ a ∈ l, ∃ b, f a = .ok b ∧ P a b) :
    ∃ bs, l.mapM f = .ok bs ∧ List.Forall₂ P l bs := by
  induction l with
  | nil => exact ⟨[], rfl, List.Forall₂.nil⟩
  | cons a l ih =>
    obtain ⟨b, hb, hP⟩ := h a (by simp)
    obtain ⟨bs, hbs, hF⟩ := ih (fun x hx => h x (by simp [hx]))
    refine ⟨b :: bs, ?_, List.Forall₂.cons hP hF⟩
    rw [List.mapM_cons, hb, hbs]; rfl

/-- `batchBroadcast` after its assertions, in terms of `bcOne`. -/
theorem batchBroadcast_eq (ts : List (Tensor K)) (nnb : List ℕ)
    (h1 : ts.length = nnb.length) (h2 : ∀ p ∈ ts.zip nnb, p.2 ≤ p.1.ndim)
    (h3 : 2 ≤ ts.length) :
    batchBroadcast ts nnb =
      (shapeBroadcast ((ts.zip nnb).map (fun p => p.1.shape.take (p.1.ndim - p.2)))).bind
        (fun B => (ts.zip nnb).mapM (bcOne B)) := by
  have e0 : assert (ts.length = nnb.length) = .ok () := assert_true _ h1
  have e1 : assert (∀ p ∈ ts.zip nnb, p.2 ≤ p.1.ndim) = .ok () := assert_true _ h2
  unfold batchBroadcast
  rw [e0, e1]
  rw [if_neg (by omega)]
  show (shapeBroadcast _).bind _ = _
  have e2 : List.zipWith (fun (t : Tensor K) k => t.shape.take (t.ndim - k)) ts nnb =
      (ts.zip nnb).map (fun p => p.1.shape.take (p.1.ndim - p.2)) := by
    rw [List.zip, List.map_zipWith]
  rw [e2]
  congr 1
  funext B
  simp only
  have e3 : List.zipWith (fun (t : Tensor K) k => t.unsqueezeFront (B.length + k - t.ndim)) ts nnb =
      (ts.zip nnb).map (fun p => p.1.unsqueezeFront (B.length + p.2 - p.1.ndim)) := by
    rw [List.zip, List.map_zipWith]
  rw [e3, List.map_map]
  generalize ts.zip nnb = l
  induction l with
  | nil => rfl
  | cons a l ih =>
    simp only [List.map_cons, List.zip_cons_cons, List.mapM_cons] at ih ⊢
    rw [ih]
    rfl

end TorchMPS
