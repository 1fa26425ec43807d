import Verif.Lemmas.ThreadsWp
/-
Batch sizes in the programs of Model/Threads.lean: products, reductions, modules, models.
-/
namespace TorchMPS
open Spec Prog
variable {K : Type} {α β : Type}
namespace Threads
variable {R : Option ℕ → Prop} {W : ℕ → Prop}

theorem einsum_nodup [CommSemiring K] (ins : List (List Char)) (out : List Char) (ops : List (Tensor K)) (t : Tensor K)
    (h : einsum ins out ops = .ok t) : out.Nodup ∧ t.shape.length = out.length := by
  unfold einsum at h
  simp only at h
  split at h
  · rename_i hc
    cases h
    exact ⟨hc.2.2.2.1, by simp⟩
  · cases h

theorem wp_scalarMul [CommSemiring K] (x y : Contractable K) (A B : ℕ) (hx : Batched A x) (hy : Batched B y)
    (hW : ∀ M, Joint A B M → W M) : Wp R W (scalarMul x y) (JointO A B) := by
  unfold scalarMul
  refine wp_lift_bind _ _ _ fun t ht => ?_
  obtain ⟨s, hs⟩ := str_cons hy.first
  obtain ⟨n1, n2⟩ := einsum_nodup _ _ _ _ ht
  rw [hs] at ht n1
  obtain ⟨M, j1, j2, j3⟩ := einsum_batch s [] s y.tensor x.tensor t B A (List.nodup_cons.1 n1).1 (by simp) hy.size hx.size ht
  refine wp_bind _ _ (Batched M) _ (wp_sameClass y B M hy t j2 n2 (hW M j1.symm)) ?_
  intro c hc
  refine wp_pure _ _ ?_
  intro d hd
  simp only [Option.mem_def, Option.some.injEq] at hd
  subst hd
  exact ⟨M, j1.symm, hc⟩

theorem wp_mulMethod [CommSemiring K] (x y : Contractable K) (A B : ℕ) (hx : Batched A x) (hy : Batched B y)
    (hW : ∀ M, Joint A B M → W M) : Wp R W (mulMethod x y) (JointO A B) := by
  unfold mulMethod
  cases x.cls <;> simp only
  case matRegion => exact wp_regionMul x y _ A B hx hy hW
  case outputMat =>
    split
    · trivial
    · exact wp_gmul x y _ A B hx hy hW
  case edgeVec => exact wp_edgeMul x y A B hx hy hW
  case scalar => exact wp_scalarMul x y A B hx hy hW
  all_goals exact wp_gmul x y _ A B hx hy hW

theorem wp_rmulMethod [CommSemiring K] (x y : Contractable K) (A B : ℕ) (hx : Batched A x) (hy : Batched B y)
    (hW : ∀ M, Joint A B M → W M) : Wp R W (rmulMethod x y) (JointO A B) := by
  unfold rmulMethod
  cases x.cls <;> simp only
  case matRegion => exact wp_regionMul x y _ A B hx hy hW
  case outputMat =>
    split
    · trivial
    · exact wp_gmul x y _ A B hx hy hW
  case edgeVec => trivial
  case scalar => exact wp_scalarMul x y A B hx hy hW
  all_goals exact wp_gmul x y _ A B hx hy hW

theorem wp_orElse (p : Prog (Option (Contractable K))) (q : Prog (Contractable K)) (A B : ℕ) (hp : Wp R W p (JointO A B)) (hq : Wp R W q (JointC A B)) :
    Wp R W (orElse p q) (JointC A B) := by
  unfold orElse
  refine wp_bind _ _ _ _ hp ?_
  intro o ho
  cases o with
  | none => exact hq
  | some c => exact ho c rfl

theorem wp_star [CommSemiring K] (x y : Contractable K) (A B : ℕ) (hx : Batched A x) (hy : Batched B y)
    (hW : ∀ M, Joint A B M → W M) : Wp R W (star x y) (JointC A B) := by
  have h1 := wp_mulMethod (R := R) x y A B hx hy hW
  have h2 : Wp R W (rmulMethod y x) (JointO A B) := by
    refine wp_mono _ _ _ (wp_rmulMethod (R := R) y x B A hy hx (fun M hM => hW M hM.symm)) ?_
    intro c hc d hd
    exact (hc d hd).symm
  have h3 : Wp R W (.throw .type) (JointC (K := K) A B) := trivial
  unfold star
  split
  · exact wp_orElse _ _ A B h1 h3
  · split
    · exact wp_orElse _ _ A B h2 (wp_orElse _ _ A B h1 h3)
    · exact wp_orElse _ _ A B h1 (wp_orElse _ _ A B h2 h3)

/-! ### Reductions -/

theorem regionRound_batch [CommSemiring K] (mats v : Tensor K) (size A : ℕ) (hs : mats.shape.head? = some A)
    (h : regionRound mats size = .ok v) : v.shape.head? = some A ∧ v.shape.length = 4 := by
  unfold regionRound at h
  simp only at h
  obtain ⟨p, hp, h⟩ := bind_inv h
  obtain ⟨r, hr⟩ := head_cons hs
  obtain ⟨M, j1, j2, j3⟩ := einsum_batch ['s', 'l', 'u'] ['s', 'u', 'r'] ['s', 'l', 'r'] _ _ p A A (by decide) (by decide)
    (by simp [Tensor.sliceAx, hr]) (by simp [Tensor.sliceAx, hr]) hp
  have hM : M = A := by rcases j1.2.2 with h | h <;> exact h
  subst hM
  unfold Tensor.cat at h
  split at h
  · cases h
    obtain ⟨r', hr'⟩ := head_cons j2
    simp only [List.length_set]
    rw [hr'] at j3 ⊢
    refine ⟨by simp, j3⟩
  · cases h

theorem regionLoop_batch [CommSemiring K] (fuel : ℕ) (mats v : Tensor K) (size A : ℕ) (hs : mats.shape.head? = some A) (hl : mats.shape.length = 4)
    (h : regionLoop fuel mats size = .ok v) : v.shape.head? = some A ∧ v.shape.length = 4 := by
  induction fuel generalizing mats size with
  | zero =>
    simp only [regionLoop] at h
    cases h
    exact ⟨hs, hl⟩
  | succ fuel ih =>
    simp only [regionLoop] at h
    split at h
    · obtain ⟨w, hw, h⟩ := bind_inv h
      obtain ⟨a, b⟩ := regionRound_batch mats w size A hs hw
      exact ih w _ a b h
    · cases h
      exact ⟨hs, hl⟩

theorem wp_reduceItem [CommSemiring K] (c : Contractable K) (A : ℕ) (hc : Batched A c) (hW : W A) : Wp R W (reduceItem c) (Batched A) := by
  unfold reduceItem
  split
  · rename_i hcls
    unfold regionReduce
    refine wp_lift_bind _ _ _ fun v hv => ?_
    obtain ⟨h1, h2⟩ := regionLoop_batch _ _ v _ A hc.size (hc.region.1 (Or.inl hcls)) hv
    obtain ⟨r, hr⟩ := head_cons h1
    refine wp_mkSingleMat _ A _ ?_ ?_ hW (fun _ h => h)
    · unfold Tensor.squeeze
      split
      · rw [hr]
        cases r <;> simp
      · exact h1
    · unfold Tensor.squeeze
      split
      · simp only [List.length_eraseIdx]
        rw [h2]
        simp
      · omega
  · exact wp_pure _ _ hc

/-- objects with the listed numbers of samples -/
abbrev Batches (bs : List ℕ) (cs : List (Contractable K)) : Prop := List.Forall₂ Batched bs cs

theorem wp_reduceItems [CommSemiring K] (bs : List ℕ) (cs : List (Contractable K)) (h : Batches bs cs) (hW : ∀ b ∈ bs, W b) :
    Wp R W (reduceItems cs) (Batches bs) := by
  induction h with
  | nil => exact wp_pure _ _ .nil
  | @cons b c bs cs hc hcs ih =>
    simp only [reduceItems]
    refine wp_bind _ _ _ _ (wp_reduceItem c b hc (hW b (by simp))) ?_
    intro c' hc'
    refine wp_bind _ _ _ _ (ih (fun b hb => hW b (by simp [hb]))) ?_
    intro cs' hcs'
    exact wp_pure _ _ (.cons hc' hcs')

/-- one product less: all sizes other than 1 are still there and none is new -/
def Shrinks (bs : List ℕ) (cs : List (Contractable K)) : Prop :=
  ∃ bs', Batches bs' cs ∧ (∀ b ∈ bs, b = 1 ∨ b ∈ bs') ∧ (∀ b ∈ bs', b ∈ bs) ∧ bs'.length + 1 = bs.length

theorem joint_mem {A B M : ℕ} (h : Joint A B M) : M = A ∨ M = B := h.2.2

theorem wp_mulLast [CommSemiring K] (bs : List ℕ) (cs : List (Contractable K)) (h : Batches bs cs) (hW : ∀ b ∈ bs, W b) :
    Wp R W (mulLast cs) (Shrinks bs) := by
  match bs, cs, h with
  | [], [], _ => trivial
  | [_], [_], _ => trivial
  | [A, B], [a, b], .cons ha (.cons hb .nil) =>
    simp only [mulLast]
    refine wp_bind _ _ _ _ (wp_star a b A B ha hb ?_) ?_
    · intro M hM
      rcases joint_mem hM with h | h <;> rw [h] <;> exact hW _ (by simp)
    · rintro c ⟨M, j, hc⟩
      refine wp_pure _ _ ⟨[M], .cons hc .nil, ?_, ?_, rfl⟩
      · intro b hb
        simp only [List.mem_cons, List.not_mem_nil, or_false] at hb ⊢
        rcases hb with rfl | rfl
        · exact j.1
        · exact j.2.1
      · intro b hb
        simp only [List.mem_cons, List.not_mem_nil, or_false] at hb ⊢
        subst hb
        exact j.2.2
  | A :: B :: D :: bs, a :: b :: d :: cs, .cons ha (.cons hb (.cons hd hcs)) =>
    simp only [mulLast]
    refine wp_bind _ _ _ _ (wp_mulLast (B :: D :: bs) (b :: d :: cs) (.cons hb (.cons hd hcs)) (fun b hb => hW b (by simp at hb ⊢; tauto))) ?_
    rintro cs' ⟨bs', h1, h2, h3, h4⟩
    refine wp_pure _ _ ⟨A :: bs', .cons ha h1, ?_, ?_, by simp at h4 ⊢; omega⟩
    · intro b hb
      rcases List.mem_cons.1 hb with rfl | hb
      · right; simp
      · rcases h2 b hb with h | h
        · exact Or.inl h
        · right; simp [h]
    · intro b hb
      rcases List.mem_cons.1 hb with rfl | hb
      · simp
      · exact List.mem_cons_of_mem _ (h3 b hb)

theorem wp_mulFirst [CommSemiring K] (bs : List ℕ) (cs : List (Contractable K)) (h : Batches bs cs) (hW : ∀ b ∈ bs, W b) :
    Wp R W (mulFirst cs) (Shrinks bs) := by
  match bs, cs, h with
  | [], [], _ => trivial
  | [_], [_], _ => trivial
  | A :: B :: bs, a :: b :: cs, .cons ha (.cons hb hcs) =>
    simp only [mulFirst]
    refine wp_bind _ _ _ _ (wp_star a b A B ha hb ?_) ?_
    · intro M hM
      rcases joint_mem hM with h | h <;> rw [h] <;> exact hW _ (by simp)
    · rintro c ⟨M, j, hc⟩
      refine wp_pure _ _ ⟨M :: bs, .cons hc hcs, ?_, ?_, by simp⟩
      · intro b hb
        simp only [List.mem_cons] at hb ⊢
        rcases hb with rfl | rfl | hb
        · rcases j.1 with h | h
          · exact Or.inl h
          · exact Or.inr (Or.inl h)
        · rcases j.2.1 with h | h
          · exact Or.inl h
          · exact Or.inr (Or.inl h)
        · exact Or.inr (Or.inr hb)
      · intro b hb
        simp only [List.mem_cons] at hb ⊢
        rcases hb with rfl | hb
        · rcases j.2.2 with h | h
          · exact Or.inl h
          · exact Or.inr (Or.inl h)
        · exact Or.inr (Or.inr hb)

/-- the outcome of a reduction -/
def Reduced (bs : List ℕ) (cs : List (Contractable K)) : Prop :=
  ∃ bs', Batches bs' cs ∧ (∀ b ∈ bs, b = 1 ∨ b ∈ bs') ∧ (∀ b ∈ bs', b ∈ bs) ∧ bs'.length ≤ 1

theorem wp_reduceLoop [CommSemiring K] (fuel : ℕ) (bs : List ℕ) (cs : List (Contractable K)) (h : Batches bs cs) (hW : ∀ b ∈ bs, W b) (hf : bs.length ≤ fuel) :
    Wp R W (reduceLoop fuel cs) (Reduced bs) := by
  induction fuel generalizing bs cs with
  | zero =>
    simp only [reduceLoop]
    refine wp_pure _ _ ⟨bs, h, fun b hb => Or.inr hb, fun b hb => hb, by omega⟩
  | succ fuel ih =>
    simp only [reduceLoop]
    split
    · refine wp_bind _ _ _ _ (wp_exceptType _ _ _ (wp_mulLast bs cs h hW) (wp_mulFirst bs cs h hW)) ?_
      rintro cs' ⟨bs', h1, h2, h3, h4⟩
      refine wp_mono _ _ _ (ih bs' cs' h1 (fun b hb => hW b (h3 b hb)) (by omega)) ?_
      rintro cs'' ⟨bs'', k1, k2, k3, k4⟩
      refine ⟨bs'', k1, ?_, fun b hb => h3 b (k3 b hb), k4⟩
      intro b hb
      rcases h2 b hb with h | h
      · exact Or.inl h
      · exact k2 b h
    · rename_i hl
      refine wp_pure _ _ ⟨bs, h, fun b hb => Or.inr hb, fun b hb => hb, ?_⟩
      rw [h.length_eq]
      omega

/-- `reduce` returns an object whose number of samples is that of all factors with more than one sample (or none). -/
theorem wp_reduceList [CommSemiring K] (bs : List ℕ) (cs : List (Contractable K)) (par : Bool) (h : Batches bs cs) (hW : ∀ b ∈ bs, W b) :
    Wp R W (reduceList cs par) (fun c => ∃ M, Batched M c ∧ ∀ b ∈ bs, b = 1 ∨ b = M) := by
  unfold reduceList
  have hp : Wp R W (prepItems cs par) (Batches bs) := by
    unfold prepItems
    split
    · exact wp_reduceItems bs cs h hW
    · exact wp_pure _ _ h
  refine wp_bind _ _ _ _ hp ?_
  intro items hi
  refine wp_bind _ _ _ _ (wp_reduceLoop _ bs items hi hW (by rw [hi.length_eq])) ?_
  rintro res ⟨bs', h1, h2, h3, h4⟩
  match bs', res, h1 with
  | [], [], _ => trivial
  | M :: bs', c :: cs', .cons hc _ =>
    refine wp_pure _ _ ⟨M, hc, ?_⟩
    intro b hb
    have : bs' = [] := by
      simp only [List.length_cons] at h4
      exact List.length_eq_zero_iff.1 (by omega)
    rw [this] at h2
    simpa using h2 b hb

end Threads
end TorchMPS
