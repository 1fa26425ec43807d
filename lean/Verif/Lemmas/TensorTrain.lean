import Verif.Spec.Expressive
import Mathlib.LinearAlgebra.FiniteDimensional.Lemmas
/-
The tensor train decomposition: a tensor is a matrix product with bond dimension `D` exactly if its unfoldings have rank at most `D`.
-/
namespace TorchMPS
open Spec
variable {K : Type} [Field K] {n : ℕ} {β : Fin n → Type}

/-- a subspace of dimension at most `D` is spanned by `D` of its vectors -/
theorem exists_family {E : Type} [AddCommGroup E] [_root_.Module K E] (V : Submodule K E) [FiniteDimensional K V] (D : ℕ) (h : Module.finrank K V ≤ D) :
    ∃ w : Fin D → E, (∀ j, w j ∈ V) ∧ V ≤ Submodule.span K (Set.range w) := by
  classical
  let b := Module.finBasis K V
  refine ⟨fun j => if hj : j.val < Module.finrank K V then (b ⟨j, hj⟩ : E) else 0, fun j => ?_, fun x hx => ?_⟩
  · dsimp only
    split
    · exact (b _).2
    · exact V.zero_mem
  · have h1 := b.sum_repr ⟨x, hx⟩
    have h2 : x = ∑ i, b.repr ⟨x, hx⟩ i • (b i : E) := by
      have h3 := congrArg Subtype.val h1
      rw [Submodule.coe_sum] at h3
      simp only [Submodule.coe_smul] at h3
      exact h3.symm
    rw [h2]
    refine Submodule.sum_mem _ fun i _ => Submodule.smul_mem _ _ (Submodule.subset_span ⟨⟨i, by omega⟩, ?_⟩)
    simp

/-- the rows of an unfolding, as functions -/
def ttRow (ψ : (∀ s, β s) → K) (t : ℕ) (u : ∀ s, β s) : (∀ s, β s) → K := fun v => ψ (glue t u v)

/-- the span of the rows of an unfolding -/
def ttSpan (ψ : (∀ s, β s) → K) (t : ℕ) : Submodule K ((∀ s, β s) → K) := Submodule.span K (Set.range (ttRow ψ t))

theorem ttSpan_finrank [∀ s, Fintype (β s)] (ψ : (∀ s, β s) → K) (t : ℕ) : Module.finrank K (ttSpan ψ t) = (unfolding ψ t).rank := by
  rw [Matrix.rank_eq_finrank_span_row]
  rfl

theorem glue_zero (u v : ∀ s, β s) : glue 0 u v = v := by
  funext s; simp [glue]

theorem glue_of_le (t : ℕ) (h : n ≤ t) (u v : ∀ s, β s) : glue t u v = u := by
  funext s
  have := s.2
  simp only [glue]
  rw [if_pos (by omega)]

theorem glue_update (t : Fin n) (u v : ∀ s, β s) (a : β t) : glue t.val u (Function.update v t a) = glue (t.val + 1) (Function.update u t a) v := by
  funext s
  simp only [glue]
  by_cases h : s = t
  · subst h; simp
  · have h' : s.val ≠ t.val := fun e => h (Fin.ext e)
    rw [Function.update_of_ne h, Function.update_of_ne h]
    by_cases h2 : s.val < t.val
    · rw [if_pos h2, if_pos (by omega)]
    · rw [if_neg h2, if_neg (by omega)]

/-- fixing index `t` maps the row space at `t` into the row space at `t + 1` -/
theorem ttSpan_update (ψ : (∀ s, β s) → K) (t : Fin n) (a : β t) (g : (∀ s, β s) → K) (hg : g ∈ ttSpan ψ t) :
    (fun v => g (Function.update v t a)) ∈ ttSpan ψ (t.val + 1) := by
  let T : ((∀ s, β s) → K) →ₗ[K] ((∀ s, β s) → K) := LinearMap.funLeft K K (fun v => Function.update v t a)
  have h : ttSpan ψ t.val ≤ (ttSpan ψ (t.val + 1)).comap T := by
    refine Submodule.span_le.2 ?_
    rintro _ ⟨u, rfl⟩
    refine Submodule.subset_span ⟨Function.update u t a, ?_⟩
    funext v
    simp only [T, LinearMap.funLeft_apply, ttRow, glue_update]
  exact h hg

/-- the list of the matrices of a sequence -/
def ttMats {D : ℕ} (A : ∀ s : Fin n, β s → Matrix (Fin D) (Fin D) K) (x : ∀ s, β s) : List (Matrix (Fin D) (Fin D) K) := List.ofFn fun s => A s (x s)

/-- the matrix product with boundary vectors -/
def ttVal {D : ℕ} (A : ∀ s : Fin n, β s → Matrix (Fin D) (Fin D) K) (l r : Fin D → K) (x : ∀ s, β s) : K :=
  dotProduct l ((ttMats A x).prod.mulVec r)

/-- existence: ranks of at most `D` at all inner bonds suffice -/
theorem tt_exists [∀ s, Fintype (β s)] (D : ℕ) (hD : 1 ≤ D) (ψ : (∀ s, β s) → K) (h : ∀ t, 0 < t → t < n → (unfolding ψ t).rank ≤ D) :
    ∃ (A : ∀ s : Fin n, β s → Matrix (Fin D) (Fin D) K) (l r : Fin D → K), ∀ x, ttVal A l r x = ψ x := by
  classical
  have hfam : ∀ t ≤ n, ∃ w : Fin D → ((∀ s, β s) → K), (∀ j, w j ∈ ttSpan ψ t) ∧ ttSpan ψ t ≤ Submodule.span K (Set.range w) := by
    intro t ht
    refine exists_family _ D ?_
    rcases Nat.eq_zero_or_pos t with rfl | h0
    · refine le_trans (Submodule.finrank_mono (t := Submodule.span K {ψ}) (Submodule.span_le.2 ?_)) ((finrank_span_le_card _).trans (by simpa using hD))
      rintro _ ⟨u, rfl⟩
      refine Submodule.subset_span ?_
      rw [Set.mem_singleton_iff]
      funext v
      simp [ttRow, glue_zero]
    rcases Nat.lt_or_ge t n with h1 | h1
    · rw [ttSpan_finrank]
      exact h t h0 h1
    · refine le_trans (Submodule.finrank_mono (t := Submodule.span K {fun _ => (1 : K)}) (Submodule.span_le.2 ?_)) ((finrank_span_le_card _).trans (by simpa using hD))
      rintro _ ⟨u, rfl⟩
      refine Submodule.mem_span_singleton.2 ⟨ψ u, ?_⟩
      funext v
      simp [ttRow, glue_of_le t h1]
  choose! w hw1 hw2 using hfam
  have hA : ∀ (s : Fin n) (a : β s) (j : Fin D), ∃ c : Fin D → K, ∑ k, c k • w (s.val + 1) k = fun v => w s.val j (Function.update v s a) := by
    intro s a j
    have h1 := hw2 (s.val + 1) s.2 (ttSpan_update ψ s a _ (hw1 s.val s.2.le j))
    exact (Submodule.mem_span_range_iff_exists_fun K).1 h1
  choose A hA using hA
  rcases isEmpty_or_nonempty (∀ s, β s) with he | ⟨⟨v0⟩⟩
  · exact ⟨fun _ _ => 0, 0, 0, fun x => he.elim x⟩
  have hl : ∃ c : Fin D → K, ∑ k, c k • w 0 k = ψ := by
    have h1 : ψ ∈ ttSpan ψ 0 := Submodule.subset_span ⟨v0, by funext v; simp [ttRow, glue_zero]⟩
    exact (Submodule.mem_span_range_iff_exists_fun K).1 (hw2 0 (Nat.zero_le _) h1)
  obtain ⟨l, hl⟩ := hl
  refine ⟨fun s a => Matrix.of fun j k => A s a j k, l, fun k => w n k v0, fun x => ?_⟩
  have hconst : ∀ k (v : ∀ s, β s), w n k v = w n k v0 := by
    intro k v
    have h1 : ttSpan ψ n ≤ LinearMap.ker (LinearMap.proj (R := K) (φ := fun _ : (∀ s, β s) => K) v - LinearMap.proj v0) := by
      refine Submodule.span_le.2 ?_
      rintro _ ⟨u, rfl⟩
      simp [ttRow, glue_of_le n le_rfl]
    have h2 := h1 (hw1 n le_rfl k)
    simpa [sub_eq_zero] using h2
  have key : ∀ k ≤ n, ∀ j, w (n - k) j x = (((ttMats (fun s a => Matrix.of fun j k => A s a j k) x).drop (n - k)).prod.mulVec (fun k => w n k v0)) j := by
    intro k
    induction k with
    | zero =>
      intro _ j
      rw [Nat.sub_zero, List.drop_of_length_le (by simp [ttMats])]
      simp [hconst]
    | succ k ih =>
      intro hk j
      have hlt : n - (k + 1) < n := by omega
      have hs : n - (k + 1) + 1 = n - k := by omega
      have h1 := congrFun (hA ⟨n - (k + 1), hlt⟩ (x _) j) x
      simp only [Function.update_eq_self, Finset.sum_apply, Pi.smul_apply, smul_eq_mul] at h1
      have hlen : n - (k + 1) < (ttMats (fun s a => Matrix.of fun j k => A s a j k) x).length := by simpa [ttMats] using hlt
      have hget : (ttMats (fun s a => Matrix.of fun j k => A s a j k) x)[n - (k + 1)]'hlen =
          Matrix.of fun j q => A ⟨n - (k + 1), hlt⟩ (x ⟨n - (k + 1), hlt⟩) j q := by simp [ttMats]
      rw [← h1, List.drop_eq_getElem_cons hlen, List.prod_cons, ← Matrix.mulVec_mulVec, hs, hget]
      rw [Matrix.mulVec, dotProduct]
      exact Finset.sum_congr rfl fun q _ => by rw [ih (by omega) q, Matrix.of_apply]
  have k0 := key n le_rfl
  simp only [Nat.sub_self, List.drop_zero] at k0
  simp only [ttVal, dotProduct]
  conv_rhs => rw [← hl]
  simp only [Finset.sum_apply, Pi.smul_apply, smul_eq_mul]
  exact Finset.sum_congr rfl fun q _ => by rw [k0 q]

theorem ttMats_glue {D : ℕ} (A : ∀ s : Fin n, β s → Matrix (Fin D) (Fin D) K) (u v : ∀ s, β s) (t : ℕ) :
    ttMats A (glue t u v) = (ttMats A u).take t ++ (ttMats A v).drop t := by
  refine List.ext_getElem (by simp [ttMats]; omega) fun i h1 h2 => ?_
  simp only [ttMats, List.length_ofFn] at h1
  rw [List.getElem_append]
  split
  · rename_i h3
    simp only [ttMats, List.length_take, List.length_ofFn] at h3
    simp only [ttMats, List.getElem_take, List.getElem_ofFn, glue]
    rw [if_pos (by omega)]
  · rename_i h3
    simp only [ttMats, List.length_take, List.length_ofFn] at h3
    simp only [ttMats, List.getElem_drop, List.getElem_ofFn, List.length_take, List.length_ofFn, glue]
    have h4 : t ⊓ n + (i - t ⊓ n) = i := by omega
    have h5 : t + (i - min t n) = i := by omega
    rw [if_neg (by omega)]
    have h6 : ∀ a b (ha : a < n) (hb : b < n), a = b → A ⟨a, ha⟩ (v ⟨a, ha⟩) = A ⟨b, hb⟩ (v ⟨b, hb⟩) := by
      intro a b _ _ hab; subst hab; rfl
    exact h6 _ _ _ _ h5.symm

/-- necessity: matrix products of bond dimension `D` have unfoldings of rank at most `D` -/
theorem tt_rank [∀ s, Fintype (β s)] (D : ℕ) (A : ∀ s : Fin n, β s → Matrix (Fin D) (Fin D) K) (l r : Fin D → K) (t : ℕ) :
    (unfolding (ttVal A l r) t).rank ≤ D := by
  have h : unfolding (ttVal A l r) t = (Matrix.of fun u j => (Matrix.vecMul l ((ttMats A u).take t).prod) j) *
      (Matrix.of fun j v => (((ttMats A v).drop t).prod.mulVec r) j) := by
    ext u v
    rw [Matrix.mul_apply]
    simp only [unfolding, Matrix.of_apply, ttVal]
    rw [ttMats_glue, List.prod_append, ← Matrix.mulVec_mulVec, Matrix.dotProduct_mulVec]
    rfl
  rw [h]
  refine (Matrix.rank_mul_le_left _ _).trans ((Matrix.rank_le_card_width _).trans (by simp))

end TorchMPS
