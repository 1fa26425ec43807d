import Mathlib.LinearAlgebra.Dimension.Free
import Mathlib.LinearAlgebra.Matrix.ToLin
import Mathlib.LinearAlgebra.FiniteDimensional.Basic
import Mathlib.LinearAlgebra.Basis.VectorSpace
import Mathlib.LinearAlgebra.Matrix.Rank
import Verif.Spec.Hankel
/-
Words, matrices and Hankel ranks (the theorem of Carlyle and Paz / Fliess).
-/
namespace TorchMPS
open Spec Matrix
variable {K A O : Type}

/-- the value of a linear representation at a word -/
def wordVal [CommRing K] {D : ℕ} (α : Fin D → K) (T : A → Matrix (Fin D) (Fin D) K) (Ω : O → Fin D → K) (w : List A) (o : O) : K :=
  (α ᵥ* (w.map T).prod) ⬝ᵥ Ω o

theorem wordVal_append [CommRing K] {D : ℕ} (α : Fin D → K) (T : A → Matrix (Fin D) (Fin D) K) (Ω : O → Fin D → K) (u v : List A) (o : O) :
    wordVal α T Ω (u ++ v) o = (α ᵥ* (u.map T).prod) ⬝ᵥ ((v.map T).prod *ᵥ Ω o) := by
  rw [wordVal, List.map_append, List.prod_append, ← Matrix.vecMul_vecMul, Matrix.dotProduct_mulVec]

/-- necessity -/
theorem hankel_le [Field K] {D : ℕ} (α : Fin D → K) (T : A → Matrix (Fin D) (Fin D) K) (Ω : O → Fin D → K) : HankelLe (wordVal α T Ω) D := by
  unfold HankelLe
  set W : Fin D → (List A × O → K) := fun l v => ((v.1.map T).prod *ᵥ Ω v.2) l with hW
  have hsub : Submodule.span K (Set.range (hankelRow (wordVal α T Ω))) ≤ Submodule.span K (Set.range W) := by
    rw [Submodule.span_le]
    rintro _ ⟨u, rfl⟩
    have : hankelRow (wordVal α T Ω) u = ∑ l, (α ᵥ* (u.map T).prod) l • W l := by
      funext v
      rw [hankelRow, wordVal_append, dotProduct, Finset.sum_apply]
      rfl
    rw [this]
    exact Submodule.sum_mem _ (fun l _ => Submodule.smul_mem _ _ (Submodule.subset_span ⟨l, rfl⟩))
  refine (Submodule.rank_mono hsub).trans ((rank_span_le _).trans ?_)
  refine Cardinal.mk_range_le.trans ?_
  simp

/-- the columns of the words beginning with `a` -/
def shiftBy [Field K] (a : A) : (List A × O → K) →ₗ[K] (List A × O → K) where
  toFun h := fun v => h (a :: v.1, v.2)
  map_add' _ _ := rfl
  map_smul' _ _ := rfl

theorem shift_row [Field K] (c : List A → O → K) (a : A) (u : List A) : shiftBy a (hankelRow c u) = hankelRow c (u ++ [a]) := by
  funext v
  simp [shiftBy, hankelRow]

/-- sufficiency -/
theorem hankel_realize [Field K] {D : ℕ} (c : List A → O → K) (h : HankelLe c D) :
    ∃ (α : Fin D → K) (T : A → Matrix (Fin D) (Fin D) K) (Ω : O → Fin D → K), ∀ w o, wordVal α T Ω w o = c w o := by
  set V := Submodule.span K (Set.range (hankelRow c)) with hV
  have hinj : ∃ ι : V →ₗ[K] (Fin D → K), Function.Injective ι := by
    refine rank_le_iff_exists_linearMap.1 ?_
    rw [rank_fin_fun]
    exact h
  obtain ⟨ι, hι⟩ := hinj
  obtain ⟨π, hπ⟩ := ι.exists_leftInverse_of_injective (LinearMap.ker_eq_bot.2 hι)
  have hπ' : ∀ x, π (ι x) = x := fun x => LinearMap.congr_fun hπ x
  have hstable : ∀ a : A, ∀ x ∈ V, shiftBy a x ∈ V := by
    intro a x hx
    have : V ≤ V.comap (shiftBy a) := by
      rw [hV, Submodule.span_le]
      rintro _ ⟨u, rfl⟩
      refine (Submodule.mem_comap).2 ?_
      rw [shift_row]
      exact Submodule.subset_span ⟨_, rfl⟩
    exact this hx
  let σ : A → V →ₗ[K] V := fun a => (shiftBy a).restrict (hstable a)
  let r : List A → V := fun u => ⟨hankelRow c u, Submodule.subset_span ⟨u, rfl⟩⟩
  have hσ : ∀ a u, σ a (r u) = r (u ++ [a]) := fun a u => Subtype.ext (shift_row c a u)
  let ev : O → V →ₗ[K] K := fun o => (LinearMap.proj (([], o) : List A × O)).comp V.subtype
  refine ⟨ι (r []), fun a => (LinearMap.toMatrix' (ι ∘ₗ σ a ∘ₗ π))ᵀ, fun o i => ev o (π (Pi.single i 1)), ?_⟩
  intro w o
  have hstate : ∀ w : List A, ι (r []) ᵥ* (w.map (fun a => (LinearMap.toMatrix' (ι ∘ₗ σ a ∘ₗ π))ᵀ)).prod = ι (r w) := by
    intro w
    induction w using List.reverseRecOn with
    | nil => simp
    | append_singleton w a ih =>
      rw [List.map_append, List.prod_append, ← Matrix.vecMul_vecMul, ih]
      simp only [List.map_cons, List.map_nil, List.prod_cons, List.prod_nil, mul_one]
      rw [Matrix.vecMul_transpose, LinearMap.toMatrix'_mulVec]
      simp only [LinearMap.comp_apply, hπ', hσ]
  rw [wordVal, hstate, dotProduct]
  have : ∑ i, ι (r w) i * ev o (π (Pi.single i 1)) = ev o (π (ι (r w))) := by
    have h2 := LinearMap.pi_apply_eq_sum_univ (ev o ∘ₗ π) (ι (r w))
    rw [LinearMap.comp_apply] at h2
    rw [h2]
    refine Finset.sum_congr rfl (fun i _ => ?_)
    rw [smul_eq_mul, LinearMap.comp_apply]
    have hs : (Pi.single i 1 : Fin D → K) = fun j => if i = j then 1 else 0 := by
      funext j
      simp [Pi.single_apply, eq_comm]
    rw [hs]
    rfl
  rw [this, hπ']
  show c (w ++ []) o = c w o
  rw [List.append_nil]

/-- every finite block of a Hankel matrix of rank at most `D` has rank at most `D` -/
theorem hankel_block [Field K] {D : ℕ} (c : List A → O → K) (h : HankelLe c D) {R C : Type} [Fintype R] [Fintype C] (u : R → List A) (v : C → List A × O) :
    (Matrix.of fun i j => c (u i ++ (v j).1) (v j).2).rank ≤ D := by
  obtain ⟨α, T, Ω, hc⟩ := hankel_realize c h
  have hf : (Matrix.of fun i j => c (u i ++ (v j).1) (v j).2) =
      (Matrix.of fun i (l : Fin D) => (α ᵥ* ((u i).map T).prod) l) * (Matrix.of fun l j => (((v j).1.map T).prod *ᵥ Ω (v j).2) l) := by
    ext i j
    rw [Matrix.of_apply, ← hc, wordVal_append, Matrix.mul_apply]
    rfl
  rw [hf]
  refine (Matrix.rank_mul_le_left _ _).trans ((Matrix.rank_le_card_width _).trans ?_)
  simp

/-- the theorem of Carlyle and Paz -/
theorem hankel_iff [Field K] {D : ℕ} (c : List A → O → K) :
    (∃ (α : Fin D → K) (T : A → Matrix (Fin D) (Fin D) K) (Ω : O → Fin D → K), ∀ w o, wordVal α T Ω w o = c w o) ↔ HankelLe c D := by
  refine ⟨?_, hankel_realize c⟩
  rintro ⟨α, T, Ω, h⟩
  have : wordVal α T Ω = c := by funext w o; exact h w o
  rw [← this]
  exact hankel_le α T Ω

end TorchMPS
