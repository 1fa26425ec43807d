import Verif.Props.Mps
import Verif.Spec.Gauge
import Mathlib.LinearAlgebra.Matrix.Trace
/-
Values of an MPS as entries or traces of products of Mathlib matrices.
-/
namespace TorchMPS
open Spec
variable {K : Type}

/-- ordered product of the matrices at positions `0, ..., N-1` -/
def seqProd [CommSemiring K] {D : ℕ} (A : ℕ → Matrix (Fin D) (Fin D) K) (N : ℕ) : Matrix (Fin D) (Fin D) K := ((List.range N).map A).prod

theorem seqProd_succ [CommSemiring K] {D : ℕ} (A : ℕ → Matrix (Fin D) (Fin D) K) (N : ℕ) : seqProd A (N + 1) = seqProd A N * A N := by
  simp [seqProd, List.range_succ]

theorem seqProd_congr [CommSemiring K] {D : ℕ} (A B : ℕ → Matrix (Fin D) (Fin D) K) (N : ℕ) (h : ∀ j < N, A j = B j) : seqProd A N = seqProd B N := by
  unfold seqProd
  congr 1
  exact List.map_congr_left (fun j hj => h j (List.mem_range.1 hj))

/-- The matrix at position `j` of the chain. -/
def posMat [CommSemiring K] (D F k : ℕ) (ub : Bool) (p : Params K) (e : Tensor K) (b o j : ℕ) : Mat K :=
  if j < k then pixelMat D F k ub p e b j else if j = k then outMat D p o else pixelMat D F k ub p e b (j - 1)

theorem mpsMats_sites [CommSemiring K] (D F n k : ℕ) (hk : k ≤ n) (ub : Bool) (p : Params K) (e : Tensor K) (b o : ℕ) :
    mpsMats D F n k ub p e b o = (List.range (n + 1)).map (posMat D F k ub p e b o) := by
  have h : List.range (n + 1) = List.range' 0 k ++ k :: List.range' (k + 1) (n - k) := by
    have h2 := List.range'_append_1 (s := 0) (m := k) (n := n - k + 1)
    rw [List.range_eq_range', ← List.range'_succ, show n + 1 = k + (n - k + 1) by omega, ← h2]
    simp
  rw [h]
  unfold mpsMats pixelMats
  rw [List.map_append, List.map_cons]
  congr 1
  · refine List.map_congr_left ?_
    intro i hi
    have := List.mem_range'_1.1 hi
    simp [posMat, show i < k by omega]
  · congr 1
    · simp [posMat]
    · rw [List.range'_eq_map_range, List.range'_eq_map_range, List.map_map, List.map_map]
      refine List.map_congr_left ?_
      intro i _
      simp [posMat, show ¬ (k + 1 + i < k) by omega, show k + 1 + i ≠ k by omega, show k + 1 + i - 1 = k + i by omega]

theorem posMat_size [CommSemiring K] (D F k : ℕ) (ub : Bool) (p : Params K) (e : Tensor K) (b o j : ℕ) :
    (posMat D F k ub p e b o j).r = D ∧ (posMat D F k ub p e b o j).c = D := by
  unfold posMat
  split_ifs <;> exact ⟨rfl, rfl⟩

/-- product of the chain as a Mathlib matrix -/
def chainMatrix [CommSemiring K] (D F n k : ℕ) (ub : Bool) (p : Params K) (e : Tensor K) (b o : ℕ) : Matrix (Fin D) (Fin D) K :=
  seqProd (fun j => toMatrix D D (posMat D F k ub p e b o j)) (n + 1)

theorem mpsValue_chain [CommRing K] (D F n k : ℕ) (hk : k ≤ n) (ub per : Bool) (p : Params K) (e : Tensor K) (b o : ℕ) :
    (per = true → mpsValue D F n k ub per p e b o = (chainMatrix D F n k ub p e b o).trace) ∧
    (per = false → ∀ hD : 0 < D, mpsValue D F n k ub per p e b o = chainMatrix D F n k ub p e b o ⟨0, hD⟩ ⟨0, hD⟩) := by
  have hm := mpsMats_sites D F n k hk ub p e b o
  have hM : ∃ M, prodL (mpsMats D F n k ub p e b o) = some M ∧ toMatrix D D M = chainMatrix D F n k ub p e b o := by
    rw [hm, List.range_succ_eq_map, List.map_cons]
    refine ⟨_, rfl, ?_⟩
    rw [toMatrix_matProd D _ _ ?_]
    · rw [← List.map_cons, ← List.range_succ_eq_map, List.map_map]
      rfl
    · intro a ha
      rw [← List.map_cons, ← List.range_succ_eq_map] at ha
      obtain ⟨j, _, rfl⟩ := List.mem_map.1 ha
      exact (posMat_size D F k ub p e b o j).2
  obtain ⟨M, hM, hc⟩ := hM
  unfold mpsValue
  rw [orderedProd_some hM, ← hc]
  refine ⟨?_, ?_⟩
  · rintro rfl
    simp only [if_true]
    unfold Matrix.trace
    exact (Fin.sum_univ_eq_sum_range (fun x => M.e x x) D).symm
  · rintro rfl hD
    rfl

theorem seqProd_regauge [CommSemiring K] {D D' : ℕ} (A : ℕ → Matrix (Fin D) (Fin D) K) (B : ℕ → Matrix (Fin D') (Fin D') K)
    (X : ℕ → Matrix (Fin D) (Fin D') K) (Y : ℕ → Matrix (Fin D') (Fin D) K) (N : ℕ)
    (hB : ∀ j < N + 1, B j = Y j * A j * X (j + 1)) (hX : ∀ j, 1 ≤ j → j ≤ N → X j * Y j = 1) :
    seqProd B (N + 1) = Y 0 * seqProd A (N + 1) * X (N + 1) := by
  induction N with
  | zero =>
    rw [seqProd_succ, seqProd_succ, hB 0 (by omega)]
    simp [seqProd]
  | succ N ih =>
    rw [seqProd_succ, ih (fun j hj => hB j (by omega)) (fun j h1 h2 => hX j h1 (by omega)), hB (N + 1) (by omega), seqProd_succ A (N + 1)]
    calc Y 0 * seqProd A (N + 1) * X (N + 1) * (Y (N + 1) * A (N + 1) * X (N + 1 + 1))
        = Y 0 * seqProd A (N + 1) * (X (N + 1) * Y (N + 1)) * A (N + 1) * X (N + 1 + 1) := by simp only [Matrix.mul_assoc]
      _ = _ := by rw [hX (N + 1) (by omega) (by omega)]; simp only [Matrix.mul_assoc, Matrix.one_mul]

end TorchMPS
