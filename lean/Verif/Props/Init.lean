import Verif.Model.MpsBase
import Verif.Props.Utils2
/-
C20: the core initialisers.
-/
namespace TorchMPS
open Spec

/-- the random factor multiplying the standard normal draw: a phase for complex cores -/
noncomputable def Spec.phase (isComplex : Bool) (u : ℝ) : ℂ :=
  if isComplex then Complex.exp (2 * Complex.I * Real.pi * u) else 1

/-- shapes of rank at least 3 accepted by the initialisers: square slices, or a single core -/
def Spec.InitShape (B : Shape) (r c : ℕ) : Prop := B ≠ [] ∧ (r = c ∨ B.dropLast.prod = 1)

theorem initCheck_append (B : Shape) (r c : ℕ) (hB : B ≠ []) :
    initCheck (B ++ [r, c]) = if r ≠ c ∧ B.dropLast.prod ≠ 1 then .error .value else .ok () := by
  have hpos : 0 < B.length := List.length_pos_iff.2 hB
  have h1 : (B ++ [r, c]).getD ((B ++ [r, c]).length - 2) 0 = r := by simp
  have h2 : (B ++ [r, c]).getD ((B ++ [r, c]).length - 1) 0 = c := by simp [List.getElem?_append_right]
  have h3 : (B ++ [r, c]).take ((B ++ [r, c]).length - 3) = B.dropLast := by
    have : (B ++ [r, c]).length - 3 = B.length - 1 := by simp
    rw [this, List.take_append_of_le_length (by omega), List.dropLast_eq_take]
  unfold initCheck
  rw [h1, h2, h3, assert_true _ (by simp; omega)]
  split <;> rfl

theorem initCheck_short (sh : Shape) (h : sh.length < 3) : initCheck sh = .error .assertion := by
  unfold initCheck
  rw [assert_false _ (by omega)]
  rfl

/-- C20: `near_eye_init` returns, for every draw, the identity in every slice plus the draw scaled by
`noise / sqrt(rows * cols)` (times a random phase for complex cores). -/
theorem C20_near_eye_init (B : Shape) (r c : ℕ) (h : InitShape B r c) (isComplex : Bool) (noise : ℝ)
    (z u : List ℕ → ℝ) (ref : List ℕ → ℂ) :
    ∃ t, nearEyeInit (B ++ [r, c]) isComplex noise z u ref = .ok t ∧ t.shape = B ++ [r, c] ∧
      ∀ b i j, InRange b B → i < r → j < c → t.get (b ++ [i, j]) =
        (if i = j then 1 else 0) + ((noise / Real.sqrt ((r * c : ℕ) : ℝ) * z (b ++ [i, j]) : ℝ) : ℂ) *
          phase isComplex (u (b ++ [i, j])) := by
  have hpos : 0 < B.length := List.length_pos_iff.2 h.1
  have h1 : (B ++ [r, c]).getD ((B ++ [r, c]).length - 2) 0 = r := by simp
  have h2 : (B ++ [r, c]).getD ((B ++ [r, c]).length - 1) 0 = c := by simp [List.getElem?_append_right]
  have h3 : (B ++ [r, c]).take ((B ++ [r, c]).length - 2) = B := by simp
  have hbe : batchShape (eyeT r c : Tensor ℂ) 2 = [] := by simp [batchShape, eyeT, Tensor.ndim]
  have hne : nonBatchShape (eyeT r c : Tensor ℂ) 2 = [r, c] := by simp [nonBatchShape, eyeT, Tensor.ndim]
  obtain ⟨e, he1, -, he3⟩ := C04_batchTo_exact (eyeT r c : Tensor ℂ) B 2 ref (by simp [eyeT, Tensor.ndim])
    (by simp [hbe]) (by intro i; left; simp [hbe, sizeAt])
  unfold nearEyeInit
  rw [initCheck_append B r c h.1, if_neg (by rcases h.2 with h | h <;> simp [h]), h1, h2, h3]
  simp only [he1]
  refine ⟨_, rfl, rfl, ?_⟩
  intro b i j hb hi hj
  have hget : e.get (b ++ [i, j]) = if i = j then 1 else 0 := by
    rw [he3 b [i, j] hb (by simp [hne, hi, hj]), hbe]
    simp [sourceIndex, eyeT]
  simp only [hget]
  congr 1
  cases isComplex
  · simp [phase]
  · simp [phase, phaseify]

/-- C20: without noise every slice of `near_eye_init` is exactly the identity. -/
theorem C20_near_eye_init_noiseless (B : Shape) (r c : ℕ) (h : InitShape B r c) (isComplex : Bool)
    (z u : List ℕ → ℝ) (ref : List ℕ → ℂ) :
    ∃ t, nearEyeInit (B ++ [r, c]) isComplex 0 z u ref = .ok t ∧ t.shape = B ++ [r, c] ∧
      ∀ b i j, InRange b B → i < r → j < c → t.get (b ++ [i, j]) = if i = j then 1 else 0 := by
  obtain ⟨t, h1, h2, h3⟩ := C20_near_eye_init B r c h isComplex 0 z u ref
  refine ⟨t, h1, h2, ?_⟩
  intro b i j hb hi hj
  rw [h3 b i j hb hi hj]; simp

/-- C20: `normal_init` returns the draw divided by the size of the last axis (times a random phase for complex
cores); its argument `rel_std` has no effect. -/
theorem C20_normal_init (B : Shape) (r c : ℕ) (h : InitShape B r c) (isComplex : Bool) (relStd : ℝ)
    (z u : List ℕ → ℝ) :
    ∃ t, normalInit (B ++ [r, c]) isComplex relStd z u = .ok t ∧ t.shape = B ++ [r, c] ∧
      ∀ b i j, InRange b B → i < r → j < c → t.get (b ++ [i, j]) =
        ((z (b ++ [i, j]) / c : ℝ) : ℂ) * phase isComplex (u (b ++ [i, j])) := by
  have h2 : (B ++ [r, c]).getD ((B ++ [r, c]).length - 1) 0 = c := by simp [List.getElem?_append_right]
  unfold normalInit
  rw [initCheck_append B r c h.1, if_neg (by rcases h.2 with h | h <;> simp [h]), h2]
  cases isComplex
  · refine ⟨_, rfl, rfl, ?_⟩
    intro b i j _ _ _
    simp [phase]; ring
  · refine ⟨_, rfl, rfl, ?_⟩
    intro b i j _ _ _
    simp [phase, phaseify]; ring

/-- C20: both initialisers reject several cores with non-square slices (ValueError) and shapes with less
than three axes (AssertionError). -/
theorem C20_rejects (isComplex : Bool) (x : ℝ) (z u : List ℕ → ℝ) (ref : List ℕ → ℂ) :
    (∀ (B : Shape) (r c : ℕ), B ≠ [] → r ≠ c → B.dropLast.prod ≠ 1 →
      nearEyeInit (B ++ [r, c]) isComplex x z u ref = .error .value ∧
      normalInit (B ++ [r, c]) isComplex x z u = .error .value) ∧
    (∀ sh : Shape, sh.length < 3 → nearEyeInit sh isComplex x z u ref = .error .assertion ∧
      normalInit sh isComplex x z u = .error .assertion) := by
  refine ⟨fun B r c hB h1 h2 => ?_, fun sh h => ?_⟩
  · unfold nearEyeInit normalInit
    rw [initCheck_append B r c hB, if_pos ⟨h1, h2⟩]
    exact ⟨rfl, rfl⟩
  · unfold nearEyeInit normalInit
    rw [initCheck_short sh h]
    exact ⟨rfl, rfl⟩

/-- Non-vacuity: a fixed-length core with square slices, and a single non-square core. -/
example : InitShape [7, 3] 4 4 ∧ InitShape [3] 4 5 ∧ ¬ InitShape [7, 3] 4 5 := by
  simp [InitShape]

end TorchMPS
