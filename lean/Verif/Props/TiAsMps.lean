import Verif.Props.Gauge
import Verif.Props.TiMps
import Verif.Props.MpsInput
/-
C81: on sequences of a fixed length a TI_MPS is an MPS with periodic boundaries.
-/
namespace TorchMPS
open Spec
variable {K : Type}

/-- the parameters of `tiAsMps` -/
def tiParams [CommSemiring K] (m : TiMps K) (n : ℕ) : Params K where
  left := ⟨[n, m.bondDim, m.bondDim, m.featureDim], fun idx => m.core.get idx.tail⟩
  leftBias := ⟨[1, m.bondDim, m.bondDim], fun idx => tiBiasAt m (idx.getD 1 0) (idx.getD 2 0)⟩
  out := ⟨[m.outputDim, m.bondDim, m.bondDim], fun idx => m.termMat.get [idx.getD 1 0, idx.getD 0 0] * m.initVec.get [idx.getD 2 0]⟩
  right := ⟨[0, m.bondDim, m.bondDim, m.featureDim], fun _ => 0⟩
  rightBias := ⟨[1, m.bondDim, m.bondDim], fun _ => 0⟩

theorem tiAsMps_isMps [CommSemiring K] (m : TiMps K) (n : ℕ) (hn : n ≠ 0) : IsMps n m.useBias (tiParams m n) (tiAsMps m n) := by
  refine ⟨le_refl _, ?_, rfl, rfl, rfl, ?_, rfl⟩
  · rw [if_neg hn, if_pos (show n = (tiAsMps m n).inputDim from rfl)]
    rfl
  · show [0, m.bondDim, m.bondDim, m.featureDim] = [n - n, m.bondDim, m.bondDim, m.featureDim]
    simp

theorem tiState_prod [CommSemiring K] (m : TiMps K) (n : ℕ) (e : Tensor K) (b o : ℕ) (v : ℕ → ℕ → K)
    (hv : ∀ i < n, ∀ f < m.featureDim, e.get [b, i, f] = v i f) (N : ℕ) (hN : N ≤ n) (r : Fin m.bondDim) :
    tiState m v N r = ∑ a, m.initVec.get [(a : Fin m.bondDim)] *
      seqProd (fun j => toMatrix m.bondDim m.bondDim (posMat m.bondDim m.featureDim n m.useBias (tiParams m n) e b o j)) N a r := by
  induction N generalizing r with
  | zero => simp [tiState, seqProd, Matrix.one_apply]
  | succ N ih =>
    rw [tiState, seqProd_succ, ← Fin.sum_univ_eq_sum_range (fun l => tiState m v N l *
      (∑ f ∈ Finset.range m.featureDim, m.core.get [l, r, f] * v N f + tiBiasAt m l r))]
    simp only [Matrix.mul_apply, Finset.mul_sum]
    rw [Finset.sum_comm]
    refine Finset.sum_congr rfl (fun l _ => ?_)
    rw [ih (by omega) l, Finset.sum_mul]
    refine Finset.sum_congr rfl (fun a _ => ?_)
    rw [mul_assoc]
    congr 2
    rw [posMat, if_pos (by omega), pixelMat, affMat, toMatrix_of, entryMat]
    congr 1
    · refine Finset.sum_congr rfl (fun f hf => ?_)
      rw [hv N (by omega) f (Finset.mem_range.1 hf), Params.core, if_pos (by omega)]
      rfl
    · unfold Params.bias
      cases hb : m.useBias with
      | true => rw [if_pos rfl, if_pos (by omega)]; rfl
      | false => simp [tiBiasAt, hb]

theorem tiValue_mps [CommRing K] (m : TiMps K) (n : ℕ) (e : Tensor K) (b o : ℕ) (v : ℕ → ℕ → K)
    (hv : ∀ i < n, ∀ f < m.featureDim, e.get [b, i, f] = v i f) :
    mpsValue m.bondDim m.featureDim n n m.useBias true (tiParams m n) e b o = tiValue m n v o := by
  rw [(mpsValue_chain m.bondDim m.featureDim n n (le_refl n) m.useBias true (tiParams m n) e b o).1 rfl]
  unfold chainMatrix tiValue Matrix.trace
  rw [seqProd_succ, ← Fin.sum_univ_eq_sum_range (fun l => tiState m v n l * m.termMat.get [l, o])]
  simp only [Matrix.diag_apply, Matrix.mul_apply]
  rw [Finset.sum_comm]
  refine Finset.sum_congr rfl (fun l _ => ?_)
  rw [tiState_prod m n e b o v hv n (le_refl n) l, Finset.sum_mul]
  refine Finset.sum_congr rfl (fun a _ => ?_)
  rw [posMat, if_neg (by omega), if_pos rfl, outMat, toMatrix_of, entryMat]
  show _ * (m.termMat.get [(l : ℕ), o] * m.initVec.get [(a : ℕ)]) = _
  ring

/-- C81: for every length of at least 2, a TI_MPS and the MPS `tiAsMps` return the same outputs for every batch of sequences of that length, embedded or not,
whatever calls were made before. (For length 1 the MPS raises an exception, C55; for length 0 both do.) -/
theorem C81_ti_is_mps [CommRing K] (m : TiMps K) (h : IsTi m) (n B : ℕ) (hn : 2 ≤ n) (x : Tensor K) (hx : TiAccepts m B n (.batch x)) (g g' : Option ℕ) :
    ∃ y y', (m.forward (.batch x) g).1 = .ok y ∧ ((tiAsMps m n).forward x g').1 = .ok y' ∧ y.shape = [B, m.outputDim] ∧ y.Eqv y' := by
  obtain ⟨y, y1, y2, y3⟩ := C66_value m h (.batch x) B n hx (by omega) g
  have hemb : Embeddable (tiAsMps m n) x := by
    rcases hx with hx | ⟨hx, he⟩
    · left
      rw [hx]
      rfl
    · right
      rw [hx]
      refine ⟨rfl, ?_⟩
      unfold TiEmbeds at he
      show match m.featureMap with | some φ => _ | none => _
      cases hf : m.featureMap with
      | none => rw [hf] at he; exact he
      | some φ => rw [hf] at he; exact he
  obtain ⟨e, e1, e2, e3⟩ := C57_embedding (tiAsMps m n) x hemb
  have hB : x.shape.getD 0 0 = B := by
    rcases hx with hx | ⟨hx, _⟩ <;> rw [hx] <;> rfl
  rw [hB] at e2 e3
  obtain ⟨y', g1, z1, z2, z3⟩ := mps_forward n m.useBias (tiParams m n) (tiAsMps m n) (tiAsMps_isMps m n (by omega)) (Or.inl rfl)
    (by
      show NoShortRegion n n
      unfold NoShortRegion
      omega) x e ⟨x, rfl, e1⟩ B (by rw [e2]; rfl) g' (Or.inl (by omega))
  refine ⟨y, y', by rw [y1], by rw [z1], y2, by rw [y2, z2]; rfl, ?_⟩
  intro idx hidx
  rw [y2] at hidx
  obtain _ | ⟨b, _ | ⟨o, _ | ⟨_, _⟩⟩⟩ := idx <;> simp at hidx
  obtain ⟨hb, ho⟩ := hidx
  rw [y3 b hb o ho, z3 b hb o ho]
  refine (tiValue_mps m n e b o _ ?_).symm
  intro i hi f hf
  rw [e3 b hb i hi f hf]
  unfold featureEntry tiEntry
  rcases hx with hx | ⟨hx, _⟩
  · simp [hx]
  · simp only [hx]
    rfl

/-- The hypotheses are met: three raw sequences of length 4. -/
example : IsTi exTi ∧ TiAccepts exTi 3 4 (.batch ⟨[3, 4], fun idx => idx.getD 0 0 + 2 * idx.getD 1 0⟩) := ⟨exTi_ok, Or.inr ⟨rfl, rfl⟩⟩

end TorchMPS
