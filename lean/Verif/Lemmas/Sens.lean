import Verif.Spec.Sens
import Verif.Lemmas.NetValue
import Mathlib.Algebra.Ring.Subsemiring.Basic
import Mathlib.Algebra.Ring.Subsemiring.Defs
/-
Values of networks as polynomials with natural coefficients: they stay in every subsemiring containing the parameters and inputs.
-/
namespace TorchMPS
open Spec
variable {K R : Type}

theorem matOf_mem [CommRing R] (S : Subsemiring R) (r c : ℕ) (e : ℕ → ℕ → R) (h : ∀ i < r, ∀ j < c, e i j ∈ S) (i j : ℕ) : (Mat.of r c e).e i j ∈ S := by
  simp only [Mat.of]
  split
  · rename_i hh
    exact h i hh.1 j hh.2
  · exact S.zero_mem

theorem orderedProd_mem [CommRing R] (S : Subsemiring R) (l : List (Mat R)) (h : ∀ M ∈ l, ∀ i j, M.e i j ∈ S) (P : Mat R) (hP : orderedProd l = some P) (i j : ℕ) :
    P.e i j ∈ S := by
  rw [orderedProd_eq] at hP
  cases l with
  | nil => cases hP
  | cons M l =>
    rw [prodL_cons_foldl] at hP
    cases hP
    have hM := h M (by simp)
    have hl : ∀ M ∈ l, ∀ i j, M.e i j ∈ S := fun N hN => h N (by simp [hN])
    clear h
    induction l generalizing M i j with
    | nil => exact hM i j
    | cons N l ih =>
      rw [List.foldl_cons]
      refine ih _ ?_ ?_ ?_ ?_
      · intro i j
        simp only [Mat.mul]
        exact S.sum_mem fun k _ => S.mul_mem (hM i k) (hl N (by simp) k j)
      · exact fun N hN => hl N (by simp [hN])

theorem mpsValue_mem [CommRing R] (S : Subsemiring R) (D F n k O B : ℕ) (hk : k ≤ n) (ub per : Bool) (p : Params R) (e : Tensor R)
    (h1 : ∀ idx, InRange idx [k, D, D, F] → p.left.get idx ∈ S) (h2 : ∀ idx, InRange idx [1, D, D] → p.leftBias.get idx ∈ S)
    (h3 : ∀ idx, InRange idx [O, D, D] → p.out.get idx ∈ S) (h4 : ∀ idx, InRange idx [n - k, D, D, F] → p.right.get idx ∈ S)
    (h5 : ∀ idx, InRange idx [1, D, D] → p.rightBias.get idx ∈ S) (h6 : ∀ idx, InRange idx [B, n, F] → e.get idx ∈ S) (b o : ℕ) (hb : b < B) (ho : o < O) :
    mpsValue D F n k ub per p e b o ∈ S := by
  have hpix : ∀ i < n, ∀ l r, (pixelMat D F k ub p e b i).e l r ∈ S := by
    intro i hi l r
    unfold pixelMat affMat
    refine matOf_mem S D D _ ?_ l r
    intro l hl r hr
    refine S.add_mem (S.sum_mem fun f hf => ?_) ?_
    · rw [Finset.mem_range] at hf
      refine S.mul_mem ?_ (h6 _ (by simp [InRange, hb, hi, hf]))
      unfold Params.core
      split
      · exact h1 _ (by simp [InRange, *])
      · exact h4 _ (by simp [InRange, hl, hr, hf]; omega)
    · unfold Params.bias
      split
      · split
        · exact h2 _ (by simp [InRange, hl, hr])
        · exact h5 _ (by simp [InRange, hl, hr])
      · exact S.zero_mem
  unfold mpsValue
  split
  · rename_i M hM
    have := orderedProd_mem S _ (by
      intro M hM
      unfold mpsMats pixelMats at hM
      rw [List.mem_append, List.mem_cons, List.mem_map, List.mem_map] at hM
      rcases hM with ⟨i, hi, rfl⟩ | rfl | ⟨i, hi, rfl⟩
      · rw [List.mem_range'_1] at hi
        exact hpix i (by omega)
      · intro l r
        exact matOf_mem S D D _ (fun l hl r hr => h3 _ (by simp [InRange, ho, hl, hr])) l r
      · rw [List.mem_range'_1] at hi
        exact hpix i (by omega)) M hM
    split
    · exact S.sum_mem fun i _ => this i i
    · exact this 0 0
  · exact S.zero_mem

theorem tiValue_mem [CommRing R] (S : Subsemiring R) (m : TiMps R) (n : ℕ) (x : ℕ → ℕ → R) (o : ℕ) (h1 : ∀ l < m.bondDim, ∀ r < m.bondDim, ∀ f < m.featureDim, m.core.get [l, r, f] ∈ S)
    (h2 : ∀ l < m.bondDim, m.initVec.get [l] ∈ S) (h3 : ∀ l < m.bondDim, m.termMat.get [l, o] ∈ S) (h4 : ∀ l < m.bondDim, ∀ r < m.bondDim, tiBiasAt m l r ∈ S)
    (h5 : ∀ i < n, ∀ f < m.featureDim, x i f ∈ S) : tiValue m n x o ∈ S := by
  have hs : ∀ i ≤ n, ∀ r < m.bondDim, tiState m x i r ∈ S := by
    intro i
    induction i with
    | zero => exact fun _ r hr => h2 r hr
    | succ i ih =>
      intro hi r hr
      refine S.sum_mem fun l hl => ?_
      rw [Finset.mem_range] at hl
      refine S.mul_mem (ih (by omega) l hl) (S.add_mem (S.sum_mem fun f hf => ?_) (h4 l hl r hr))
      rw [Finset.mem_range] at hf
      exact S.mul_mem (h1 l hl r hr f hf) (h5 i (by omega) f hf)
  refine S.sum_mem fun l hl => ?_
  rw [Finset.mem_range] at hl
  exact S.mul_mem (hs n (le_refl n) l hl) (h3 l hl)

/-- the value depends on the entries only -/
theorem mpsValue_get [CommRing R] (D F n k : ℕ) (ub per : Bool) (p p' : Params R) (e e' : Tensor R) (b o : ℕ) (h1 : p.left.get = p'.left.get)
    (h2 : p.leftBias.get = p'.leftBias.get) (h3 : p.out.get = p'.out.get) (h4 : p.right.get = p'.right.get) (h5 : p.rightBias.get = p'.rightBias.get)
    (h6 : e.get = e'.get) : mpsValue D F n k ub per p e b o = mpsValue D F n k ub per p' e' b o := by
  unfold mpsValue mpsMats pixelMats pixelMat outMat Params.core Params.bias
  rw [h1, h2, h3, h4, h5, h6]

/-- the value depends on the entries only -/
theorem tiValue_get [CommRing R] (m m' : TiMps R) (n : ℕ) (x : ℕ → ℕ → R) (o : ℕ) (h1 : m.bondDim = m'.bondDim) (h2 : m.featureDim = m'.featureDim)
    (h3 : m.core.get = m'.core.get) (h4 : m.initVec.get = m'.initVec.get) (h5 : m.termMat.get = m'.termMat.get) (h6 : tiBiasAt m = tiBiasAt m') :
    tiValue m n x o = tiValue m' n x o := by
  have hs : tiState m x = tiState m' x := by
    funext i
    induction i with
    | zero => funext r; simp only [tiState, h4]
    | succ i ih => funext r; simp only [tiState, ih, h1, h2, h3, h6]
  unfold tiValue
  rw [hs, h1, h5]

/-- a value, a changed value, a bound of the value, and a bound of both whose excess bounds the change -/
abbrev Quad (K : Type) := K × K × ℝ × ℝ

/-- the quadruples with these properties are closed under sums and products -/
def nearS (K : Type) [RCLike K] : Subsemiring (Quad K) where
  carrier := {z | ‖z.1‖ ≤ z.2.2.1 ∧ ‖z.2.1 - z.1‖ ≤ z.2.2.2 - z.2.2.1}
  zero_mem' := by simp
  one_mem' := by simp
  add_mem' := by
    rintro a b ⟨a1, a2⟩ ⟨b1, b2⟩
    refine ⟨le_trans (norm_add_le _ _) (add_le_add a1 b1), ?_⟩
    simp only [Prod.fst_add, Prod.snd_add]
    rw [add_sub_add_comm]
    refine le_trans (norm_add_le _ _) ?_
    linarith
  mul_mem' := by
    rintro a b ⟨a1, a2⟩ ⟨b1, b2⟩
    refine ⟨?_, ?_⟩
    · simp only [Prod.fst_mul, Prod.snd_mul, norm_mul]
      exact mul_le_mul a1 b1 (norm_nonneg _) (le_trans (norm_nonneg _) a1)
    · simp only [Prod.fst_mul, Prod.snd_mul]
      have e : a.2.1 * b.2.1 - a.1 * b.1 = (a.2.1 - a.1) * b.2.1 + a.1 * (b.2.1 - b.1) := by ring
      have hb : ‖b.2.1‖ ≤ b.2.2.2 := by
        have := norm_add_le (b.2.1 - b.1) b.1
        rw [sub_add_cancel] at this
        linarith
      have k1 : ‖a.2.1 - a.1‖ * ‖b.2.1‖ ≤ (a.2.2.2 - a.2.2.1) * b.2.2.2 := mul_le_mul a2 hb (norm_nonneg _) (le_trans (norm_nonneg _) a2)
      have k2 : ‖a.1‖ * ‖b.2.1 - b.1‖ ≤ a.2.2.1 * (b.2.2.2 - b.2.2.1) := mul_le_mul a1 b2 (norm_nonneg _) (le_trans (norm_nonneg _) a1)
      rw [e]
      refine le_trans (norm_add_le _ _) ?_
      rw [norm_mul, norm_mul]
      linarith

/-- four tensors as one -/
def quadT (a b : Tensor K) (v w : Tensor ℝ) : Tensor (Quad K) := ⟨a.shape, fun idx => (a.get idx, b.get idx, v.get idx, w.get idx)⟩

/-- the bounds hold for all entries in range -/
def NearT [RCLike K] (s : Shape) (a b : Tensor K) (v w : Tensor ℝ) : Prop :=
  ∀ idx, InRange idx s → ‖a.get idx‖ ≤ v.get idx ∧ ‖b.get idx - a.get idx‖ ≤ w.get idx - v.get idx

/-- changed value of an MPS -/
theorem mpsValue_near [RCLike K] (D F n k O B : ℕ) (hk : k ≤ n) (ub per : Bool) (p p' : Params K) (v w : Params ℝ) (e e' : Tensor K) (ve we : Tensor ℝ)
    (h1 : NearT [k, D, D, F] p.left p'.left v.left w.left) (h2 : NearT [1, D, D] p.leftBias p'.leftBias v.leftBias w.leftBias)
    (h3 : NearT [O, D, D] p.out p'.out v.out w.out) (h4 : NearT [n - k, D, D, F] p.right p'.right v.right w.right)
    (h5 : NearT [1, D, D] p.rightBias p'.rightBias v.rightBias w.rightBias) (h6 : NearT [B, n, F] e e' ve we) (b o : ℕ) (hb : b < B) (ho : o < O) :
    ‖mpsValue D F n k ub per p' e' b o - mpsValue D F n k ub per p e b o‖ ≤ mpsValue D F n k ub per w we b o - mpsValue D F n k ub per v ve b o := by
  have := (mpsValue_mem (nearS K) D F n k O B hk ub per
    ⟨quadT p.left p'.left v.left w.left, quadT p.leftBias p'.leftBias v.leftBias w.leftBias, quadT p.out p'.out v.out w.out, quadT p.right p'.right v.right w.right,
      quadT p.rightBias p'.rightBias v.rightBias w.rightBias⟩ (quadT e e' ve we) h1 h2 h3 h4 h5 h6 b o hb ho).2
  set P : Params (Quad K) := ⟨quadT p.left p'.left v.left w.left, quadT p.leftBias p'.leftBias v.leftBias w.leftBias, quadT p.out p'.out v.out w.out,
    quadT p.right p'.right v.right w.right, quadT p.rightBias p'.rightBias v.rightBias w.rightBias⟩ with hP
  have t1 : (mpsValue D F n k ub per P (quadT e e' ve we) b o).1 = mpsValue D F n k ub per p e b o :=
    (mpsValue_mapHom (RingHom.fst K (K × ℝ × ℝ)) D F n k ub per _ _ b o).trans (mpsValue_get D F n k ub per _ _ _ _ b o rfl rfl rfl rfl rfl rfl)
  have t2 : (mpsValue D F n k ub per P (quadT e e' ve we) b o).2.1 = mpsValue D F n k ub per p' e' b o :=
    (mpsValue_mapHom ((RingHom.fst K (ℝ × ℝ)).comp (RingHom.snd K (K × ℝ × ℝ))) D F n k ub per _ _ b o).trans (mpsValue_get D F n k ub per _ _ _ _ b o rfl rfl rfl rfl rfl rfl)
  have t3 : (mpsValue D F n k ub per P (quadT e e' ve we) b o).2.2.1 = mpsValue D F n k ub per v ve b o :=
    (mpsValue_mapHom (((RingHom.fst ℝ ℝ).comp (RingHom.snd K (ℝ × ℝ))).comp (RingHom.snd K (K × ℝ × ℝ))) D F n k ub per _ _ b o).trans
      (mpsValue_get D F n k ub per _ _ _ _ b o rfl rfl rfl rfl rfl rfl)
  have t4 : (mpsValue D F n k ub per P (quadT e e' ve we) b o).2.2.2 = mpsValue D F n k ub per w we b o :=
    (mpsValue_mapHom (((RingHom.snd ℝ ℝ).comp (RingHom.snd K (ℝ × ℝ))).comp (RingHom.snd K (K × ℝ × ℝ))) D F n k ub per _ _ b o).trans
      (mpsValue_get D F n k ub per _ _ _ _ b o rfl rfl rfl rfl rfl rfl)
  rw [t1, t2, t3, t4] at this
  exact this

/-- changed value of a TI_MPS; `v` and `w` hold the bounds -/
theorem tiValue_near [RCLike K] (m m' : TiMps K) (v w : TiMps ℝ) (hd : m'.bondDim = m.bondDim ∧ v.bondDim = m.bondDim ∧ w.bondDim = m.bondDim)
    (hf : m'.featureDim = m.featureDim ∧ v.featureDim = m.featureDim ∧ w.featureDim = m.featureDim) (n : ℕ) (x x' : ℕ → ℕ → K) (vx wx : ℕ → ℕ → ℝ) (o : ℕ)
    (h1 : ∀ l < m.bondDim, ∀ r < m.bondDim, ∀ f < m.featureDim, ‖m.core.get [l, r, f]‖ ≤ v.core.get [l, r, f] ∧
      ‖m'.core.get [l, r, f] - m.core.get [l, r, f]‖ ≤ w.core.get [l, r, f] - v.core.get [l, r, f])
    (h2 : ∀ l < m.bondDim, ‖m.initVec.get [l]‖ ≤ v.initVec.get [l] ∧ ‖m'.initVec.get [l] - m.initVec.get [l]‖ ≤ w.initVec.get [l] - v.initVec.get [l])
    (h3 : ∀ l < m.bondDim, ‖m.termMat.get [l, o]‖ ≤ v.termMat.get [l, o] ∧ ‖m'.termMat.get [l, o] - m.termMat.get [l, o]‖ ≤ w.termMat.get [l, o] - v.termMat.get [l, o])
    (h4 : ∀ l < m.bondDim, ∀ r < m.bondDim, ‖tiBiasAt m l r‖ ≤ tiBiasAt v l r ∧ ‖tiBiasAt m' l r - tiBiasAt m l r‖ ≤ tiBiasAt w l r - tiBiasAt v l r)
    (h5 : ∀ i < n, ∀ f < m.featureDim, ‖x i f‖ ≤ vx i f ∧ ‖x' i f - x i f‖ ≤ wx i f - vx i f) :
    ‖tiValue m' n x' o - tiValue m n x o‖ ≤ tiValue w n wx o - tiValue v n vx o := by
  set M : TiMps (Quad K) := ⟨m.outputDim, m.bondDim, m.featureDim, m.parallel, true, false, none, quadT m.core m'.core v.core w.core,
    quadT m.initVec m'.initVec v.initVec w.initVec, quadT m.termMat m'.termMat v.termMat w.termMat,
    some ⟨[m.bondDim, m.bondDim], fun idx => (tiBiasAt m (idx.getD 0 0) (idx.getD 1 0), tiBiasAt m' (idx.getD 0 0) (idx.getD 1 0),
      tiBiasAt v (idx.getD 0 0) (idx.getD 1 0), tiBiasAt w (idx.getD 0 0) (idx.getD 1 0))⟩⟩ with hM
  have := (tiValue_mem (nearS K) M n (fun i f => (x i f, x' i f, vx i f, wx i f)) o h1 h2 h3 h4 h5).2
  have t1 : (tiValue M n (fun i f => (x i f, x' i f, vx i f, wx i f)) o).1 = tiValue m n x o :=
    (tiValue_mapHom (RingHom.fst K (K × ℝ × ℝ)) _ n _ o).trans (tiValue_get _ _ n _ o rfl rfl rfl rfl rfl rfl)
  have t2 : (tiValue M n (fun i f => (x i f, x' i f, vx i f, wx i f)) o).2.1 = tiValue m' n x' o :=
    (tiValue_mapHom ((RingHom.fst K (ℝ × ℝ)).comp (RingHom.snd K (K × ℝ × ℝ))) _ n _ o).trans (tiValue_get _ _ n _ o hd.1.symm hf.1.symm rfl rfl rfl rfl)
  have t3 : (tiValue M n (fun i f => (x i f, x' i f, vx i f, wx i f)) o).2.2.1 = tiValue v n vx o :=
    (tiValue_mapHom (((RingHom.fst ℝ ℝ).comp (RingHom.snd K (ℝ × ℝ))).comp (RingHom.snd K (K × ℝ × ℝ))) _ n _ o).trans
      (tiValue_get _ _ n _ o hd.2.1.symm hf.2.1.symm rfl rfl rfl rfl)
  have t4 : (tiValue M n (fun i f => (x i f, x' i f, vx i f, wx i f)) o).2.2.2 = tiValue w n wx o :=
    (tiValue_mapHom (((RingHom.snd ℝ ℝ).comp (RingHom.snd K (ℝ × ℝ))).comp (RingHom.snd K (K × ℝ × ℝ))) _ n _ o).trans
      (tiValue_get _ _ n _ o hd.2.2.symm hf.2.2.symm rfl rfl rfl rfl)
  rw [t1, t2, t3, t4] at this
  exact this

end TorchMPS
