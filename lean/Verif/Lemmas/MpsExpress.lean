import Verif.Lemmas.TensorTrain
import Verif.Props.MpsParams
import Verif.Props.Mps
/-
Multilinear functions and the chains of an MPS.
-/
namespace TorchMPS
open Spec
variable {K : Type}

/-- one-hot vector -/
def hotVec [Zero K] [One K] {F : ℕ} (a : Fin F) : Fin F → K := fun f => if f = a then 1 else 0

/-- a function which is linear in each vector is determined by its values on one-hot vectors -/
theorem multilinear_expand [CommRing K] {F : ℕ} (n : ℕ) (V : (Fin n → Fin F → K) → K) (h : ∀ i e, V e = ∑ f, e i f * V (Function.update e i (hotVec f))) (e : Fin n → Fin F → K) :
    V e = ∑ s : Fin n → Fin F, (∏ i, e i (s i)) * V (fun i => hotVec (s i)) := by
  induction n with
  | zero =>
    rw [Fintype.sum_unique]
    simp only [Finset.univ_eq_empty, Finset.prod_empty, one_mul]
    congr 1
    funext i
    exact i.elim0
  | succ n ih =>
    have h1 : ∀ f, V (Function.update e 0 (hotVec f)) = ∑ s : Fin n → Fin F, (∏ i, e i.succ (s i)) * V (Fin.cons (hotVec f) (fun i => hotVec (s i))) := by
      intro f
      have := ih (fun e' => V (Fin.cons (hotVec f) e')) (fun i e' => by
        rw [h i.succ]
        refine Finset.sum_congr rfl fun a _ => ?_
        rw [Fin.cons_succ, ← Fin.cons_update]) (fun i => e i.succ)
      rw [← this]
      congr 1
      funext i
      refine Fin.cases ?_ (fun j => ?_) i
      · simp
      · simp [Fin.succ_ne_zero]
    rw [h 0 e, ← (Fin.consEquiv (fun _ : Fin (n + 1) => Fin F)).sum_comp, Fintype.sum_prod_type]
    refine Finset.sum_congr rfl fun f _ => ?_
    rw [h1, Finset.mul_sum]
    refine Finset.sum_congr rfl fun s _ => ?_
    simp only [Fin.consEquiv, Equiv.coe_fn_mk, Fin.prod_univ_succ, Fin.cons_zero, Fin.cons_succ]
    rw [mul_assoc]
    congr 3
    funext i
    refine Fin.cases ?_ (fun j => ?_) i
    · simp
    · simp

/-- one sample with given feature vectors -/
def vecInput [Zero K] {n F : ℕ} (e : Fin n → Fin F → K) : Tensor K :=
  ⟨[1, n, F], fun idx => match idx with
    | [_, i, f] => if h : i < n ∧ f < F then e ⟨i, h.1⟩ ⟨f, h.2⟩ else 0
    | _ => 0⟩

/-- without (effective) bias the value of an MPS is the multilinear function of the feature vectors with coefficients given by one-hot vectors -/
theorem mps_expand [CommRing K] (D F n k : ℕ) (hk : k ≤ n) (ub per : Bool) (hD : per = true ∨ 1 ≤ D) (p : Params K) (hb : ∀ i < n, ∀ l < D, ∀ r < D, p.bias ub k i l r = 0) (o : ℕ)
    (e : Fin n → Fin F → K) :
    mpsValue D F n k ub per p (vecInput e) 0 o = ∑ s : Fin n → Fin F, (∏ i, e i (s i)) * mpsValue D F n k ub per p (vecInput fun i => hotVec (s i)) 0 o := by
  refine multilinear_expand n (fun e => mpsValue D F n k ub per p (vecInput e) 0 o) (fun i e => ?_) e
  beta_reduce
  set q := if i.val < k then i.val else i.val + 1 with hq
  have hqn : q ≤ n := by
    have := i.2
    rw [hq]; split <;> omega
  obtain ⟨w, hw⟩ := mpsValue_linear D n q hqn per hD (posMat D F k ub p (vecInput e) 0 o)
  have hself : ∀ e' : Fin n → Fin F → K, posMat D F k ub p (vecInput e') 0 o q = pixelMat D F k ub p (vecInput e') 0 i := by
    intro e'
    unfold posMat
    by_cases hik : i.val < k
    · rw [if_pos hik] at hq
      rw [hq, if_pos hik]
    · rw [if_neg hik] at hq
      rw [hq, if_neg (by omega), if_neg (by omega)]
      rfl
  have hother : ∀ e' : Fin n → Fin F → K, (∀ j, j ≠ i → e' j = e j) → ∀ j ≤ n, j ≠ q → posMat D F k ub p (vecInput e') 0 o j = posMat D F k ub p (vecInput e) 0 o j := by
    intro e' he' j hj hjq
    unfold posMat
    have hpix : ∀ a, a ≠ i.val → pixelMat D F k ub p (vecInput e') 0 a = pixelMat D F k ub p (vecInput e) 0 a := by
      intro a ha
      refine pixelMat_congr D F k ub p _ _ 0 0 a fun f _ => ?_
      simp only [vecInput]
      split
      · rename_i hh
        rw [he' ⟨a, hh.1⟩ (fun hc => ha (by rw [← hc]))]
      · rfl
    split
    · rename_i hjk
      refine hpix j ?_
      rintro rfl
      exact hjq (by rw [hq, if_pos hjk])
    · split
      · rfl
      · rename_i h1 h2
        refine hpix (j - 1) ?_
        intro hc
        refine hjq ?_
        rw [hq, if_neg (by omega)]
        omega
  have hval : ∀ e' : Fin n → Fin F → K, (∀ j, j ≠ i → e' j = e j) → mpsValue D F n k ub per p (vecInput e') 0 o =
      ∑ a ∈ Finset.range D, ∑ c ∈ Finset.range D, w a c * ∑ f : Fin F, p.core k i a c f * e' i f := by
    intro e' he'
    rw [hw F k ub p (vecInput e') 0 o hk (hother e' he'), hself]
    refine Finset.sum_congr rfl fun a ha => Finset.sum_congr rfl fun c hc => ?_
    rw [Finset.mem_range] at ha hc
    congr 1
    unfold pixelMat affMat
    simp only [Mat.of]
    rw [hb i i.2 a ha c hc, add_zero, ← Fin.sum_univ_eq_sum_range (fun f => p.core k i a c f * (vecInput e').get [0, i, f])]
    try rw [if_pos ⟨ha, hc⟩]
    refine Finset.sum_congr rfl fun f _ => ?_
    simp [vecInput]
  have h2 : ∀ f : Fin F, mpsValue D F n k ub per p (vecInput (Function.update e i (hotVec f))) 0 o =
      ∑ a ∈ Finset.range D, ∑ c ∈ Finset.range D, w a c * p.core k i a c f := by
    intro f
    rw [hval _ (fun j hj => Function.update_of_ne hj _ _)]
    refine Finset.sum_congr rfl fun a _ => Finset.sum_congr rfl fun c _ => ?_
    simp [hotVec]
  rw [hval e (fun _ _ => rfl)]
  simp only [h2, Finset.mul_sum]
  conv_rhs => rw [Finset.sum_comm]
  refine Finset.sum_congr rfl fun a _ => ?_
  conv_rhs => rw [Finset.sum_comm]
  exact Finset.sum_congr rfl fun c _ => Finset.sum_congr rfl fun f _ => by ring

/-! ### sufficiency -/

/-- parameters with given entries of the input cores and of the output core, and zero bias matrices -/
def mkParams [Zero K] (n k D F O : ℕ) (G : ℕ → ℕ → ℕ → ℕ → K) (H : ℕ → ℕ → ℕ → K) : Params K where
  left := ⟨[k, D, D, F], fun idx => G (idx.getD 0 0) (idx.getD 1 0) (idx.getD 2 0) (idx.getD 3 0)⟩
  leftBias := ⟨[1, D, D], fun _ => 0⟩
  out := ⟨[O, D, D], fun idx => H (idx.getD 0 0) (idx.getD 1 0) (idx.getD 2 0)⟩
  right := ⟨[n - k, D, D, F], fun idx => G (idx.getD 0 0 + k) (idx.getD 1 0) (idx.getD 2 0) (idx.getD 3 0)⟩
  rightBias := ⟨[1, D, D], fun _ => 0⟩

theorem mkParams_core [Zero K] (n k D F O : ℕ) (G : ℕ → ℕ → ℕ → ℕ → K) (H : ℕ → ℕ → ℕ → K) (i l r f : ℕ) :
    (mkParams n k D F O G H).core k i l r f = G i l r f := by
  unfold Params.core mkParams
  split
  · rfl
  · simp only [List.getD_cons_zero, List.getD_cons_succ]
    rw [Nat.sub_add_cancel (by omega)]

theorem mkParams_bias [Zero K] (n k D F O : ℕ) (G : ℕ → ℕ → ℕ → ℕ → K) (H : ℕ → ℕ → ℕ → K) (ub : Bool) (i l r : ℕ) :
    (mkParams n k D F O G H).bias ub k i l r = 0 := by
  unfold Params.bias mkParams
  simp

/-- the tensor with one index per position of the chain; at each position only the relevant component counts -/
def chainTensor {n M O : ℕ} (c : Fin O → (Fin n → Fin M) → K) (k : ℕ) (hk : k ≤ n) : (Fin (n + 1) → Fin M × Fin O) → K := fun y =>
  c (y ⟨k, by omega⟩).2 (fun i => (y ⟨posOf k i, by have := i.2; unfold posOf; split <;> omega⟩).1)

theorem chainTensor_rank [Field K] {n M O : ℕ} (c : Fin O → (Fin n → Fin M) → K) (k D : ℕ) (hk : k ≤ n) (h : RanksLe c k D) (t : ℕ) (h0 : 0 < t) (h1 : t < n + 1) :
    (unfolding (β := fun _ => Fin M × Fin O) (chainTensor c k hk) t).rank ≤ D := by
  have hb : ∀ i : Fin n, posOf k i < n + 1 := fun i => by have := i.2; unfold posOf; split <;> omega
  by_cases htk : t ≤ k
  · have e : unfolding (β := fun _ => Fin M × Fin O) (chainTensor c k hk) t = (leftUnfolding c t).submatrix
        (fun u i => (u ⟨posOf k i, hb i⟩).1) (fun v => (fun i => (v ⟨posOf k i, hb i⟩).1, (v ⟨k, by omega⟩).2)) := by
      ext u v
      simp only [unfolding, leftUnfolding, Matrix.of_apply, Matrix.submatrix_apply, chainTensor, glue]
      rw [if_neg (by omega)]
      congr 1
      funext i
      have e1 : posOf k i < t ↔ i.val < t := by unfold posOf; split <;> omega
      by_cases hh : i.val < t
      · simp only [glue, if_pos (e1.2 hh), if_pos hh]
      · simp only [glue, if_neg (fun hc => hh (e1.1 hc)), if_neg hh]
    rw [e]
    exact (Matrix.rank_submatrix_le _ _ _).trans (h.1 t h0 htk)
  · have e : unfolding (β := fun _ => Fin M × Fin O) (chainTensor c k hk) t = (rightUnfolding c (t - 1)).submatrix
        (fun v => (fun i => (v ⟨posOf k i, hb i⟩).1, (v ⟨k, by omega⟩).2)) (fun u i => (u ⟨posOf k i, hb i⟩).1) := by
      ext u v
      simp only [unfolding, rightUnfolding, Matrix.of_apply, Matrix.submatrix_apply, chainTensor, glue]
      rw [if_pos (by omega)]
      congr 1
      funext i
      have e1 : posOf k i < t ↔ i.val < t - 1 := by unfold posOf; split <;> omega
      by_cases hh : i.val < t - 1
      · simp only [glue, if_pos (e1.2 hh), if_pos hh]
      · simp only [glue, if_neg (fun hc => hh (e1.1 hc)), if_neg hh]
    rw [e]
    exact (Matrix.rank_submatrix_le _ _ _).trans (h.2 (t - 1) (by omega) (by omega))

/-- the labels of a chain with pixels `s` and output `o` -/
def chainLabel {n M O : ℕ} (k : ℕ) (f0 : Fin M) (o0 : Fin O) (s : Fin n → Fin M) (o : Fin O) : ℕ → Fin M × Fin O := fun j =>
  if j = k then (f0, o) else if h : (if j < k then j else j - 1) < n then (s ⟨_, h⟩, o0) else (f0, o0)

theorem chainTensor_label {n M O : ℕ} (c : Fin O → (Fin n → Fin M) → K) (k : ℕ) (hk : k ≤ n) (f0 : Fin M) (o0 : Fin O) (s : Fin n → Fin M) (o : Fin O) :
    chainTensor c k hk (fun j => chainLabel k f0 o0 s o j) = c o s := by
  unfold chainTensor
  have h1 : (chainLabel k f0 o0 s o k).2 = o := by simp [chainLabel]
  have h2 : ∀ i : Fin n, (chainLabel k f0 o0 s o (posOf k i)).1 = s i := by
    intro i
    have hi := i.2
    unfold chainLabel posOf
    by_cases hik : i.val < k
    · simp [hik, show i.val ≠ k by omega]
    · simp [hik, show i.val + 1 ≠ k by omega, show ¬ (i.val + 1 < k) by omega]
  simp only [h1]
  congr 1
  funext i
  exact h2 i

theorem seqProd_ofFn [CommSemiring K] {D N : ℕ} (A : ℕ → Matrix (Fin D) (Fin D) K) : seqProd A N = (List.ofFn fun j : Fin N => A j).prod := by
  unfold seqProd
  congr 1
  refine List.ext_getElem (by simp) fun i _ _ => by simp

/-- the matrix which reads a boundary vector off from the first unit vector -/
def rowOnly [Zero K] {D : ℕ} (l : Fin D → K) : Matrix (Fin D) (Fin D) K := Matrix.of fun i j => if i.val = 0 then l j else 0

def colOnly [Zero K] {D : ℕ} (r : Fin D → K) : Matrix (Fin D) (Fin D) K := Matrix.of fun i j => if j.val = 0 then r i else 0

theorem rowOnly_colOnly [CommRing K] {D : ℕ} (hD : 0 < D) (l r : Fin D → K) (P : Matrix (Fin D) (Fin D) K) :
    (rowOnly l * P * colOnly r) ⟨0, hD⟩ ⟨0, hD⟩ = dotProduct l (P.mulVec r) ∧ (rowOnly l * P * colOnly r).trace = dotProduct l (P.mulVec r) := by
  have h1 : ∀ i j, (rowOnly l * P * colOnly r) i j = if i.val = 0 ∧ j.val = 0 then dotProduct l (P.mulVec r) else 0 := by
    intro i j
    rw [Matrix.mul_apply]
    by_cases hi : i.val = 0
    · by_cases hj : j.val = 0
      · rw [if_pos ⟨hi, hj⟩, Matrix.dotProduct_mulVec]
        simp only [dotProduct, Matrix.vecMul]
        refine Finset.sum_congr rfl fun a _ => ?_
        simp [Matrix.mul_apply, rowOnly, colOnly, hi, hj, dotProduct]
      · rw [if_neg (fun h => hj h.2)]
        exact Finset.sum_eq_zero fun a _ => by simp [colOnly, hj]
    · rw [if_neg (fun h => hi h.1)]
      exact Finset.sum_eq_zero fun a _ => by simp [Matrix.mul_apply, rowOnly, hi]
  refine ⟨by rw [h1]; simp, ?_⟩
  unfold Matrix.trace
  simp only [Matrix.diag_apply, h1]
  rw [Finset.sum_eq_single ⟨0, hD⟩]
  · simp
  · intro i _ hi
    rw [if_neg]
    rintro ⟨h2, -⟩
    exact hi (Fin.ext h2)
  · simp

/-- parameters for given coefficients -/
theorem exists_params [Field K] {n F O : ℕ} (D k : ℕ) (hk : k ≤ n) (hD : 1 ≤ D) (hF : 1 ≤ F) (hO : 1 ≤ O) (c : Fin O → (Fin n → Fin F) → K) (h : RanksLe c k D) :
    ∃ G H, ∀ (ub per : Bool) (s : Fin n → Fin F) (o : Fin O), mpsValue D F n k ub per (mkParams n k D F O G H) (vecInput fun i => hotVec (s i)) 0 o = c o s := by
  obtain ⟨A, l, r, hA⟩ := tt_exists (β := fun _ : Fin (n + 1) => Fin F × Fin O) D hD (chainTensor c k hk) (chainTensor_rank c k D hk h)
  set f0 : Fin F := ⟨0, hF⟩
  set o0 : Fin O := ⟨0, hO⟩
  let A' : ℕ → Fin F × Fin O → Matrix (Fin D) (Fin D) K := fun j a => (if j = 0 then rowOnly l else 1) * (if h : j < n + 1 then A ⟨j, h⟩ a else 1) * (if j + 1 = n + 1 then colOnly r else 1)
  refine ⟨fun i a b f => if h : a < D ∧ b < D ∧ f < F then A' (posOf k i) (⟨f, h.2.2⟩, o0) ⟨a, h.1⟩ ⟨b, h.2.1⟩ else 0,
    fun o a b => if h : a < D ∧ b < D ∧ o < O then A' k (f0, ⟨o, h.2.2⟩) ⟨a, h.1⟩ ⟨b, h.2.1⟩ else 0, fun ub per s o => ?_⟩
  set p := mkParams n k D F O (fun i a b f => if h : a < D ∧ b < D ∧ f < F then A' (posOf k i) (⟨f, h.2.2⟩, o0) ⟨a, h.1⟩ ⟨b, h.2.1⟩ else 0)
    (fun o a b => if h : a < D ∧ b < D ∧ o < O then A' k (f0, ⟨o, h.2.2⟩) ⟨a, h.1⟩ ⟨b, h.2.1⟩ else 0) with hp
  have hpix : ∀ i (hi : i < n), toMatrix D D (pixelMat D F k ub p (vecInput fun i => hotVec (s i)) 0 i) = A' (posOf k i) (s ⟨i, hi⟩, o0) := by
    intro i hi
    ext a b
    unfold pixelMat affMat
    rw [toMatrix_of]
    simp only [entryMat]
    rw [hp, mkParams_bias, add_zero, ← Fin.sum_univ_eq_sum_range (fun f => (mkParams n k D F O _ _).core k i a b f * (vecInput fun i => hotVec (s i)).get [0, i, f])]
    simp only [mkParams_core]
    rw [Finset.sum_eq_single (s ⟨i, hi⟩)]
    · simp [vecInput, hi, hotVec]
    · intro f _ hf
      simp [vecInput, hi, hotVec, hf]
    · simp
  have hpos : ∀ j < n + 1, toMatrix D D (posMat D F k ub p (vecInput fun i => hotVec (s i)) 0 o j) = A' j (chainLabel k f0 o0 s o j) := by
    intro j hj
    unfold posMat chainLabel
    by_cases h1 : j < k
    · rw [if_pos h1, if_neg (by omega)]
      simp only [h1, if_true]
      rw [dif_pos (by omega), hpix j (by omega)]
      simp [posOf, h1]
    · rw [if_neg h1]
      by_cases h2 : j = k
      · subst h2
        simp only [if_true]
        ext a b
        unfold outMat
        rw [toMatrix_of]
        simp [entryMat, hp, mkParams]
      · rw [if_neg h2, if_neg h2]
        simp only [h1, if_false]
        rw [dif_pos (by omega), hpix (j - 1) (by omega)]
        have : posOf k (j - 1) = j := by unfold posOf; rw [if_neg (by omega)]; omega
        rw [this]
  have hchain : chainMatrix D F n k ub p (vecInput fun i => hotVec (s i)) 0 o = rowOnly l * (ttMats A fun j => chainLabel k f0 o0 s o j).prod * colOnly r := by
    unfold chainMatrix
    have := seqProd_regauge (fun j => if h : j < n + 1 then A ⟨j, h⟩ (chainLabel k f0 o0 s o j) else 1)
      (fun j => toMatrix D D (posMat D F k ub p (vecInput fun i => hotVec (s i)) 0 o j)) (fun j => if j = n + 1 then colOnly r else 1) (fun j => if j = 0 then rowOnly l else 1) n
      (fun j hj => hpos j hj) (fun j h1 h2 => by
        rw [if_neg (by omega), if_neg (by omega), Matrix.one_mul])
    rw [this]
    simp only [if_true]
    congr 2
    rw [seqProd_ofFn]
    unfold ttMats
    congr 2
    funext j
    rw [dif_pos j.2]
  have hval := rowOnly_colOnly hD l r (ttMats A fun j => chainLabel k f0 o0 s o j).prod
  have hfin : dotProduct l ((ttMats A fun j => chainLabel k f0 o0 s o j).prod.mulVec r) = c o s := by
    rw [← chainTensor_label c k hk f0 o0 s o, ← hA]
    rfl
  cases per with
  | true => rw [(mpsValue_chain D F n k hk ub true p _ 0 o).1 rfl, hchain, hval.2, hfin]
  | false => rw [(mpsValue_chain D F n k hk ub false p _ 0 o).2 rfl hD, hchain, hval.1, hfin]

/-! ### necessity -/

theorem chainLabel_out {n M O : ℕ} (k : ℕ) (f0 : Fin M) (o0 : Fin O) (s : Fin n → Fin M) (o : Fin O) : chainLabel k f0 o0 s o k = (f0, o) := by
  simp [chainLabel]

theorem chainLabel_lt {n M O : ℕ} (k : ℕ) (f0 : Fin M) (o0 : Fin O) (s : Fin n → Fin M) (o : Fin O) (j : ℕ) (h : j < k) (hj : j < n) :
    chainLabel k f0 o0 s o j = (s ⟨j, hj⟩, o0) := by
  simp [chainLabel, h, hj, show j ≠ k by omega]

theorem chainLabel_gt {n M O : ℕ} (k : ℕ) (f0 : Fin M) (o0 : Fin O) (s : Fin n → Fin M) (o : Fin O) (j : ℕ) (h : k < j) (hj : j - 1 < n) :
    chainLabel k f0 o0 s o j = (s ⟨j - 1, hj⟩, o0) := by
  simp [chainLabel, hj, show j ≠ k by omega, show ¬ (j < k) by omega]

/-- the matrix at position `j` for label `a` -/
def labelMat [CommSemiring K] {M O : ℕ} (D F k : ℕ) (ub : Bool) (p : Params K) (v : Fin M → ℕ → K) (j : ℕ) (a : Fin M × Fin O) : Matrix (Fin D) (Fin D) K :=
  if j < k then toMatrix D D (affMat D F (p.core k j) (v a.1) (p.bias ub k j))
  else if j = k then toMatrix D D (outMat D p a.2) else toMatrix D D (affMat D F (p.core k (j - 1)) (v a.1) (p.bias ub k (j - 1)))

theorem chainMatrix_label [CommRing K] {n M O : ℕ} (D F k : ℕ) (hk : k ≤ n) (ub : Bool) (p : Params K) (v : Fin M → ℕ → K) (f0 : Fin M) (o0 : Fin O) (s : Fin n → Fin M) (o : Fin O) :
    chainMatrix D F n k ub p (pixelInput F v s) 0 o =
      (ttMats (β := fun _ : Fin (n + 1) => Fin M × Fin O) (fun j a => labelMat D F k ub p v j a) (fun j => chainLabel k f0 o0 s o j)).prod := by
  unfold chainMatrix ttMats
  rw [seqProd_ofFn]
  congr 2
  funext j
  have hj := j.2
  have hpix : ∀ i (hi : i < n), pixelMat D F k ub p (pixelInput F v s) 0 i = affMat D F (p.core k i) (v (s ⟨i, hi⟩)) (p.bias ub k i) := by
    intro i hi
    unfold pixelMat
    congr 1
    funext f
    simp [pixelInput, hi]
  unfold posMat labelMat
  beta_reduce
  rcases lt_trichotomy j.val k with h1 | h1 | h1
  · rw [if_pos h1, if_pos h1, chainLabel_lt k f0 o0 s o j h1 (by omega), hpix j (by omega)]
  · simp [h1, chainLabel_out]
  · rw [if_neg (by omega), if_neg (by omega), if_neg (by omega), if_neg (by omega), chainLabel_gt k f0 o0 s o j h1 (by omega), hpix (j - 1) (by omega)]

theorem label_glue_left {n M O : ℕ} (k : ℕ) (hk : k ≤ n) (f0 : Fin M) (o0 : Fin O) (u v : Fin n → Fin M) (o : Fin O) (t : ℕ) (ht : t ≤ k) :
    glue (β := fun _ : Fin (n + 1) => Fin M × Fin O) t (fun j => chainLabel k f0 o0 u o0 j) (fun j => chainLabel k f0 o0 v o j) =
      fun j : Fin (n + 1) => chainLabel k f0 o0 (glue (β := fun _ => Fin M) t u v) o j := by
  funext j
  have hj := j.2
  rw [glue]
  rcases lt_trichotomy j.val k with h1 | h1 | h1
  · rw [chainLabel_lt k f0 o0 u _ j h1 (by omega), chainLabel_lt k f0 o0 v _ j h1 (by omega), chainLabel_lt k f0 o0 _ _ j h1 (by omega), glue]
    split <;> rfl
  · rw [if_neg (by omega), h1, chainLabel_out, chainLabel_out]
  · rw [if_neg (by omega), chainLabel_gt k f0 o0 v _ j h1 (by omega), chainLabel_gt k f0 o0 _ _ j h1 (by omega), glue, if_neg (show ¬ (j.val - 1 < t) by omega)]

theorem label_glue_right {n M O : ℕ} (k : ℕ) (hk : k ≤ n) (f0 : Fin M) (o0 : Fin O) (u v : Fin n → Fin M) (o : Fin O) (t : ℕ) (ht : k ≤ t) :
    glue (β := fun _ : Fin (n + 1) => Fin M × Fin O) (t + 1) (fun j => chainLabel k f0 o0 u o j) (fun j => chainLabel k f0 o0 v o0 j) =
      fun j : Fin (n + 1) => chainLabel k f0 o0 (glue (β := fun _ => Fin M) t u v) o j := by
  funext j
  have hj := j.2
  rw [glue]
  rcases lt_trichotomy j.val k with h1 | h1 | h1
  · rw [if_pos (by omega), chainLabel_lt k f0 o0 u _ j h1 (by omega), chainLabel_lt k f0 o0 _ _ j h1 (by omega), glue, if_pos (show j.val < t by omega)]
  · rw [if_pos (by omega), h1, chainLabel_out, chainLabel_out]
  · rw [chainLabel_gt k f0 o0 u _ j h1 (by omega), chainLabel_gt k f0 o0 v _ j h1 (by omega), chainLabel_gt k f0 o0 _ _ j h1 (by omega), glue]
    by_cases h3 : j.val < t + 1
    · rw [if_pos h3, if_pos (show j.val - 1 < t by omega)]
    · rw [if_neg h3, if_neg (show ¬ (j.val - 1 < t) by omega)]

theorem tt_rank_trace [Field K] {n : ℕ} {β : Fin n → Type} [∀ s, Fintype (β s)] (D : ℕ) (A : ∀ s : Fin n, β s → Matrix (Fin D) (Fin D) K) (t : ℕ) :
    (unfolding (fun x => (ttMats A x).prod.trace) t).rank ≤ D * D := by
  have h : unfolding (fun x => (ttMats A x).prod.trace) t = (Matrix.of fun u (ij : Fin D × Fin D) => ((ttMats A u).take t).prod ij.1 ij.2) *
      (Matrix.of fun (ij : Fin D × Fin D) v => ((ttMats A v).drop t).prod ij.2 ij.1) := by
    ext u v
    rw [Matrix.mul_apply]
    simp only [unfolding, Matrix.of_apply]
    rw [ttMats_glue, List.prod_append, Fintype.sum_prod_type]
    simp only [Matrix.trace, Matrix.diag_apply, Matrix.mul_apply]
  rw [h]
  refine (Matrix.rank_mul_le_left _ _).trans ((Matrix.rank_le_card_width _).trans (by simp))

/-- the tables of an MPS have small ranks -/
theorem mps_ranks [Field K] {n M O : ℕ} (D F k : ℕ) (hk : k ≤ n) (ub per : Bool) (hD : per = true ∨ 1 ≤ D) (hM : 1 ≤ M) (hO : 1 ≤ O) (p : Params K) (v : Fin M → ℕ → K)
    (c : Fin O → (Fin n → Fin M) → K) (hc : ∀ (o : Fin O) s, mpsValue D F n k ub per p (pixelInput F v s) 0 o = c o s) :
    (∀ t ≤ k, (leftUnfolding c t).rank ≤ if per then D * D else D) ∧ ∀ t, k ≤ t → (rightUnfolding c t).rank ≤ if per then D * D else D := by
  set f0 : Fin M := ⟨0, hM⟩
  set o0 : Fin O := ⟨0, hO⟩
  have key : ∃ ψ : (Fin (n + 1) → Fin M × Fin O) → K, (∀ t, (unfolding (β := fun _ => Fin M × Fin O) ψ t).rank ≤ if per then D * D else D) ∧
      ∀ o s, c o s = ψ (fun j => chainLabel k f0 o0 s o j) := by
    cases per with
    | true =>
      refine ⟨fun x => (ttMats (β := fun _ : Fin (n + 1) => Fin M × Fin O) (fun j a => labelMat D F k ub p v j a) x).prod.trace, fun t => tt_rank_trace D _ t, fun o s => ?_⟩
      rw [← hc, (mpsValue_chain D F n k hk ub true p _ 0 o).1 rfl, chainMatrix_label D F k hk ub p v f0 o0 s o]
    | false =>
      have hD : 0 < D := hD.resolve_left (by simp)
      refine ⟨ttVal (β := fun _ : Fin (n + 1) => Fin M × Fin O) (fun j a => labelMat D F k ub p v j a) (Pi.single ⟨0, hD⟩ 1) (Pi.single ⟨0, hD⟩ 1), fun t => tt_rank D _ _ _ t, fun o s => ?_⟩
      rw [← hc, (mpsValue_chain D F n k hk ub false p _ 0 o).2 rfl hD, chainMatrix_label D F k hk ub p v f0 o0 s o, ttVal]
      simp
  obtain ⟨ψ, h1, h2⟩ := key
  constructor
  · intro t ht
    have e : leftUnfolding c t = (unfolding (β := fun _ => Fin M × Fin O) ψ t).submatrix (fun u j => chainLabel k f0 o0 u o0 j) (fun v j => chainLabel k f0 o0 v.1 v.2 j) := by
      ext u v
      simp only [leftUnfolding, unfolding, Matrix.of_apply, Matrix.submatrix_apply]
      rw [label_glue_left k hk f0 o0 u v.1 v.2 t ht, h2]
    rw [e]
    exact (Matrix.rank_submatrix_le _ _ _).trans (h1 t)
  · intro t ht
    have e : rightUnfolding c t = (unfolding (β := fun _ => Fin M × Fin O) ψ (t + 1)).submatrix (fun u j => chainLabel k f0 o0 u.1 u.2 j) (fun v j => chainLabel k f0 o0 v o0 j) := by
      ext u v
      simp only [rightUnfolding, unfolding, Matrix.of_apply, Matrix.submatrix_apply]
      rw [label_glue_right k hk f0 o0 u.1 v u.2 t ht, h2]
    rw [e]
    exact (Matrix.rank_submatrix_le _ _ _).trans (h1 (t + 1))

end TorchMPS
