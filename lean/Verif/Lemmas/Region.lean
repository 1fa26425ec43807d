import Verif.Lemmas.Contractables
import Verif.Lemmas.Mat
/-
Matrix regions: sequential application and tree reduction.
-/
namespace TorchMPS
open Spec
variable {K : Type}

theorem mat_of_mul [Semiring K] (r c d : ℕ) (f g : ℕ → ℕ → K) :
    (Mat.of r c f).mul (Mat.of c d g) = Mat.of r d (fun i j => ∑ k ∈ Finset.range c, f i k * g k j) := by
  unfold Mat.mul Mat.of
  simp only [Mat.mk.injEq, true_and]
  funext i j
  by_cases h : i < r ∧ j < d
  · rw [if_pos h]
    refine Finset.sum_congr rfl ?_
    intro k hk
    have hk := Finset.mem_range.1 hk
    rw [if_pos ⟨h.1, hk⟩, if_pos ⟨hk, h.2⟩]
  · rw [if_neg h]
    refine Finset.sum_eq_zero ?_
    intro k hk
    by_cases hi : i < r
    · rw [if_neg (c := k < c ∧ j < d) (fun hh => h ⟨hi, hh.2⟩), mul_zero]
    · rw [if_neg (c := i < r ∧ k < c) (fun hh => hi hh.1), zero_mul]

theorem mat_of_congr [Zero K] (r c : ℕ) (f g : ℕ → ℕ → K) (h : ∀ i < r, ∀ j < c, f i j = g i j) :
    Mat.of r c f = Mat.of r c g := by
  unfold Mat.of
  simp only [Mat.mk.injEq, true_and]
  funext i j
  by_cases hij : i < r ∧ j < c
  · rw [if_pos hij, if_pos hij, h i hij.1 j hij.2]
  · rw [if_neg hij, if_neg hij]

/-- the `s`-th matrix of a tensor of shape [batch, sites, n, n] -/
def siteMat [Zero K] (t : Tensor K) (D b s : ℕ) : Mat K := Mat.of D D (fun i j => t.get [b, s, i, j])

/-- all matrices -/
def siteMats [Zero K] (t : Tensor K) (D n b : ℕ) : List (Mat K) := (List.range n).map (siteMat t D b)

theorem bmm_ok [CommSemiring K] (a c : Tensor K) (B n m p : ℕ) (ha : a.shape = [B, n, m]) (hc : c.shape = [B, m, p]) :
    ∃ t, Tensor.bmm a c = .ok t ∧ t.shape = [B, n, p] ∧ ∀ b i j,
      t.get [b, i, j] = ∑ k ∈ Finset.range m, a.get [b, i, k] * c.get [b, k, j] := by
  refine ⟨⟨[B, n, p], fun idx => ∑ k ∈ Finset.range m, a.get [idx.getD 0 0, idx.getD 1 0, k] * c.get [idx.getD 0 0, k, idx.getD 2 0]⟩, ?_, rfl, ?_⟩
  · unfold Tensor.bmm
    rw [ha, hc]
    simp
  · intro b i j
    rfl

/-- applying matrices to a batch of row vectors -/
theorem regionApply_right [CommSemiring K] (mats : Tensor K) (B n D : ℕ) (hm : mats.shape = [B, n, D, D]) (ss : List ℕ)
    (vec : Tensor K) (hv : vec.shape = [B, 1, D]) :
    ∃ v, regionApply mats true ss vec = .ok v ∧ v.shape = [B, 1, D] ∧ ∀ b,
      Mat.of 1 D (fun i j => v.get [b, i, j]) =
        (ss.map (siteMat mats D b)).foldl Mat.mul (Mat.of 1 D (fun i j => vec.get [b, i, j])) := by
  induction ss generalizing vec with
  | nil => exact ⟨vec, rfl, hv, fun _ => rfl⟩
  | cons s ss ih =>
    obtain ⟨w, h1, h2, h3⟩ := bmm_ok vec (mats.select 1 s) B 1 D D hv (by simp [Tensor.select, hm])
    obtain ⟨v, e1, e2, e3⟩ := ih w h2
    refine ⟨v, ?_, e2, ?_⟩
    · unfold regionApply
      simp only [if_true]
      rw [h1]
      exact e1
    · intro b
      rw [e3 b, List.map_cons, List.foldl_cons]
      congr 1
      unfold siteMat
      rw [mat_of_mul]
      refine mat_of_congr _ _ _ _ ?_
      intro i _ j _
      rw [h3]
      rfl

/-- applying matrices to a batch of column vectors -/
theorem regionApply_left [CommSemiring K] (mats : Tensor K) (B n D : ℕ) (hm : mats.shape = [B, n, D, D]) (ss : List ℕ)
    (vec : Tensor K) (hv : vec.shape = [B, D, 1]) :
    ∃ v, regionApply mats false ss vec = .ok v ∧ v.shape = [B, D, 1] ∧ ∀ b,
      Mat.of D 1 (fun i j => v.get [b, i, j]) =
        (ss.map (siteMat mats D b)).foldl (fun a m => m.mul a) (Mat.of D 1 (fun i j => vec.get [b, i, j])) := by
  induction ss generalizing vec with
  | nil => exact ⟨vec, rfl, hv, fun _ => rfl⟩
  | cons s ss ih =>
    obtain ⟨w, h1, h2, h3⟩ := bmm_ok (mats.select 1 s) vec B D D 1 (by simp [Tensor.select, hm]) hv
    obtain ⟨v, e1, e2, e3⟩ := ih w h2
    refine ⟨v, ?_, e2, ?_⟩
    · unfold regionApply
      simp only [Bool.false_eq_true, if_false]
      rw [h1]
      exact e1
    · intro b
      rw [e3 b, List.map_cons, List.foldl_cons]
      congr 1
      unfold siteMat
      rw [mat_of_mul]
      refine mat_of_congr _ _ _ _ ?_
      intro i _ j _
      rw [h3]
      rfl

theorem orderedProd_eq [Semiring K] (l : List (Mat K)) : orderedProd l = prodL l := by cases l <;> rfl

theorem prodL_cons_foldl [Semiring K] (v : Mat K) (ms : List (Mat K)) : prodL (v :: ms) = some (ms.foldl Mat.mul v) := rfl

theorem prodL_snoc_foldr [Semiring K] (v : Mat K) (ms : List (Mat K)) :
    prodL (ms ++ [v]) = some (ms.foldr Mat.mul v) := by
  induction ms with
  | nil => rfl
  | cons m ms ih =>
    rw [List.cons_append, show m :: (ms ++ [v]) = [m] ++ (ms ++ [v]) from rfl, prodL_append _ _ (by simp) (by simp), ih]
    rfl

/-! ### Tree reduction -/

theorem pairUp_length [Semiring K] : ∀ ms : List (Mat K), (pairUp ms).length = ms.length / 2 + ms.length % 2
  | [] => by simp [pairUp]
  | [a] => by simp [pairUp]
  | a :: b :: l => by
    simp only [pairUp, List.length_cons, pairUp_length l]
    omega

theorem pairUp_getElem? [Semiring K] : ∀ (ms : List (Mat K)) (i : ℕ), (pairUp ms)[i]? =
    if h : 2 * i + 1 < ms.length then some ((ms[2 * i]'(by omega)).mul ms[2 * i + 1]) else ms[2 * i]?
  | [], i => by simp [pairUp]
  | [a], i => by
    rw [dif_neg (by simp)]
    cases i with
    | zero => rfl
    | succ i =>
      rw [List.getElem?_eq_none (by simp [pairUp]), List.getElem?_eq_none (by simp; omega)]
  | a :: b :: l, 0 => by simp [pairUp]
  | a :: b :: l, i + 1 => by
    have ih := pairUp_getElem? l i
    simp only [pairUp, List.getElem?_cons_succ, ih, List.length_cons]
    by_cases h : 2 * i + 1 < l.length
    · rw [dif_pos h, dif_pos (by omega)]
      simp [show 2 * (i + 1) = 2 * i + 1 + 1 by ring]
    · rw [dif_neg h, dif_neg (by omega)]
      simp [show 2 * (i + 1) = 2 * i + 1 + 1 by ring]

theorem regionRound_ok [CommSemiring K] (t : Tensor K) (B n D : ℕ) (ht : t.shape = [B, n, D, D]) :
    ∃ t', regionRound t n = .ok t' ∧ t'.shape = [B, n / 2 + n % 2, D, D] ∧
      ∀ b < B, siteMats t' D (n / 2 + n % 2) b = pairUp (siteMats t D n b) := by
  obtain ⟨p, h1, h2, h3⟩ := einsum_ok (K := K)
    (fun c => if c = 'b' then B else if c = 's' then n / 2 else D)
    [['b', 's', 'l', 'u'], ['b', 's', 'u', 'r']] ['b', 's', 'l', 'r']
    [t.sliceAx 1 0 2 (n / 2), t.sliceAx 1 1 2 (n / 2)] rfl (by simp [Tensor.sliceAx, ht]) (by decide) (by decide)
  have h2' : p.shape = [B, n / 2, D, D] := by rw [h2]; rfl
  have hp : ∀ b < B, ∀ s < n / 2, ∀ i < D, ∀ j < D, p.get [b, s, i, j] =
      ∑ k ∈ Finset.range D, t.get [b, 2 * s, i, k] * t.get [b, 2 * s + 1, k, j] := by
    intro b hb s hs i hi j hj
    rw [h3 _ (by simp [hb, hs, hi, hj])]
    have : ([['b', 's', 'l', 'u'], ['b', 's', 'u', 'r']].flatten.dedup).filter (fun c => c ∉ ['b', 's', 'l', 'r']) = ['u'] := by
      decide
    rw [this]
    simp [sumOver, Env.ofOut, Env.set, Tensor.sliceAx, add_comm]
  have hlo : (t.sliceAx 1 (2 * (n / 2)) 1 (t.shape.getD 1 0 - 2 * (n / 2))).shape = [B, n % 2, D, D] := by
    simp [Tensor.sliceAx, ht]
    omega
  refine ⟨⟨[B, n / 2 + n % 2, D, D], fun idx => if idx.getD 1 0 < n / 2 then p.get idx
      else (t.sliceAx 1 (2 * (n / 2)) 1 (t.shape.getD 1 0 - 2 * (n / 2))).get (idx.set 1 (idx.getD 1 0 - n / 2))⟩, ?_, rfl, ?_⟩
  · unfold regionRound
    simp only
    rw [h1]
    show Tensor.cat p _ 1 = _
    unfold Tensor.cat
    rw [hlo, h2']
    simp
  · intro b hb
    refine List.ext_getElem? ?_
    intro s
    rw [pairUp_getElem?]
    have hl1 : ∀ (t : Tensor K) n, (siteMats t D n b).length = n := by simp [siteMats]
    have hg : ∀ (t : Tensor K) n i, (siteMats t D n b)[i]? = if i < n then some (siteMat t D b i) else none := by
      intro t n i
      unfold siteMats
      by_cases hi : i < n
      · simp [hi]
      · simp [hi]
    rw [hg]
    by_cases h : 2 * s + 1 < (siteMats t D n b).length
    · rw [dif_pos h, if_pos (by rw [hl1] at h; omega)]
      rw [hl1] at h
      congr 1
      have e1 : (siteMats t D n b)[2 * s]'(by rw [hl1]; omega) = siteMat t D b (2 * s) := by simp [siteMats]
      have e2 : (siteMats t D n b)[2 * s + 1]'(by rw [hl1]; omega) = siteMat t D b (2 * s + 1) := by simp [siteMats]
      rw [e1, e2]
      unfold siteMat
      rw [mat_of_mul]
      refine mat_of_congr _ _ _ _ ?_
      intro i hi j hj
      simp only [List.getD_cons_succ, List.getD_cons_zero]
      rw [if_pos (by omega), hp b hb s (by omega) i hi j hj]
    · rw [dif_neg h, hg]
      rw [hl1] at h
      by_cases h2 : s < n / 2 + n % 2
      · rw [if_pos h2, if_pos (by omega)]
        congr 1
        unfold siteMat
        refine mat_of_congr _ _ _ _ ?_
        intro i hi j hj
        simp only [List.getD_cons_succ, List.getD_cons_zero]
        rw [if_neg (by omega)]
        have : s = n / 2 := by omega
        subst this
        simp [Tensor.sliceAx]
      · rw [if_neg h2, if_neg (by omega)]

theorem regionLoop_ok [CommSemiring K] (fuel : ℕ) : ∀ (t : Tensor K) (B n D : ℕ), t.shape = [B, n, D, D] → 1 ≤ n → n ≤ fuel →
    ∃ t', regionLoop fuel t n = .ok t' ∧ t'.shape = [B, 1, D, D] ∧
      ∀ b < B, prodL (siteMats t D n b) = some (siteMat t' D b 0) := by
  induction fuel with
  | zero => intro t B n D _ h1 h2; omega
  | succ fuel ih =>
    intro t B n D ht h1 h2
    unfold regionLoop
    by_cases hn : 1 < n
    · rw [if_pos hn]
      obtain ⟨u, r1, r2, r3⟩ := regionRound_ok t B n D ht
      obtain ⟨v, e1, e2, e3⟩ := ih u B (n / 2 + n % 2) D r2 (by omega) (by omega)
      refine ⟨v, ?_, e2, ?_⟩
      · rw [r1]; exact e1
      · intro b hb
        rw [← prodL_pairUp, ← r3 b hb]
        exact e3 b hb
    · have : n = 1 := by omega
      subst this
      rw [if_neg hn]
      exact ⟨t, rfl, ht, fun b _ => rfl⟩

end TorchMPS
