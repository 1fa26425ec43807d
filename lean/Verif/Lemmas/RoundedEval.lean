import Verif.Lemmas.Rounded
import Verif.Lemmas.EvalSeq
/-
Rounding errors of `mat_reduce_seq`, `mat_reduce_par` and `contract_matseq`.
-/
namespace TorchMPS
open Spec
variable {K : Type} [RCLike K]

/-- the result of a reduction is near `X`: relative error `g - 1`, `k` updates of the log scale with at most `l` factors -/
def NearRes (ops : FlOps K) (μ g : ℝ) (k l : ℕ) (v : Option (Mat K × ℝ)) (X : Mat K) (Y : Mat ℝ) : Prop :=
  match v with
  | none => Dom (g - 1) X Y ∧ Dom 1 X Y
  | some (P, s) => ∃ rs, Near g rs.prod P X Y ∧ (∀ r ∈ rs, IsScale ops r) ∧ LogNear μ k s rs ∧ rs.length ≤ l

theorem NearRes.approx {ops : FlOps K} {D N : ℕ} {γ u μ S : ℝ} (ac : Accurate ops D N γ u μ) (hS : ScalesBounded ops S) {g : ℝ} {k l a b k' l' : ℕ}
    {v : Option (Mat K × ℝ)} {X : Mat K} {Y : Mat ℝ} (h : NearRes ops μ g k l v X Y) (hg : g ≤ (1 + γ) ^ a * (1 + u) ^ b) (hk : k ≤ k') (hl : l ≤ l') :
    Approximates v X Y (roundErr γ u μ S a b k' l') := by
  have hμ := ac.mu
  have hpow : ∀ k : ℕ, (1 : ℝ) ≤ (1 + μ) ^ k := fun k => one_le_pow₀ (by linarith)
  have hE : 0 ≤ ((1 + μ) ^ k' - 1) * (l' * S) := mul_nonneg (by linarith [hpow k']) (mul_nonneg (by positivity) hS.1)
  have hexp : 1 ≤ Real.exp (((1 + μ) ^ k' - 1) * (l' * S)) := Real.one_le_exp hE
  have hγ := ac.gamma
  have hu := ac.unit
  have hG : (1 + γ) ^ a * (1 + u) ^ b ≤ (1 + γ) ^ a * (1 + u) ^ b * Real.exp (((1 + μ) ^ k' - 1) * (l' * S)) :=
    le_mul_of_one_le_right (by positivity) hexp
  cases v with
  | none =>
    obtain ⟨h1, h2⟩ := h
    have := (h1.mono h2 (c' := roundErr γ u μ S a b k' l') (by unfold roundErr; linarith)).bound
    exact this
  | some p =>
    obtain ⟨P, s⟩ := p
    obtain ⟨rs, h1, h2, h3, h4⟩ := h
    have hb := h3.bounded hμ hS h2
    have hb' : ((1 + μ) ^ k - 1) * (rs.length * S) ≤ ((1 + μ) ^ k' - 1) * (l' * S) := by
      refine mul_le_mul ?_ ?_ (mul_nonneg (by positivity) hS.1) (by linarith [hpow k'])
      · have : (1 + μ) ^ k ≤ (1 + μ) ^ k' := pow_le_pow_right₀ (by linarith) hk
        linarith
      · refine mul_le_mul_of_nonneg_right ?_ hS.1
        exact_mod_cast h4.trans hl
    exact (h1.mono hg).final (fun r hr => (h2 r hr).pos) (hb.trans hb')

theorem sizesUpTo_tail {D : ℕ} {m : Mat K} {ms : List (Mat K)} (h : SizesUpTo D (m :: ms)) : SizesUpTo D ms := fun x hx => h x (List.mem_cons_of_mem _ hx)

theorem seqFold_near {ops : FlOps K} {D N : ℕ} {γ u μ : ℝ} (ac : Accurate ops D N γ u μ) (hN : 1 ≤ N) (m : Mat K) (ms : List (Mat K)) (hc : ChainOK (m :: ms))
    (hs : SizesUpTo D (m :: ms)) :
    NearRes ops μ (((1 + γ) * (1 + u)) ^ ms.length) ms.length ms.length (ms.foldl ops.seqStep (some (m, 0))) (matProd m ms) (absProd m ms) := by
  have h0 := hs m (by simp)
  have key := seq_loopF ac hN ms m m (absMat m) 0 0 [] 1 (near_self m) (by simp) (logNear_zero μ) hc h0.1 h0.2.2.2 (sizesUpTo_tail hs)
  have hdom := (absMat_dom m).matProd ms hc
  cases hr : ms.foldl ops.seqStep (some (m, 0)) with
  | none =>
    rw [hr] at key
    simp only [one_mul] at key
    exact ⟨key, hdom⟩
  | some p =>
    obtain ⟨P, s⟩ := p
    rw [hr] at key
    obtain ⟨rs, k1, k2, k3, k4⟩ := key
    rw [one_mul] at k1
    rw [zero_add] at k3
    refine ⟨rs, k1, k2, k3, ?_⟩
    simp [k4]

theorem map_absMat_reverse (l : List (Mat K)) : (l.reverse.map Mat.transpose).map absMat = (l.map absMat).reverse.map Mat.transpose := by
  rw [List.map_map, ← List.map_reverse, List.map_map]
  rfl

theorem Dom.transpose {c : ℝ} {X : Mat K} {Y : Mat ℝ} (h : Dom c X Y) : Dom c X.transpose Y.transpose :=
  ⟨h.yc, h.yr, fun i hi j hj => h.bound j hj i hi⟩

theorem reduceSeq_near {ops : FlOps K} {D N : ℕ} {γ u μ : ℝ} (ac : Accurate ops D N γ u μ) (hN : 1 ≤ N) (m : Mat K) (ms : List (Mat K)) (hc : ChainOK (m :: ms))
    (hs : SizesUpTo D (m :: ms)) :
    NearRes ops μ (((1 + γ) * (1 + u)) ^ ms.length) ms.length ms.length (ops.reduceSeq m ms) (matProd m ms) (absProd m ms) := by
  unfold Arith.reduceSeq
  simp only
  by_cases hd : ((m :: ms).getLast (by simp)).c < m.r
  · rw [if_pos hd]
    obtain ⟨m', ms', h1, h2, -⟩ := reverse_transpose_prod m ms hc
    obtain ⟨n', ns', h3, h4, -⟩ := reverse_transpose_prod (absMat m) (ms.map absMat) (chainOK_absMat (m :: ms) hc)
    have he := map_absMat_reverse (m :: ms)
    rw [h1, List.map_cons, List.map_cons, h3, List.cons.injEq] at he
    obtain ⟨rfl, rfl⟩ := he
    have hlen : ms'.length = ms.length := by
      have := congrArg List.length h1
      simp at this
      exact this.symm
    have hc' : ChainOK (m' :: ms') := by rw [← h1]; exact chainOK_reverse _ hc
    have hs' : SizesUpTo D (m' :: ms') := by
      rw [← h1]
      intro x hx
      obtain ⟨y, hy, rfl⟩ := List.mem_map.1 hx
      have := hs y (List.mem_reverse.1 hy)
      exact ⟨this.2.2.1, this.2.2.2, this.1, this.2.1⟩
    have key := seqFold_near ac hN m' ms' hc' hs'
    rw [hlen] at key
    have hY : absProd m' ms' = (absProd m ms).transpose := h4
    rw [h2, hY] at key
    rw [h1]
    simp only
    cases hr : ms'.foldl ops.seqStep (some (m', 0)) with
    | none =>
      rw [hr] at key
      exact ⟨key.1.transpose, key.2.transpose⟩
    | some p =>
      obtain ⟨P, s⟩ := p
      rw [hr] at key
      obtain ⟨rs, k1, k2⟩ := key
      exact ⟨rs, k1.transpose, k2⟩
  · rw [if_neg hd]
    exact seqFold_near ac hN m ms hc hs

theorem reducePar_near {ops : FlOps K} {D N : ℕ} {γ u μ : ℝ} (ac : Accurate ops D N γ u μ) (d : ℕ) (hd : 1 ≤ d) (hD : d ≤ D) (m : Mat K) (ms : List (Mat K))
    (hN : ms.length + 1 ≤ N) (h : ms ≠ [] → ∀ x ∈ m :: ms, x.r = d ∧ x.c = d) :
    NearRes ops μ ((1 + γ) ^ ms.length * (1 + u) ^ (2 * ms.length)) (Nat.clog 2 (ms.length + 1)) (2 * ms.length) (ops.reducePar d (m :: ms)) (matProd m ms)
      (absProd m ms) := by
  cases ms with
  | nil =>
    refine ⟨[], ?_, by simp, ?_, by simp⟩
    · simpa [matProd, absProd] using near_self m
    · simp [LogNear]
  | cons a ms =>
    have hsz := h (by simp)
    have ac' : Accurate ops d N γ u μ := { ac with mm := fun A B h1 h2 => ac.mm A B h1 (h2.trans hD) }
    have key := par_loopF hd ac' (ms.length + 2) (m :: a :: ms) (matProd m (a :: ms)) (absProd m (a :: ms)) 0 0 [] 1 (by simp) hN
      (nears_init d m (a :: ms) hsz) (by simp) (logNear_zero μ)
    have hdom := (nears_init d m (a :: ms) hsz).dom
    have e : ops.reducePar d (m :: a :: ms) = ops.parLoop d (m :: a :: ms) 0 := rfl
    rw [e]
    simp only [one_mul, zero_add, List.length_cons, List.length_nil, Nat.add_sub_cancel] at key ⊢
    cases hr : ops.parLoop d (m :: a :: ms) 0 with
    | none =>
      rw [hr] at key
      exact ⟨key, hdom⟩
    | some p =>
      obtain ⟨P, s⟩ := p
      rw [hr] at key
      exact key

theorem NearRes.mono {ops : FlOps K} {μ g g' : ℝ} {k l l' : ℕ} {v : Option (Mat K × ℝ)} {X : Mat K} {Y : Mat ℝ} (h : NearRes ops μ g k l v X Y) (hg : g ≤ g')
    (hl : l ≤ l') : NearRes ops μ g' k l' v X Y := by
  cases v with
  | none => exact ⟨h.1.mono h.2 (by linarith), h.2⟩
  | some p =>
    obtain ⟨P, s⟩ := p
    obtain ⟨rs, h1, h2, h3, h4⟩ := h
    exact ⟨rs, h1.mono hg, h2, h3, h4.trans hl⟩

/-- multiplication with a boundary vector from the left -/
theorem NearRes.mulLeft {ops : FlOps K} {D N : ℕ} {γ u μ : ℝ} (ac : Accurate ops D N γ u μ) {g : ℝ} {k l : ℕ} {v : Option (Mat K × ℝ)} {X : Mat K} {Y : Mat ℝ}
    (h : NearRes ops μ g k l v X Y) (hg : 0 ≤ g) (A : Mat K) (hc : A.c = X.r) (hD : A.c ≤ D) :
    NearRes ops μ (g * (1 + γ)) k l (v.map (fun p => (ops.mm A p.1, p.2))) (A.mul X) ((absMat A).mul Y) := by
  have hγ := ac.gamma
  cases v with
  | none =>
    have h1 := (absMat_dom A).mul h.2 hc
    have h2 := (absMat_dom A).mul h.1 hc
    rw [one_mul] at h1 h2
    exact ⟨h2.mono h1 (by nlinarith), h1⟩
  | some p =>
    obtain ⟨P, s⟩ := p
    obtain ⟨rs, h1, h2, h3, h4⟩ := h
    have := (near_self A).mm ac h1 hc hD
    rw [one_mul, one_mul] at this
    exact ⟨rs, this, h2, h3, h4⟩

/-- multiplication with a boundary vector from the right -/
theorem NearRes.mulRight {ops : FlOps K} {D N : ℕ} {γ u μ : ℝ} (ac : Accurate ops D N γ u μ) {g : ℝ} {k l : ℕ} {v : Option (Mat K × ℝ)} {X : Mat K} {Y : Mat ℝ}
    (h : NearRes ops μ g k l v X Y) (hg : 0 ≤ g) (A : Mat K) (hc : X.c = A.r) (hD : X.c ≤ D) :
    NearRes ops μ (g * (1 + γ)) k l (v.map (fun p => (ops.mm p.1 A, p.2))) (X.mul A) (Y.mul (absMat A)) := by
  have hγ := ac.gamma
  cases v with
  | none =>
    have h1 := h.2.mul (absMat_dom A) hc
    have h2 := h.1.mul (absMat_dom A) hc
    rw [mul_one] at h1 h2
    exact ⟨h2.mono h1 (by nlinarith), h1⟩
  | some p =>
    obtain ⟨P, s⟩ := p
    obtain ⟨rs, h1, h2, h3, h4⟩ := h
    have := h1.mm ac (near_self A) hc hD
    rw [mul_one, mul_one] at this
    exact ⟨rs, this, h2, h3, h4⟩

/-- the evaluation of one batch element, from its factors only -/
noncomputable def Arith.evalAt (ops : FlOps K) (par : Prop) (left : Option (Mat K)) (m : Mat K) (ms : List (Mat K)) (right : Option (Mat K)) : Option (Mat K × ℝ) :=
  open Classical in
  if par then
    ((ops.reducePar m.c (m :: ms)).map (fun p => ((match left with | some v => ops.mm v p.1 | none => p.1), p.2))).map
      (fun p => ((match right with | some v => ops.mm p.1 v | none => p.1), p.2))
  else
    match left.toList ++ (m :: ms) ++ right.toList with
    | [] => none
    | m :: ms => ops.reduceSeq m ms

theorem absProd_cons (m a : Mat K) (ms : List (Mat K)) : (absMat m).mul (absProd a ms) = absProd m (a :: ms) := by
  unfold absProd
  rw [matProd_mul]
  rfl

theorem absProd_append (m a : Mat K) (ms : List (Mat K)) : (absProd m ms).mul (absMat a) = absProd m (ms ++ [a]) := by
  unfold absProd
  rw [List.map_append, matProd_append]
  rfl

theorem evalAtF_approx {ops : FlOps K} {D N : ℕ} {γ u μ S : ℝ} (ac : Accurate ops D N γ u μ) (hS : ScalesBounded ops S) (par : Prop) (left : Option (Mat K)) (m : Mat K)
    (ms : List (Mat K)) (right : Option (Mat K)) (x : Mat K) (xs : List (Mat K)) (hx : left.toList ++ (m :: ms) ++ right.toList = x :: xs)
    (hc : ChainOK (x :: xs)) (hs : SizesUpTo D (x :: xs)) (hN : xs.length + 1 ≤ N)
    (hsq : par → ms ≠ [] → ∀ y ∈ m :: ms, y.r = m.c ∧ y.c = m.c) :
    Approximates (ops.evalAt par left m ms right) (matProd x xs) (absProd x xs) (roundErr γ u μ S xs.length (2 * xs.length) xs.length (2 * xs.length)) := by
  have hγ := ac.gamma
  have hu := ac.unit
  have p1 : ∀ q : ℕ, (1 : ℝ) ≤ (1 + γ) ^ q := fun q => one_le_pow₀ (by linarith)
  have p2 : ∀ q q' : ℕ, q ≤ q' → (1 + u) ^ q ≤ (1 + u) ^ q' := fun q q' hq => pow_le_pow_right₀ (by linarith) hq
  have hclog : ∀ n : ℕ, Nat.clog 2 (n + 1) ≤ n := fun n => Nat.clog_le_of_le_pow (Nat.lt_two_pow_self)
  unfold Arith.evalAt
  by_cases hp : par
  · rw [if_pos hp]
    have hm : m ∈ x :: xs := by rw [← hx]; simp
    have hsm := hs m hm
    have hlen : xs.length = left.toList.length + ms.length + right.toList.length := by
      have := congrArg List.length hx
      simp at this ⊢
      omega
    have base := reducePar_near ac m.c hsm.2.2.1 hsm.2.2.2 m ms (by omega) (hsq hp)
    have hg0 : (0 : ℝ) ≤ (1 + γ) ^ ms.length * (1 + u) ^ (2 * ms.length) := by positivity
    have hcl := hclog ms.length
    cases left with
    | none =>
      cases right with
      | none =>
        simp only [Option.toList_none, List.nil_append, List.append_nil, List.cons.injEq] at hx
        obtain ⟨rfl, rfl⟩ := hx
        have e : ((ops.reducePar m.c (m :: ms)).map (fun p => (p.1, p.2))).map (fun p => (p.1, p.2)) = ops.reducePar m.c (m :: ms) := by
          cases ops.reducePar m.c (m :: ms) <;> rfl
        simp only [e]
        exact base.approx ac hS (le_refl _) hcl (le_refl _)
      | some w =>
        simp only [Option.toList_none, List.nil_append, Option.toList_some, List.cons_append, List.cons.injEq] at hx
        obtain ⟨rfl, rfl⟩ := hx
        have hcw : (matProd m ms).c = w.r := chainOK_matProd_c hc
        have h2 := base.mulRight ac hg0 w hcw (by rw [hcw]; exact (hs w (by simp)).2.1)
        rw [absProd_append, show (matProd m ms).mul w = matProd m (ms ++ [w]) from by rw [matProd_append]; rfl] at h2
        have e : ((ops.reducePar m.c (m :: ms)).map (fun p => (p.1, p.2))) = ops.reducePar m.c (m :: ms) := by
          cases ops.reducePar m.c (m :: ms) <;> rfl
        simp only [e]
        have hl : (ms ++ [w]).length = ms.length + 1 := by simp
        rw [hl]
        refine h2.approx ac hS ?_ (by omega) (by omega)
        rw [pow_succ, mul_right_comm]
        exact mul_le_mul_of_nonneg_left (p2 _ _ (by omega)) (by positivity)
    | some v =>
      cases right with
      | none =>
        simp only [Option.toList_none, List.nil_append, Option.toList_some, List.cons_append, List.append_nil, List.cons.injEq] at hx
        obtain ⟨rfl, rfl⟩ := hx
        have h2 := base.mulLeft ac hg0 v (by rw [matProd_r]; exact hc.1) (hs v (by simp)).2.2.2
        rw [absProd_cons, matProd_mul, ← matProd_cons] at h2
        have e : ∀ o : Option (Mat K × ℝ), o.map (fun p => (p.1, p.2)) = o := fun o => by cases o <;> rfl
        simp only [e]
        have hl : (m :: ms).length = ms.length + 1 := rfl
        rw [hl]
        refine h2.approx ac hS ?_ (by omega) (by omega)
        rw [pow_succ, mul_right_comm]
        exact mul_le_mul_of_nonneg_left (p2 _ _ (by omega)) (by positivity)
      | some w =>
        simp only [List.nil_append, Option.toList_some, List.cons_append, List.cons.injEq] at hx
        obtain ⟨rfl, rfl⟩ := hx
        have h2 := base.mulLeft ac hg0 v (by rw [matProd_r]; exact hc.1) (hs v (by simp)).2.2.2
        rw [absProd_cons, matProd_mul, ← matProd_cons] at h2
        have hcw : (matProd v (m :: ms)).c = w.r := chainOK_matProd_c (by simpa using hc)
        have h3 := h2.mulRight ac (by positivity) w hcw (by rw [hcw]; exact (hs w (by simp)).2.1)
        rw [absProd_append, show (matProd v (m :: ms)).mul w = matProd v (m :: ms ++ [w]) from by rw [matProd_append]; rfl] at h3
        have hl : (m :: (ms ++ [w])).length = ms.length + 2 := by simp
        rw [hl]
        refine h3.approx ac hS ?_ (by omega) (by omega)
        have : (1 + γ) ^ ms.length * (1 + u) ^ (2 * ms.length) * (1 + γ) * (1 + γ) = (1 + γ) ^ (ms.length + 2) * (1 + u) ^ (2 * ms.length) := by ring
        rw [this]
        exact mul_le_mul_of_nonneg_left (p2 _ _ (by omega)) (by positivity)
  · rw [if_neg hp, hx]
    refine (reduceSeq_near ac (by omega) x xs hc hs).approx ac hS ?_ (le_refl _) (by omega)
    rw [mul_pow]
    exact mul_le_mul_of_nonneg_left (p2 _ _ (by omega)) (by positivity)

end TorchMPS
