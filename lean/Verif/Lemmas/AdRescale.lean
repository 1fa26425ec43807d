import Verif.Lemmas.AdStuck
import Mathlib.Analysis.SpecialFunctions.Pow.Real
/-
Rescaling the norms of the cores of an unmerged chain.
-/
namespace TorchMPS
open Spec

theorem normT_core (D F : ℕ) (t : Tensor ℝ) (h : t.shape = [D, D, F]) (A : ℕ → ℕ → ℕ → ℝ)
    (hv : ∀ l < D, ∀ r < D, ∀ f < F, t.get [l, r, f] = A l r f) : normT t = coreNorm D F A := by
  unfold normT coreNorm
  simp only [h, sumAll]
  congr 1
  refine Finset.sum_congr rfl (fun l hl => Finset.sum_congr rfl (fun r hr => Finset.sum_congr rfl (fun f hf => ?_)))
  rw [hv l (Finset.mem_range.1 hl) r (Finset.mem_range.1 hr) f (Finset.mem_range.1 hf)]

theorem normT_out (D O : ℕ) (t : Tensor ℝ) (h : t.shape = [O, D, D]) (C : ℕ → ℕ → ℕ → ℝ)
    (hv : ∀ o < O, ∀ l < D, ∀ r < D, t.get [o, l, r] = C o l r) : normT t = outNorm D O C := by
  unfold normT outNorm
  simp only [h, sumAll]
  congr 1
  refine Finset.sum_congr rfl (fun l hl => Finset.sum_congr rfl (fun r hr => Finset.sum_congr rfl (fun f hf => ?_)))
  rw [hv l (Finset.mem_range.1 hl) r (Finset.mem_range.1 hr) f (Finset.mem_range.1 hf)]

theorem site_norms (D F : ℕ) (a : Cores ℝ) (i : ℕ) (m : Module ℝ) (h : IsSite D F a i m) : m.norms = [coreNorm D F (a.A i)] := by
  obtain ⟨t, rfl, h1, h2⟩ := h
  simp only [Module.norms]
  rw [normT_core D F t h1 _ h2]

theorem out_norms (D O : ℕ) (a : Cores ℝ) (m : Module ℝ) (h : IsOut D O a m) : m.norms = [outNorm D O a.C] := by
  obtain ⟨t, rfl, h1, h2⟩ := h
  simp only [Module.norms]
  rw [normT_out D O t h1 _ h2]

theorem region_norms (D F : ℕ) (a : Cores ℝ) (i len : ℕ) (m : Module ℝ) (h : IsRegion D F a i len m) :
    m.norms = (List.range' i len).map (fun q => coreNorm D F (a.A q)) := by
  obtain ⟨_, t, b, rfl, h1, h2⟩ := h
  simp only [Module.norms, h1, List.getD_cons_zero]
  rw [List.range'_eq_map_range, List.map_map]
  refine List.map_congr_left ?_
  intro s hs
  have hs := List.mem_range.1 hs
  simp only [Function.comp]
  refine normT_core D F _ (by simp [Tensor.select, h1]) _ ?_
  intro l hl r hr f hf
  simp [Tensor.select, h2 s hs l hl r hr f hf]

theorem part_norms (D F : ℕ) (a : Cores ℝ) (i len : ℕ) (P : List (Module ℝ)) (h : Part D F a i len P) :
    P.flatMap Module.norms = (List.range' i len).map (fun q => coreNorm D F (a.A q)) := by
  cases h with
  | none => rfl
  | site h => simp [site_norms D F a i _ h]
  | region h => simp [region_norms D F a i len _ h]

/-- all norms of an unmerged chain -/
theorem unmerged_norms (D F O k n : ℕ) (a : Cores ℝ) (ms : List (Module ℝ)) (h : Unmerged D F O k n a ms) :
    ms.flatMap Module.norms = (List.range' 0 k).map (fun q => coreNorm D F (a.A q)) ++ outNorm D O a.C ::
      (List.range' k (n - k)).map (fun q => coreNorm D F (a.A q)) := by
  obtain ⟨L, x, R, rfl, h1, h2, h3⟩ := h
  rw [List.flatMap_append, List.flatMap_cons, part_norms D F a 0 k L h1, out_norms D O a x h2, part_norms D F a k (n - k) R h3]
  rfl

theorem range_split {α : Type} (f : ℕ → α) (k n : ℕ) (hk : k ≤ n) : (List.range n).map f = (List.range' 0 k).map f ++ (List.range' k (n - k)).map f := by
  rw [← List.map_append, List.range_eq_range']
  have := List.range'_append (s := 0) (m := k) (n := n - k) (step := 1)
  simp only [one_mul, zero_add] at this
  rw [this, show k + (n - k) = n by omega]

theorem norms_perm (D F O k n : ℕ) (hk : k ≤ n) (a : Cores ℝ) (ms : List (Module ℝ)) (h : Unmerged D F O k n a ms) :
    (ms.flatMap Module.norms).Perm (outNorm D O a.C :: (List.range n).map (fun q => coreNorm D F (a.A q))) := by
  rw [unmerged_norms D F O k n a ms h, range_split _ k n hk]
  exact List.perm_middle

theorem norms_lengths (ms : List (Module ℝ)) : (ms.map (fun m => m.norms.length)).sum = (ms.flatMap Module.norms).length := by
  induction ms with
  | nil => rfl
  | cons m ms ih => simp only [List.map_cons, List.sum_cons, List.flatMap_cons, List.length_append, ih]

theorem norms_logs (ms : List (Module ℝ)) : (ms.map (fun m => (m.norms.map Real.log).sum)).sum = ((ms.flatMap Module.norms).map Real.log).sum := by
  induction ms with
  | nil => rfl
  | cons m ms ih => simp only [List.map_cons, List.sum_cons, List.flatMap_cons, List.map_append, List.sum_append, ih]

theorem logScale_eq (D F O k n : ℕ) (hk : k ≤ n) (a : Cores ℝ) (ms : List (Module ℝ)) (h : Unmerged D F O k n a ms) :
    logScale ms = (Real.log (outNorm D O a.C) + ∑ q ∈ Finset.range n, Real.log (coreNorm D F (a.A q))) / (n + 1) := by
  have hp := norms_perm D F O k n hk a ms h
  unfold logScale
  rw [norms_logs, norms_lengths, hp.length_eq, (hp.map Real.log).sum_eq]
  simp only [List.map_cons, List.sum_cons, List.map_map, List.length_cons, List.length_map, List.length_range]
  rw [Nat.cast_succ]
  congr 2
theorem coreNorm_nonneg (D F : ℕ) (A : ℕ → ℕ → ℕ → ℝ) : 0 ≤ coreNorm D F A := Real.sqrt_nonneg _
theorem outNorm_nonneg (D O : ℕ) (C : ℕ → ℕ → ℕ → ℝ) : 0 ≤ outNorm D O C := Real.sqrt_nonneg _

theorem coreNorm_scale (D F : ℕ) (A : ℕ → ℕ → ℕ → ℝ) (c : ℝ) (hc : 0 ≤ c) : coreNorm D F (fun l r f => A l r f * c) = coreNorm D F A * c := by
  unfold coreNorm
  have : ∑ l ∈ Finset.range D, ∑ r ∈ Finset.range D, ∑ f ∈ Finset.range F, (A l r f * c) ^ 2 =
      (∑ l ∈ Finset.range D, ∑ r ∈ Finset.range D, ∑ f ∈ Finset.range F, A l r f ^ 2) * c ^ 2 := by
    simp only [Finset.sum_mul, mul_pow]
  rw [this, Real.sqrt_mul' _ (sq_nonneg c), Real.sqrt_sq hc]

theorem outNorm_scale (D O : ℕ) (C : ℕ → ℕ → ℕ → ℝ) (c : ℝ) (hc : 0 ≤ c) : outNorm D O (fun o l r => C o l r * c) = outNorm D O C * c := by
  unfold outNorm
  have : ∑ o ∈ Finset.range O, ∑ l ∈ Finset.range D, ∑ r ∈ Finset.range D, (C o l r * c) ^ 2 =
      (∑ o ∈ Finset.range O, ∑ l ∈ Finset.range D, ∑ r ∈ Finset.range D, C o l r ^ 2) * c ^ 2 := by
    simp only [Finset.sum_mul, mul_pow]
  rw [this, Real.sqrt_mul' _ (sq_nonneg c), Real.sqrt_sq hc]

theorem part_rescale (D F : ℕ) (a a' : Cores ℝ) (g : ℝ → ℝ) (ha : ∀ q l r f, a'.A q l r f = a.A q l r f * g (coreNorm D F (a.A q))) (i len : ℕ)
    (P : List (Module ℝ)) (h : Part D F a i len P) : Part D F a' i len (P.map (fun m => m.rescale (m.norms.map g))) := by
  cases h with
  | none => exact .none
  | site h =>
    have hn := site_norms D F a i _ h
    obtain ⟨t, rfl, h1, h2⟩ := h
    refine .site ⟨scaleAll t (g (coreNorm D F (a.A i))), ?_, h1, ?_⟩
    · beta_reduce; rw [hn]; rfl
    · intro l hl r hr f hf
      rw [ha]
      simp only [scaleAll]
      rw [h2 l hl r hr f hf]
  | region h =>
    have hn := region_norms D F a i len _ h
    obtain ⟨hl, t, b, rfl, h1, h2⟩ := h
    refine .region ⟨hl, scaleSlices t ((List.range' i len).map (fun q => g (coreNorm D F (a.A q)))), b, ?_, h1, ?_⟩
    · beta_reduce; rw [hn, List.map_map]; rfl
    · intro s hs l hl r hr f hf
      rw [ha]
      simp only [scaleSlices, List.getD_cons_zero]
      rw [h2 s hs l hl r hr f hf]
      congr 1
      rw [List.getD_eq_getElem _ _ (by simpa using hs)]
      simp

/-- Rescaling an unmerged chain: NaN if the norm of a core is zero, otherwise an unmerged chain of rescaled cores. -/
theorem rescale_unmerged (D F O k n : ℕ) (hk : k ≤ n) (a : Cores ℝ) (ms : List (Module ℝ)) (h : Unmerged D F O k n a ms) :
    (rescaleCores ms = .error .nan ∧ (outNorm D O a.C = 0 ∨ ∃ q < n, coreNorm D F (a.A q) = 0)) ∨
    ∃ ms', rescaleCores ms = .ok ms' ∧ outNorm D O a.C ≠ 0 ∧ (∀ q < n, coreNorm D F (a.A q) ≠ 0) ∧
      Unmerged D F O k n (a.scale (fun q => Real.exp (logScale ms - Real.log (coreNorm D F (a.A q))))
        (Real.exp (logScale ms - Real.log (outNorm D O a.C)))) ms' := by
  have hp := norms_perm D F O k n hk a ms h
  have hiff : (∃ m ∈ ms, (0 : ℝ) ∈ m.norms) ↔ (outNorm D O a.C = 0 ∨ ∃ q < n, coreNorm D F (a.A q) = 0) := by
    rw [← List.mem_flatMap, hp.mem_iff]
    simp only [List.mem_cons, List.mem_map, List.mem_range, eq_comm (a := (0 : ℝ))]
  unfold rescaleCores
  rw [if_neg (by rw [norms_lengths, hp.length_eq]; simp)]
  by_cases hz : ∃ m ∈ ms, (0 : ℝ) ∈ m.norms
  · left
    rw [if_pos hz]
    exact ⟨rfl, hiff.1 hz⟩
  · right
    rw [if_neg hz]
    rw [hiff] at hz
    push Not at hz
    refine ⟨_, rfl, hz.1, hz.2, ?_⟩
    generalize logScale ms = ls
    obtain ⟨L, x, R, rfl, h1, h2, h3⟩ := h
    rw [List.map_append, List.map_cons]
    refine ⟨_, _, _, rfl, part_rescale D F a _ _ (fun _ _ _ _ => rfl) 0 k L h1, ?_, part_rescale D F a _ _ (fun _ _ _ _ => rfl) k (n - k) R h3⟩
    have hn := out_norms D O a x h2
    obtain ⟨t, rfl, t1, t2⟩ := h2
    refine ⟨scaleAll t (Real.exp (ls - Real.log (outNorm D O a.C))), ?_, t1, ?_⟩
    · rw [hn]; rfl
    · intro o ho l hl r hr
      simp only [scaleAll, Cores.scale]
      rw [t2 o ho l hl r hr]

theorem scale_prod (n : ℕ) (x0 : ℝ) (x : ℕ → ℝ) (ls : ℝ) (h : ls = (x0 + ∑ q ∈ Finset.range n, x q) / (n + 1)) :
    Real.exp (ls - x0) * ∏ q ∈ Finset.range n, Real.exp (ls - x q) = 1 := by
  rw [← Real.exp_sum, ← Real.exp_add, Real.exp_eq_one_iff, Finset.sum_sub_distrib, Finset.sum_const, Finset.card_range, nsmul_eq_mul, h]
  have : (n : ℝ) + 1 ≠ 0 := by positivity
  field_simp
  ring

/-! ### the value of a rescaled chain -/

/-- all entries multiplied by a factor -/
def scaleMat (c : ℝ) (A : Mat ℝ) : Mat ℝ := ⟨A.r, A.c, fun i j => A.e i j * c⟩

theorem scaleMat_mul (c d : ℝ) (A B : Mat ℝ) : (scaleMat c A).mul (scaleMat d B) = scaleMat (c * d) (A.mul B) := by
  simp only [scaleMat, Mat.mul, Mat.mk.injEq, true_and]
  funext i j
  rw [Finset.sum_mul]
  refine Finset.sum_congr rfl ?_
  intro u _
  ring

theorem scaleMat_foldl (l : List (ℝ × Mat ℝ)) (c : ℝ) (M : Mat ℝ) :
    (l.map (fun p => scaleMat p.1 p.2)).foldl Mat.mul (scaleMat c M) = scaleMat (c * (l.map Prod.fst).prod) ((l.map Prod.snd).foldl Mat.mul M) := by
  induction l generalizing c M with
  | nil => simp
  | cons p l ih =>
    simp only [List.map_cons, List.foldl_cons, List.prod_cons]
    rw [scaleMat_mul, ih, mul_assoc]

theorem scaleMat_prodL (l : List (ℝ × Mat ℝ)) :
    prodL (l.map (fun p => scaleMat p.1 p.2)) = (prodL (l.map Prod.snd)).map (scaleMat (l.map Prod.fst).prod) := by
  cases l with
  | nil => rfl
  | cons p l =>
    simp only [List.map_cons, List.prod_cons]
    rw [prodL_cons_foldl, prodL_cons_foldl, scaleMat_foldl]
    rfl

theorem scaleMat_of (D : ℕ) (f : ℕ → ℕ → ℝ) (c : ℝ) : Mat.of D D (fun i j => f i j * c) = scaleMat c (Mat.of D D f) := by
  simp only [scaleMat, Mat.of, Mat.mk.injEq, true_and]
  funext i j
  split
  · rfl
  · ring

theorem coreMat_scale (D F : ℕ) (a : Cores ℝ) (c : ℕ → ℝ) (c0 : ℝ) (e : Tensor ℝ) (b i : ℕ) :
    coreMatAt D F (a.scale c c0) e b i = scaleMat (c i) (coreMatAt D F a e b i) := by
  unfold coreMatAt affMat
  rw [← scaleMat_of]
  refine mat_of_congr _ _ _ _ ?_
  intro l _ r _
  simp only [Cores.scale, add_zero, Finset.sum_mul]
  refine Finset.sum_congr rfl ?_
  intro f _
  ring

theorem prod_range_list (c : ℕ → ℝ) (n : ℕ) : ((List.range n).map c).prod = ∏ q ∈ Finset.range n, c q := by
  induction n with
  | zero => rfl
  | succ n ih => rw [List.range_succ, List.map_append, List.prod_append, ih, Finset.prod_range_succ]; simp

/-- Multiplying the cores by factors multiplies the value by the product of the factors. -/
theorem chainValue_scale (D F k n : ℕ) (hk : k ≤ n) (per : Bool) (a : Cores ℝ) (c : ℕ → ℝ) (c0 : ℝ) (e : Tensor ℝ) (b o : ℕ) :
    chainValue D F k n per (a.scale c c0) e b o = (c0 * ∏ q ∈ Finset.range n, c q) * chainValue D F k n per a e b o := by
  have hl : ∃ l : List (ℝ × Mat ℝ), fineMats D F k n (a.scale c c0) e b o = l.map (fun p => scaleMat p.1 p.2) ∧
      fineMats D F k n a e b o = l.map Prod.snd ∧ (l.map Prod.fst).prod = c0 * ∏ q ∈ Finset.range n, c q := by
    refine ⟨(List.range' 0 k).map (fun i => (c i, coreMatAt D F a e b i)) ++ (c0, Mat.of D D (a.C o)) ::
      (List.range' k (n - k)).map (fun i => (c i, coreMatAt D F a e b i)), ?_, ?_, ?_⟩
    · unfold fineMats
      simp only [List.map_append, List.map_cons, List.map_map]
      congr 1
      · exact List.map_congr_left (fun i _ => coreMat_scale D F a c c0 e b i)
      · congr 1
        · exact scaleMat_of D (a.C o) c0
        · exact List.map_congr_left (fun i _ => coreMat_scale D F a c c0 e b i)
    · unfold fineMats
      simp only [List.map_append, List.map_cons, List.map_map]
      rfl
    · simp only [List.map_append, List.map_cons, List.map_map, List.prod_append, List.prod_cons]
      have e1 : Prod.fst ∘ (fun i => (c i, coreMatAt D F a e b i)) = c := rfl
      rw [e1, mul_left_comm, ← List.prod_append, ← range_split c k n hk]
      congr 1
  obtain ⟨l, h1, h2, h3⟩ := hl
  unfold chainValue
  rw [h1, h2, orderedProd_eq, orderedProd_eq, scaleMat_prodL, h3]
  cases prodL (l.map Prod.snd) with
  | none => simp
  | some M =>
    simp only [Option.map_some]
    cases per
    · simp [scaleMat, mul_comm]
    · simp [scaleMat, Finset.mul_sum, mul_comm]

end TorchMPS
