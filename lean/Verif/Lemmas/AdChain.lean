import Verif.Spec.Adaptive
import Verif.Lemmas.Mps
/-
The value of a merged chain is the value of its cores.
-/
namespace TorchMPS
open Spec
variable {K : Type}

theorem of_mul_of [Semiring K] (D : ℕ) (f g : ℕ → ℕ → K) :
    (Mat.of D D f).mul (Mat.of D D g) = Mat.of D D (fun i j => ∑ u ∈ Finset.range D, f i u * g u j) := by
  ext
  · rfl
  · rfl
  · rename_i i j
    simp only [Mat.mul, Mat.of]
    by_cases h : i < D ∧ j < D
    · rw [if_pos h]
      refine Finset.sum_congr rfl ?_
      intro u hu
      have hu := Finset.mem_range.1 hu
      rw [if_pos ⟨h.1, hu⟩, if_pos ⟨hu, h.2⟩]
    · rw [if_neg h]
      refine Finset.sum_eq_zero ?_
      intro u hu
      have hu := Finset.mem_range.1 hu
      by_cases h1 : i < D
      · rw [if_neg (c := u < D ∧ j < D) (by tauto), mul_zero]
      · rw [if_neg (by tauto), zero_mul]

/-- `xs` arises from `ys` by multiplying some neighbours. -/
inductive Coarsens [Semiring K] : List (Mat K) → List (Mat K) → Prop
  | nil : Coarsens [] []
  | one (A) {xs ys} : Coarsens xs ys → Coarsens (A :: xs) (A :: ys)
  | two (A B) {xs ys} : Coarsens xs ys → Coarsens (A.mul B :: xs) (A :: B :: ys)

theorem Coarsens.append [Semiring K] {xs ys xs' ys' : List (Mat K)} (h : Coarsens xs ys) (h' : Coarsens xs' ys') :
    Coarsens (xs ++ xs') (ys ++ ys') := by
  induction h with
  | nil => exact h'
  | one A _ ih => exact .one A ih
  | two A B _ ih => exact .two A B ih

theorem Coarsens.foldl [Semiring K] {xs ys : List (Mat K)} (h : Coarsens xs ys) (M : Mat K) :
    xs.foldl Mat.mul M = ys.foldl Mat.mul M := by
  induction h generalizing M with
  | nil => rfl
  | one A _ ih => exact ih _
  | two A B _ ih =>
    simp only [List.foldl_cons]
    rw [← Mat.mul_assoc]
    exact ih _

theorem Coarsens.prodL [Semiring K] {xs ys : List (Mat K)} (h : Coarsens xs ys) : prodL xs = prodL ys := by
  cases h with
  | nil => rfl
  | one A h => rw [prodL_cons_foldl, prodL_cons_foldl, h.foldl]
  | two A B h => rw [prodL_cons_foldl, prodL_cons_foldl, List.foldl_cons, h.foldl]

/-- the pixel a module begins with -/
def Kind.At (i : ℕ) : Kind → Prop
  | .site j => j = i
  | .pairs j c => j = i ∧ 1 ≤ c
  | .out => True
  | .mout j _ => j = i

/-- the modules cover the pixels from `i` on in order -/
def Starts : ℕ → List Kind → Prop
  | _, [] => True
  | i, κ :: ks => Kind.At i κ ∧ Starts (i + κ.len) ks

theorem starts_layout (p k n : ℕ) (hp : p ≤ 1) (hk : k ≤ n) : Starts 0 (layout p k n) := by
  unfold layout leftKinds rightKinds
  split_ifs <;> simp only [List.nil_append, List.cons_append, List.append_nil, Starts, Kind.At, Kind.len, and_true, true_and] <;> omega

/-- the matrices of the single cores -/
def kindFine [CommSemiring K] (D F : ℕ) (a : Cores K) (e : Tensor K) (b o : ℕ) : Kind → List (Mat K)
  | .site i => [coreMatAt D F a e b i]
  | .pairs i c => (List.range' i (2 * c)).map (coreMatAt D F a e b)
  | .out => [Mat.of D D (a.C o)]
  | .mout i true => [Mat.of D D (a.C o), coreMatAt D F a e b i]
  | .mout i false => [coreMatAt D F a e b i, Mat.of D D (a.C o)]

theorem fine_left [CommSemiring K] (D F : ℕ) (a : Cores K) (e : Tensor K) (b o p q : ℕ) (hp : p ≤ 1) (hq : p ≤ q) (hpq : q % 2 = p) :
    (leftKinds p q).flatMap (kindFine D F a e b o) = (List.range' 0 q).map (coreMatAt D F a e b) := by
  unfold leftKinds
  have h2 : 2 * ((q - p) / 2) = q - p := by omega
  have h01 : p = 0 ∨ p = 1 := by omega
  rcases h01 with rfl | rfl
  · by_cases h : 2 ≤ q - 0
    · rw [if_neg (by decide), if_pos h]
      simp [kindFine]
      rw [show 2 * (q / 2) = q by omega]
    · rw [if_neg (by decide), if_neg h]
      have : q = 0 := by omega
      simp [this]
  · obtain ⟨q, rfl⟩ : ∃ r, q = r + 1 := ⟨q - 1, by omega⟩
    rw [List.range'_succ]
    by_cases h : 2 ≤ q + 1 - 1
    · rw [if_pos rfl, if_pos h]
      simp [kindFine]
      rw [show 2 * (q / 2) = q by omega]
    · rw [if_pos rfl, if_neg h]
      have : q = 0 := by omega
      simp [this, kindFine]

theorem fine_right [CommSemiring K] (D F : ℕ) (a : Cores K) (e : Tensor K) (b o i q : ℕ) :
    (rightKinds i q).flatMap (kindFine D F a e b o) = (List.range' i q).map (coreMatAt D F a e b) := by
  unfold rightKinds
  by_cases h1 : q % 2 = 1
  · obtain ⟨r, rfl⟩ : ∃ r, q = 2 * r + 1 := ⟨q / 2, by omega⟩
    rw [if_pos h1, List.range'_1_concat]
    by_cases h : 2 ≤ 2 * r + 1
    · rw [if_pos h]
      simp [kindFine]
      rw [show (2 * r + 1) / 2 = r by omega]
    · have : r = 0 := by omega
      subst this
      simp [kindFine]
  · rw [if_neg h1]
    by_cases h : 2 ≤ q
    · rw [if_pos h]
      simp [kindFine]
      rw [show 2 * (q / 2) = q by omega]
    · have : q = 0 := by omega
      subst this
      simp

theorem fine_layout [CommSemiring K] (D F p k n : ℕ) (hp : p ≤ 1) (hk : k ≤ n) (a : Cores K) (e : Tensor K) (b o : ℕ) :
    (layout p k n).flatMap (kindFine D F a e b o) = fineMats D F k n a e b o := by
  unfold layout fineMats
  split_ifs with h1 h2 h3
  · rw [List.flatMap_append, fine_left D F a e b o p k hp (by omega) h1, List.flatMap_cons, fine_right]
    congr 1
    obtain ⟨r, hr⟩ : ∃ r, n - k = r + 1 := ⟨n - k - 1, by omega⟩
    rw [hr, List.range'_succ]
    simp [kindFine]
  · have : n - k = 0 := by omega
    rw [List.flatMap_append, fine_left D F a e b o p k hp (by omega) h1, this]
    simp [kindFine]
  · subst h3
    rw [List.flatMap_cons, fine_right]
    simp [kindFine]
  · rw [List.flatMap_append, fine_left D F a e b o p (k - 1) hp (by omega) (by omega), List.flatMap_cons, fine_right]
    obtain ⟨r, hr⟩ : ∃ r, k = r + 1 := ⟨k - 1, by omega⟩
    subst hr
    rw [List.range'_1_concat]
    simp [kindFine]

theorem pair_product [CommSemiring K] (D F : ℕ) (t5 : ℕ → ℕ → ℕ → ℕ → K) (A1 A2 : ℕ → ℕ → ℕ → K) (v w : ℕ → K)
    (h : ∀ l < D, ∀ r < D, ∀ f < F, ∀ f' < F, t5 l r f f' = ∑ u ∈ Finset.range D, A1 l u f * A2 u r f') :
    pairMat D F t5 v w = (affMat D F A1 v (fun _ _ => 0)).mul (affMat D F A2 w (fun _ _ => 0)) := by
  unfold pairMat affMat
  rw [of_mul_of]
  refine mat_of_congr _ _ _ _ ?_
  intro l hl r hr
  simp only [add_zero, Finset.sum_mul_sum]
  have : ∀ f ∈ Finset.range F, ∑ f' ∈ Finset.range F, t5 l r f f' * v f * w f' =
      ∑ f' ∈ Finset.range F, ∑ u ∈ Finset.range D, A1 l u f * v f * (A2 u r f' * w f') := by
    intro f hf
    refine Finset.sum_congr rfl ?_
    intro f' hf'
    rw [h l hl r hr f (Finset.mem_range.1 hf) f' (Finset.mem_range.1 hf'), Finset.sum_mul, Finset.sum_mul]
    refine Finset.sum_congr rfl ?_
    intro u _
    ring
  rw [Finset.sum_congr rfl this]
  have h2 : ∀ f ∈ Finset.range F, ∑ f' ∈ Finset.range F, ∑ u ∈ Finset.range D, A1 l u f * v f * (A2 u r f' * w f') =
      ∑ u ∈ Finset.range D, ∑ f' ∈ Finset.range F, A1 l u f * v f * (A2 u r f' * w f') := fun f _ => Finset.sum_comm
  rw [Finset.sum_congr rfl h2, Finset.sum_comm]

theorem coarsens_range [CommSemiring K] (c i : ℕ) (f : ℕ → Mat K) (g : ℕ → Mat K) (h : ∀ s < c, g s = (f (i + 2 * s)).mul (f (i + 2 * s + 1))) :
    Coarsens ((List.range c).map g) ((List.range' i (2 * c)).map f) := by
  induction c with
  | zero => exact .nil
  | succ c ih =>
    rw [List.range_succ, show 2 * (c + 1) = 2 * c + 1 + 1 by ring, List.range'_1_concat, List.range'_1_concat]
    simp only [List.map_append, List.append_assoc]
    refine (ih (fun s hs => h s (by omega))).append ?_
    rw [List.map_cons, List.map_nil, h c (by omega)]
    exact .two _ _ .nil

theorem kind_coarsens [CommSemiring K] (D F O : ℕ) (a : Cores K) (e : Tensor K) (b o i : ℕ) (ho : o < O) (κ : Kind) (m : Module K)
    (hat : Kind.At i κ) (hs : κ.Shaped D F O m) (hh : κ.Holds D F O a m) :
    Coarsens (moduleMats D F e b o i m) (kindFine D F a e b o κ) := by
  cases κ with
  | site j =>
    cases m with
    | inputSite t =>
      have hat : j = i := hat
      subst hat
      simp only [moduleMats, kindFine]
      have : affMat D F (fun l r f => t.get [l, r, f]) (fun f => e.get [b, j, f]) (fun _ _ => 0) = coreMatAt D F a e b j := by
        unfold coreMatAt affMat
        refine mat_of_congr _ _ _ _ ?_
        intro l hl r hr
        congr 1
        refine Finset.sum_congr rfl ?_
        intro f hf
        beta_reduce
        rw [hh l hl r hr f (Finset.mem_range.1 hf)]
      rw [this]
      exact .one _ .nil
    | _ => exact hs.elim
  | pairs j c =>
    cases m with
    | mergedInput t =>
      obtain ⟨rfl, _⟩ := hat
      have hs : t.shape = [c, D, D, F, F] := hs
      simp only [moduleMats, kindFine, hs]
      refine coarsens_range c j _ _ ?_
      intro s hsc
      exact pair_product D F _ _ _ _ _ (fun l hl r hr f hf f' hf' => hh s hsc l hl r hr f hf f' hf')
    | _ => exact hs.elim
  | out =>
    cases m with
    | outputSite t =>
      simp only [moduleMats, kindFine]
      have : Mat.of D D (fun l r => t.get [o, l, r]) = Mat.of D D (a.C o) := mat_of_congr _ _ _ _ (fun l hl r hr => hh o ho l hl r hr)
      rw [this]
      exact .one _ .nil
    | _ => exact hs.elim
  | mout j left =>
    cases m with
    | mergedOutput t l' =>
      have hat : j = i := hat
      subst hat
      cases left with
      | true =>
        simp only [moduleMats, kindFine]
        have : affMat D F (fun l r f => t.get [o, l, r, f]) (fun f => e.get [b, j, f]) (fun _ _ => 0) =
            (Mat.of D D (a.C o)).mul (coreMatAt D F a e b j) := by
          unfold coreMatAt affMat
          rw [of_mul_of]
          refine mat_of_congr _ _ _ _ ?_
          intro l hl r hr
          simp only [add_zero, Finset.mul_sum]
          rw [Finset.sum_comm]
          refine Finset.sum_congr rfl ?_
          intro f hf
          rw [hh o ho l hl r hr f (Finset.mem_range.1 hf), Finset.sum_mul]
          refine Finset.sum_congr rfl ?_
          intro u _
          ring
        rw [this]
        exact .two _ _ .nil
      | false =>
        simp only [moduleMats, kindFine]
        have : affMat D F (fun l r f => t.get [o, l, r, f]) (fun f => e.get [b, j, f]) (fun _ _ => 0) =
            (coreMatAt D F a e b j).mul (Mat.of D D (a.C o)) := by
          unfold coreMatAt affMat
          rw [of_mul_of]
          refine mat_of_congr _ _ _ _ ?_
          intro l hl r hr
          simp only [add_zero, Finset.sum_mul]
          rw [Finset.sum_comm]
          refine Finset.sum_congr rfl ?_
          intro f hf
          rw [hh o ho l hl r hr f (Finset.mem_range.1 hf), Finset.sum_mul]
          refine Finset.sum_congr rfl ?_
          intro u _
          ring
        rw [this]
        exact .two _ _ .nil
    | _ => exact hs.elim

theorem shaped_len (D F O : ℕ) (κ : Kind) (m : Module K) (hs : κ.Shaped D F O m) : m.len = κ.len ∧ m.coreLen = κ.cores := by
  cases κ <;> cases m <;> first | exact hs.elim | skip
  · exact ⟨rfl, rfl⟩
  · have hs : _ = _ := hs
    simp [Module.len, Module.coreLen, Kind.len, Kind.cores, hs]
  · exact ⟨rfl, rfl⟩
  · exact ⟨rfl, rfl⟩

theorem chain_coarsens [CommSemiring K] (D F O : ℕ) (a : Cores K) (e : Tensor K) (b o i : ℕ) (ho : o < O) (ks : List Kind) (ms : List (Module K))
    (hst : Starts i ks) (h : List.Forall₂ (fun κ m => κ.Shaped D F O m ∧ κ.Holds D F O a m) ks ms) :
    Coarsens (chainMats D F e b o i ms) (ks.flatMap (kindFine D F a e b o)) := by
  induction h generalizing i with
  | nil => exact .nil
  | @cons κ m ks ms h1 h2 ih =>
    obtain ⟨s1, s2⟩ := hst
    simp only [chainMats, List.flatMap_cons]
    refine (kind_coarsens D F O a e b o i ho κ m s1 h1.1 h1.2).append ?_
    rw [(shaped_len D F O κ m h1.1).1]
    exact ih _ s2

theorem merged_prod [CommSemiring K] (D F O p k n : ℕ) (hp : p ≤ 1) (hk : k ≤ n) (a : Cores K) (ms : List (Module K)) (h : MergedChain D F O p k n a ms)
    (e : Tensor K) (b o : ℕ) (ho : o < O) :
    orderedProd (chainMats D F e b o 0 ms) = orderedProd (fineMats D F k n a e b o) := by
  rw [orderedProd_eq, orderedProd_eq, ← fine_layout D F p k n hp hk]
  exact (chain_coarsens D F O a e b o 0 ho _ _ (starts_layout p k n hp hk) h).prodL

end TorchMPS
