import Verif.Lemmas.AdFlip
/-
Which bonds are refreshed by a flip.
-/
namespace TorchMPS
open Spec

/-- `c` times: a bond inside a pair, a bond behind it -/
def altBonds : ℕ → List Bool
  | 0 => []
  | c + 1 => true :: false :: altBonds c

theorem altBonds_append (a b : ℕ) : altBonds a ++ altBonds b = altBonds (a + b) := by
  induction a with
  | zero => simp [altBonds]
  | succ a ih => rw [show a + 1 + b = a + b + 1 by ring]; simp [altBonds, ih]

theorem altBonds_length (c : ℕ) : (altBonds c).length = 2 * c := by
  induction c with
  | zero => rfl
  | succ c ih => simp [altBonds, ih]; ring

theorem altBonds_getD (c i : ℕ) : (altBonds c).getD i false = decide (i < 2 * c ∧ i % 2 = 0) := by
  induction c generalizing i with
  | zero => simp [altBonds]
  | succ c ih =>
    match i with
    | 0 => simp [altBonds]
    | 1 => simp [altBonds]
    | i + 2 =>
      simp only [altBonds, List.getD_cons_succ, ih]
      exact decide_eq_decide.2 (by omega)

/-- for every bond to the right of a core: whether it is inside a merged pair -/
def kindBonds : Kind → List Bool
  | .site _ => [false]
  | .out => [false]
  | .pairs _ c => altBonds c
  | .mout _ _ => altBonds 1

theorem plan_bonds (svd : Mat ℝ → SVD) (D F O : ℕ) (κ : Kind) (m : Module ℝ) (h : κ.Shaped D F O m) :
    (bondPlan svd m).map Option.isSome = kindBonds κ := by
  cases κ <;> cases m <;> first | exact h.elim | skip
  · rfl
  · simp only [Kind.Shaped] at h
    simp only [bondPlan, h, List.getD_cons_zero, kindBonds]
    rename_i i c t
    have : ∀ l : List ℕ, (l.flatMap (fun s => [some (pairSvs svd (t.select 0 s)), none])).map Option.isSome = altBonds l.length := by
      intro l
      induction l with
      | nil => rfl
      | cons s l ih => simp only [List.flatMap_cons, List.cons_append, List.nil_append, List.map_cons, ih, List.length_cons, altBonds]; rfl
    rw [this, List.length_range]
  · rfl
  · rename_i b _ b'
    cases b' <;> rfl

theorem layout_bonds (p k n : ℕ) (hp : p ≤ 1) (hk : k ≤ n) : (layout p k n).flatMap kindBonds =
    (if p = 1 then [false] else []) ++ altBonds ((n + 1 - p) / 2) ++ (if (n + 1 - p) % 2 = 1 then [false] else []) := by
  have hl : ∀ q, p ≤ q → q % 2 = p → (leftKinds p q).flatMap kindBonds = (if p = 1 then [false] else []) ++ altBonds ((q - p) / 2) := by
    intro q _ hq
    unfold leftKinds
    rw [List.flatMap_append]
    congr 1
    · split <;> rfl
    · split
      · simp [kindBonds]
      · rw [show (q - p) / 2 = 0 by omega]; rfl
  have hr : ∀ i q, (rightKinds i q).flatMap kindBonds = altBonds (q / 2) ++ (if q % 2 = 1 then [false] else []) := by
    intro i q
    unfold rightKinds
    rw [List.flatMap_append]
    congr 1
    · split
      · simp [kindBonds]
      · rw [show q / 2 = 0 by omega]; rfl
    · split <;> rfl
  unfold layout
  by_cases h1 : k % 2 = p
  · rw [if_pos h1, List.flatMap_append, hl k (by omega) h1]
    by_cases h2 : k < n
    · rw [if_pos h2, List.flatMap_cons, hr]
      simp only [kindBonds, List.append_assoc]
      rw [← List.append_assoc (altBonds 1), altBonds_append, ← List.append_assoc (altBonds ((k - p) / 2)), altBonds_append,
        show (k - p) / 2 + (1 + (n - k - 1) / 2) = (n + 1 - p) / 2 by omega, show (n - k - 1) % 2 = (n + 1 - p) % 2 by omega]
    · rw [if_neg h2, show (k - p) / 2 = (n + 1 - p) / 2 by omega, if_pos (show (n + 1 - p) % 2 = 1 by omega)]
      rfl
  · rw [if_neg h1]
    by_cases h2 : k = 0
    · rw [if_pos h2, List.flatMap_cons, hr, if_pos (show p = 1 by omega), show n + 1 - p = n by omega]
      rfl
    · rw [if_neg h2, List.flatMap_append, hl (k - 1) (by omega) (by omega), List.flatMap_cons, hr]
      simp only [kindBonds, List.append_assoc]
      rw [← List.append_assoc (altBonds 1), altBonds_append, ← List.append_assoc (altBonds ((k - 1 - p) / 2)), altBonds_append,
        show (k - 1 - p) / 2 + (1 + (n - k) / 2) = (n + 1 - p) / 2 by omega, show (n - k) % 2 = (n + 1 - p) % 2 by omega]

theorem layout_bonds_facts (p k n : ℕ) (hp : p ≤ 1) (hk : k ≤ n) : ((layout p k n).flatMap kindBonds).length = n + 1 ∧
    ∀ i, ((layout p k n).flatMap kindBonds).getD i false = decide (i % 2 = p ∧ i + 1 ≤ n) := by
  rw [layout_bonds p k n hp hk]
  have h01 : p = 0 ∨ p = 1 := by omega
  have hend : ∀ c i, (altBonds c ++ (if (n + 1 - p) % 2 = 1 then [false] else [])).getD i false = decide (i < 2 * c ∧ i % 2 = 0) := by
    intro c i
    rw [← altBonds_getD]
    by_cases hi : i < (altBonds c).length
    · rw [List.getD_append _ _ _ _ hi]
    · rw [List.getD_append_right _ _ _ _ (by omega), List.getD_eq_default (altBonds c) _ (by omega)]
      split
      · cases i - (altBonds c).length <;> simp
      · simp
  constructor
  · rw [List.length_append, List.length_append, altBonds_length]
    rcases h01 with rfl | rfl
    · by_cases hx : (n + 1 - 0) % 2 = 1
      · rw [if_pos hx, if_neg (by decide)]
        simp only [List.length_nil, List.length_singleton]
        omega
      · rw [if_neg hx, if_neg (by decide)]
        simp only [List.length_nil]
        omega
    · by_cases hx : (n + 1 - 1) % 2 = 1
      · rw [if_pos hx, if_pos rfl]
        simp only [List.length_singleton]
        omega
      · rw [if_neg hx, if_pos rfl]
        simp only [List.length_nil, List.length_singleton]
        omega
  · intro i
    rcases h01 with rfl | rfl
    · rw [if_neg (by decide), List.nil_append, hend]
      exact decide_eq_decide.2 (by omega)
    · rw [if_pos rfl, List.append_assoc]
      cases i with
      | zero => simp
      | succ i =>
        rw [List.singleton_append, List.getD_cons_succ, hend]
        exact decide_eq_decide.2 (by omega)

theorem chain_bonds (svd : Mat ℝ → SVD) (D F O p k n : ℕ) (hp : p ≤ 1) (hk : k ≤ n) (ms : List (Module ℝ)) (h : MergedShape D F O p k n ms) :
    (ms.flatMap (bondPlan svd)).length = n + 1 ∧
      ∀ i, ((ms.flatMap (bondPlan svd)).getD i none).isSome = decide (i % 2 = p ∧ i + 1 ≤ n) := by
  have hmap : (ms.flatMap (bondPlan svd)).map Option.isSome = (layout p k n).flatMap kindBonds := by
    unfold MergedShape at h
    generalize layout p k n = ks at h
    induction h with
    | nil => rfl
    | cons h1 _ ih => rw [List.flatMap_cons, List.flatMap_cons, List.map_append, ih, plan_bonds svd D F O _ _ h1]
  obtain ⟨f1, f2⟩ := layout_bonds_facts p k n hp hk
  rw [← hmap] at f1 f2
  refine ⟨by simpa using f1, ?_⟩
  intro i
  rw [← f2 i]
  exact (List.getD_map _ none Option.isSome).symm

end TorchMPS
