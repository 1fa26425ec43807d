import Verif.Lemmas.Contractables
/-
The operator `*` on contractables.
-/
namespace TorchMPS
open Spec
variable {K : Type}

theorem gmul_ok [CommSemiring K] (x y : Contractable K) (hx : Labelled x) (hy : Labelled y)
    (hr : 'r' ∈ x.bondStr) (hl : 'l' ∈ y.bondStr) (hb : axis x 'b' = axis y 'b') (hbond : axis x 'r' = axis y 'l')
    (hlet : EnoughLetters x.bondStr y.bondStr) :
    ∃ t out ρ, IsProduct x y t out ρ ∧
      (y.cls ≠ .scalar → y.cls ≠ .matRegion → ∀ g, gmul x y false g = (.ok (some ⟨classFor out, t, out⟩), some (axis x 'b'))) ∧
      (x.cls ≠ .scalar → x.cls ≠ .matRegion → ∀ g, gmul y x true g = (.ok (some ⟨classFor out, t, out⟩), some (axis x 'b'))) := by
  obtain ⟨t1, t2, out, t, ρ, h1, h2, h3⟩ := mul_tensor x y hx hy hr hl hb hbond hlet
  have hw := fun g => wrapOut_ok t out (by rw [h3.out_eq]; rfl) h3.order g
  refine ⟨t, out, ρ, h3, ?_, ?_⟩
  · intro c1 c2 g
    unfold gmul
    rw [if_neg (by simp [c1, c2])]
    simp only [Bool.false_eq_true, if_false]
    rw [checkBonds_ok _ _ hx.batchFirst hx.distinct hx.lower hr, checkBonds_ok _ _ hy.batchFirst hy.distinct hy.lower hl,
      h1]
    rw [CM.bind_ok (CM.lift_apply _ _), CM.bind_ok (CM.lift_apply _ _), CM.bind_ok (CM.lift_apply _ _)]
    simp only [h2]
    rw [CM.bind_ok (CM.lift_apply _ _), CM.bind_ok (hw g), h3.batch]
    rfl
  · intro c1 c2 g
    unfold gmul
    rw [if_neg (by simp [c1, c2])]
    simp only [if_true]
    rw [checkBonds_ok _ _ hx.batchFirst hx.distinct hx.lower hr, checkBonds_ok _ _ hy.batchFirst hy.distinct hy.lower hl,
      h1]
    rw [CM.bind_ok (CM.lift_apply _ _), CM.bind_ok (CM.lift_apply _ _), CM.bind_ok (CM.lift_apply _ _)]
    simp only [h2]
    rw [CM.bind_ok (CM.lift_apply _ _), CM.bind_ok (hw g), h3.batch]
    rfl

theorem orElse_some {x : CM (Option (Contractable K))} {y : CM (Contractable K)} {g g' : Option ℕ} {c : Contractable K}
    (h : x g = (.ok (some c), g')) : orElse x y g = (.ok c, g') := by
  unfold orElse
  rw [CM.bind_ok h]; rfl

theorem orElse_none {x : CM (Option (Contractable K))} {y : CM (Contractable K)} {g g' : Option ℕ}
    (h : x g = (.ok none, g')) : orElse x y g = y g' := by
  unfold orElse
  rw [CM.bind_ok h]

theorem orElse_err {x : CM (Option (Contractable K))} {y : CM (Contractable K)} {g g' : Option ℕ} {e : Err}
    (h : x g = (.error e, g')) : orElse x y g = (.error e, g') := by
  unfold orElse
  rw [CM.bind_err h]

/-- What `*` makes of the result of the method that is called last. -/
def finishStar : Except Err (Option (Contractable K)) × Option ℕ → Except Err (Contractable K) × Option ℕ
  | (.ok (some c), g') => (.ok c, g')
  | (.ok none, g') => (.error .type, g')
  | (.error e, g') => (.error e, g')

/-- For multipliable classes, Python's dispatch ends in the general contraction, called from one side or
the other. -/
theorem star_dispatch [CommSemiring K] (x y : Contractable K) (hcls : CanMultiply x.cls y.cls) (g : Option ℕ)
    (r : Except Err (Option (Contractable K)) × Option ℕ)
    (h1 : y.cls ≠ .scalar → y.cls ≠ .matRegion → gmul x y false g = r)
    (h2 : x.cls ≠ .scalar → x.cls ≠ .matRegion → gmul y x true g = r) (hr : r.1 ≠ .ok none) :
    star x y g = finishStar r := by
  obtain ⟨r1, r2⟩ := r
  have key : ∀ (m : CM (Option (Contractable K))) (k : CM (Contractable K)), m g = (r1, r2) →
      orElse m k g = finishStar (r1, r2) := by
    intro m k hm
    cases r1 with
    | error e => exact orElse_err hm
    | ok o =>
      cases o with
      | none => exact absurd rfl hr
      | some c => exact orElse_some hm
  have hnone : ∀ (k : CM (Contractable K)), x.cls = .edgeVec → y.cls ≠ .edgeVec → orElse (mulMethod x y) k g = k g := by
    intro k hxc hyc
    refine orElse_none ?_
    unfold mulMethod
    rw [hxc]
    simp only [edgeMul]
    rw [if_pos hyc]
    rfl
  unfold star
  cases hxc : x.cls <;> cases hyc : y.cls <;> rw [hxc, hyc] at hcls <;> simp only [CanMultiply] at hcls <;>
    first
      | (simp only [reduceCtorEq, if_false, if_true, false_and, true_and, overridesRmul, Bool.false_eq_true]
         refine key _ _ ?_
         unfold mulMethod
         rw [hxc]
         first
          | exact h1 (by rw [hyc]; decide) (by rw [hyc]; decide)
          | (simp only [hyc]; exact h1 (by rw [hyc]; decide) (by rw [hyc]; decide)))
      | (simp only [reduceCtorEq, if_false, if_true, false_and, true_and, overridesRmul, Bool.false_eq_true]
         rw [hnone _ hxc (by rw [hyc]; decide)]
         refine key _ _ ?_
         unfold rmulMethod
         rw [hyc]
         simp only [hxc]
         exact h2 (by rw [hxc]; decide) (by rw [hxc]; decide))

end TorchMPS
