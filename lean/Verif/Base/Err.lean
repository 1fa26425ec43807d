/-
Python exceptions as values.
-/
namespace TorchMPS

/-- The Python exception classes raised by the modelled code (one constructor per class). -/
inductive Err where
  | assertion        -- AssertionError
  | value            -- ValueError
  | runtime          -- RuntimeError (also raised by torch on size mismatches)
  | type             -- TypeError
  | index            -- IndexError
  | attribute        -- AttributeError
  | notImplemented   -- NotImplementedError
  | unboundLocal     -- UnboundLocalError
  | key              -- KeyError
  | zeroDivision     -- ZeroDivisionError
  | nan              -- not an exception: the code goes on with NaN entries, the model stops here
  deriving DecidableEq, Repr

/-- `assert p` -/
def assert (p : Prop) [Decidable p] : Except Err Unit :=
  if p then .ok () else .error .assertion

@[simp] theorem assert_true (p : Prop) [Decidable p] (h : p) : assert p = .ok () := by
  simp [assert, h]

theorem assert_ok_iff (p : Prop) [Decidable p] (u : Unit) : assert p = .ok u ↔ p := by
  unfold assert; split <;> simp_all

theorem assert_false (p : Prop) [Decidable p] (h : ¬ p) : assert p = .error .assertion := by
  simp [assert, h]

end TorchMPS
