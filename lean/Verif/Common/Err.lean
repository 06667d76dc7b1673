/-!
# Failures as values

Python exceptions that the modelled functions raise.  The message is not part of the model,
only the class of the exception and, where one function raises the same class for different
reasons, a tag for the reason.
-/

namespace Glass

universe u

/-- Exceptions raised by the modelled code. -/
inductive Err where
  /-- `ValueError` with a tag naming the reason. -/
  | value (reason : String)
  /-- `TypeError` with a tag naming the reason. -/
  | type (reason : String)
  /-- `NotImplementedError`. -/
  | notImplemented
  /-- `IndexError`. -/
  | index
  /-- `KeyError`. -/
  | key
  /-- `AssertionError`. -/
  | assertion
  /-- `ZeroDivisionError`. -/
  | zeroDivision
  /-- `AttributeError`. -/
  | attribute
  deriving DecidableEq, Repr

/-- `s[i]` on a Python sequence with a non-negative index: `IndexError` when out of range. -/
def pyGet {α : Type u} (s : List α) (i : Nat) : Except Err α :=
  match s[i]? with
  | some a => .ok a
  | none => .error .index

end Glass
