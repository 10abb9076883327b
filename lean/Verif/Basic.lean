/-!
# Shared vocabulary of the model

Python exceptions are ordinary values of the result type.
-/

namespace Quickly

/-- The Python exception classes that the modelled code can raise. -/
inductive PyErr
  | valueError
  | keyError
  | indexError
  | attributeError
  | typeError
  | zeroDivisionError
  | nameError
  | runtimeError
  deriving DecidableEq, Repr

/-- A Python computation: a value, or a raised exception. -/
abbrev Py (α : Type) := Except PyErr α

instance {α : Type} [DecidableEq α] : DecidableEq (Py α) := fun a b =>
  match a, b with
  | .ok x, .ok y => if h : x = y then isTrue (by rw [h]) else isFalse (fun e => h (by injection e))
  | .error x, .error y => if h : x = y then isTrue (by rw [h]) else isFalse (fun e => h (by injection e))
  | .ok _, .error _ => isFalse (fun e => by cases e)
  | .error _, .ok _ => isFalse (fun e => by cases e)

end Quickly
