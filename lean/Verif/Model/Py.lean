import Mathlib.Data.Real.Basic

/-!
# Python outcomes

Exceptions are values.  `nonFinite` and `unmodelled` are not Python exceptions:
they mark the point where numpy would go on with an infinity or a NaN
(`nonFinite`), or where the behaviour is deliberately left out of the model
(`unmodelled`).
-/

namespace LRVB

/-- The Python exceptions raised by the modelled code, and two model markers. -/
inductive PyErr where
  | valueError
  | assertionError
  | typeError
  | indexError
  | keyError
  | attributeError
  | linAlgError
  | unboundLocal
  | zeroDivision
  | recursionError
  /-- a user supplied function raised -/
  | userError
  /-- model marker: numpy would return `inf` or `nan` here -/
  | nonFinite
  /-- model marker: behaviour not modelled -/
  | unmodelled
  deriving DecidableEq, Repr

/-- The outcome of a Python call that returns a value. -/
abbrev Py (α : Type*) := Except PyErr α

end LRVB
