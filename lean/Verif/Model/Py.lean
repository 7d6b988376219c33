/-!
Python exceptions as values.

Functions of zcollection that may raise are modelled as functions into
`Except PyErr`; the constructor names are the names of the Python exception classes
that can be observed by a caller.
-/

namespace Verif

/-- The exception classes that the modelled code can raise.  Simplification: the
message of an exception is not modelled. -/
inductive PyErr where
  | valueError
  | typeError
  | keyError
  | indexError
  | nameError
  | assertionError
  | zeroDivisionError
  | runtimeError
  | attributeError
  | unsupportedOperation
  | osError
  deriving DecidableEq, Repr

/-- A Python computation that returns a value or raises. -/
abbrev Py (α : Type) := Except PyErr α

deriving instance DecidableEq for Except

end Verif
