/-!
Shared vocabulary: byte strings and Python exceptions as values.
-/
namespace Verif

/-- A Python `bytes` object. -/
abbrev Bytes := List UInt8

/-- The Python exceptions that the modelled code raises. -/
inductive PyErr where
  | assertion
  | key
  | index
  | value
  | type
  | struct
  | zeroDivision
  | unicode
  | runtime
  | attribute
  deriving DecidableEq, Repr

instance {ε α} [DecidableEq ε] [DecidableEq α] : DecidableEq (Except ε α)
  | .ok a, .ok b => if h : a = b then isTrue (by rw [h]) else isFalse (by simp [h])
  | .error a, .error b => if h : a = b then isTrue (by rw [h]) else isFalse (by simp [h])
  | .ok _, .error _ => isFalse (by simp)
  | .error _, .ok _ => isFalse (by simp)

end Verif
