import Mathlib.Data.Int.Basic

/-!
# Python-side conventions shared by all models

* Python integers are `ℤ`; Python `a % n` and `a // n` with `n > 0` are Lean's `a % n` and `a / n` on `ℤ`
  (both are the floor versions for positive `n`).
* Python exceptions are values of type `Except Err`.
-/

namespace Escnn

/-- The exceptions raised by the modelled code. `assertion` is Python's `AssertionError`,
`emptyBasis` is escnn's `EmptyBasisException` (kernels/basis.py), the other constructors are the Python exceptions with the same name. -/
inductive Err where
  | assertion
  | value
  | index
  | key
  | type
  | runtime
  | attribute
  | notImplemented
  | emptyBasis
  deriving DecidableEq, Repr

/-- Python's `assert c`. -/
def pyAssert (c : Bool) : Except Err Unit := if c then .ok () else .error .assertion

@[simp] theorem pyAssert_true : pyAssert true = .ok () := rfl
@[simp] theorem pyAssert_false : pyAssert false = .error .assertion := rfl

end Escnn
