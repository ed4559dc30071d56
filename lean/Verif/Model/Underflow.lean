import Verif.Model.Overflow
import Mathlib.Algebra.Order.Group.Abs

/-!
# Underflow

A store (`st` in `Model/Overflow.lean`) that replaces small numbers by zero.
-/

/-- storing a value in a type whose smallest positive number is `ε`; numbers below are replaced by zero. Simplification: IEEE 754 rounds to the nearest of 0 and `ε`; here everything below `ε` becomes 0, so `ε` stands for
the size below which numbers vanish (half of the smallest positive number, or the smallest normal number if subnormal numbers are flushed). -/
def Fl.flush {α : Type} [Field α] [LinearOrder α] (ε : α) : Fl α → Fl α
  | .fin x => if |x| < ε then .fin 0 else .fin x
  | x => x
