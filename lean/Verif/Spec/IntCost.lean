import Mathlib.Data.Nat.Digits.Defs

/-! # Specification: numbers of digits and digit sums -/

namespace Pyincpp

/-- The number of decimal digits of `|z|`; none for zero. -/
def digitCount (z : ℤ) : ℕ := (Nat.digits 10 z.natAbs).length

/-- The sum of the decimal digits of `|z|`. -/
def digitSum (z : ℤ) : ℕ := (Nat.digits 10 z.natAbs).sum

end Pyincpp
