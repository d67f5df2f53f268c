import Verif.Spec.Int
import Verif.Spec.Seq
import Mathlib.Algebra.Order.Group.Abs
import Mathlib.Algebra.Order.Group.Int

/-! # Specification: how far the `int` counters of `Int` reach

Everything is said about the integers themselves. `maxLen` is `INT_MAX`, the number of positions an `int` counts
up to; the positions 0 to `maxLen` are those an `int` can index. -/

namespace Pyincpp

/-- At most `INT_MAX` digits. -/
def Short (z : ℤ) : Prop := |z| < 10 ^ maxLen

/-- `b` has at most `INT_MAX` digits, and adding it to `a` does not carry out of the positions an `int` indexes. -/
def CarryFits (a b : ℤ) : Prop := b < 10 ^ maxLen ∧ a % 10 ^ (maxLen + 1) + b < 10 ^ (maxLen + 1)

/-- `b` has at most `INT_MAX` digits, and taking it from `a` does not borrow from beyond the positions an `int` indexes. -/
def BorrowFits (a b : ℤ) : Prop := b < 10 ^ maxLen ∧ b ≤ a % 10 ^ (maxLen + 1)

/-- When `x += y` can count its way through the digits: equal signs add the absolute values, opposite signs take
the smaller one from the greater one. -/
def AddFits (x y : ℤ) : Prop :=
  x = 0 ∨ y = 0 ∨ (x.sign = y.sign ∧ CarryFits |x| |y|) ∨ (x.sign ≠ y.sign ∧ BorrowFits (max |x| |y|) (min |x| |y|))

/-- The number of decimal digits of `|z|`, 0 for 0. -/
def numDigits (z : ℤ) : ℕ := (Nat.digits 10 z.natAbs).length

/-- How many digits, from the lowest on, a loop `for (int i = size - 1; i >= 0; --i)` visits: `size - 1` is reduced modulo 2^32, and
from 2^31 on it is a negative `int`. -/
def lowDigits (d : ℕ) : ℕ := if d = 0 ∨ 2147483648 ≤ (d - 1) % 4294967296 then 0 else (d - 1) % 4294967296 + 1

/-- What `pow` keeps of a product: the product without a modulus (`m = 0`), otherwise what `%=` makes of it (C08). -/
def powKeep (m x : ℤ) : ℤ := if m = 0 ∨ numDigits x < numDigits m then x else |x| % |m|

/-- When a product of `pow`, with the `%=` that follows, can count its way through the digits. -/
def MulFits (m x y : ℤ) : Prop :=
  if m = 0 then x = 0 ∨ y = 0 ∨ numDigits x + numDigits y ≤ maxLen + 1 else Short (x * y) ∧ Short m

/-- When every step of the repeated squaring can count its way through the digits: `num` is what is squared, `r` the result so far,
`n` what is left of the exponent. -/
def PowFits (m num r : ℤ) (n : ℕ) : Prop :=
  if h : n = 0 then True
  else Short (n : ℤ) ∧ (n % 2 = 1 → MulFits m r num) ∧ MulFits m num num ∧
    PowFits m (powKeep m (num * num)) (if n % 2 = 1 then powKeep m (r * num) else r) (n / 2)
termination_by n
decreasing_by omega

end Pyincpp
