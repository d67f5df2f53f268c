import Verif.Spec.Int
import Mathlib.Data.Rat.Floor
import Mathlib.Algebra.Order.Field.Rat

/-! # What Python does: numbers

From the Python language reference and library reference, version 3.12. Texts are ASCII. -/

namespace Pyincpp
namespace Py

/-- `x // y` of integers and of fractions, for `y` not zero. -/
def floorDiv (x y : ℚ) : ℤ := ⌊x / y⌋

/-- `x % y` of integers and of fractions: `x == (x // y) * y + x % y`. -/
def mod (x y : ℚ) : ℚ := x - floorDiv x y * y

/-- White space at the ends of the argument of `int`, as far as it is ASCII. -/
def IsSpace (c : UInt8) : Prop := 9 ≤ c.toNat ∧ c.toNat ≤ 13 ∨ 28 ≤ c.toNat ∧ c.toNat ≤ 32

/-- `digit ("_"? digit)*` and its value. -/
inductive Digits : List UInt8 → ℕ → Prop
  | one (c : UInt8) : IsDigit c → Digits [c] (c.toNat - 48)
  | next (ds : List UInt8) (n : ℕ) (c : UInt8) : Digits ds n → IsDigit c → Digits (ds ++ [c]) (10 * n + (c.toNat - 48))
  | under (ds : List UInt8) (n : ℕ) (c : UInt8) : Digits ds n → IsDigit c → Digits (ds ++ [95, c]) (10 * n + (c.toNat - 48))

/-- `int(t) == z`: a sign and digits with single underscores between, white space around. -/
inductive IntText : List UInt8 → ℤ → Prop
  | plain (ws ds ws' : List UInt8) (n : ℕ) : (∀ c ∈ ws, IsSpace c) → (∀ c ∈ ws', IsSpace c) → Digits ds n → IntText (ws ++ ds ++ ws') n
  | plus (ws ds ws' : List UInt8) (n : ℕ) : (∀ c ∈ ws, IsSpace c) → (∀ c ∈ ws', IsSpace c) → Digits ds n → IntText (ws ++ 43 :: ds ++ ws') n
  | minus (ws ds ws' : List UInt8) (n : ℕ) : (∀ c ∈ ws, IsSpace c) → (∀ c ∈ ws', IsSpace c) → Digits ds n → IntText (ws ++ 45 :: ds ++ ws') (-n)

end Py
end Pyincpp
