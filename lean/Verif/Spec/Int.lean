import Verif.Model.Int
import Mathlib.Data.Nat.Digits.Defs

/-! # Specification of `Int`: an `Int` object *is* a mathematical integer

`enc z` is the one and only object that may represent the integer `z`: the sign of `z` and the decimal digits
of `|z|`, least significant first, without leading zeros. All properties of `Int` are stated on `enc`. -/

namespace Pyincpp

/-- The canonical object for the integer `z`. -/
def enc (z : ℤ) : BInt := { sign := z.sign, chunks := (Nat.digits 10 z.natAbs).map (fun d : ℕ => (d : ℤ)) }

/-- The canonical decimal numeral of a natural number, as bytes, most significant digit first, `"0"` for 0. -/
def natNumeral (n : ℕ) : List UInt8 :=
  if n = 0 then [48] else ((Nat.digits 10 n).reverse.map (fun d => (48 + d).toUInt8))

/-- The canonical decimal numeral of an integer. -/
def numeral (z : ℤ) : List UInt8 := if z < 0 then 45 :: natNumeral z.natAbs else natNumeral z.natAbs

/-- `c` is an ASCII digit. -/
def IsDigit (c : UInt8) : Prop := 48 ≤ c.toNat ∧ c.toNat ≤ 57

instance (c : UInt8) : Decidable (IsDigit c) := by unfold IsDigit; infer_instance

/-- `c` is white space: space, tab, line feed, vertical tab, form feed or carriage return. -/
def IsWhite (c : UInt8) : Prop := c = 32 ∨ c = 9 ∨ c = 10 ∨ c = 11 ∨ c = 12 ∨ c = 13

instance (c : UInt8) : Decidable (IsWhite c) := by unfold IsWhite; infer_instance

/-- The input is over, or a byte up to 0x20 follows. -/
def Stops (rest : List UInt8) : Prop := ∀ c r, rest = c :: r → c.toNat ≤ 0x20

/-- The number that a sequence of ASCII digits denotes (most significant first). -/
def denoteNat (ds : List UInt8) : ℕ := ds.foldl (fun n c => 10 * n + (c.toNat - 48)) 0

/-- `Literal t z`: the text `t` is `[+-]?[0-9]+` and denotes `z`. -/
inductive Literal : List UInt8 → ℤ → Prop
  | plain (ds : List UInt8) : ds ≠ [] → (∀ c ∈ ds, IsDigit c) → Literal ds (denoteNat ds)
  | plus (ds : List UInt8) : ds ≠ [] → (∀ c ∈ ds, IsDigit c) → Literal (43 :: ds) (denoteNat ds)
  | minus (ds : List UInt8) : ds ≠ [] → (∀ c ∈ ds, IsDigit c) → Literal (45 :: ds) (-(denoteNat ds : ℤ))

end Pyincpp
