import Verif.Spec.Int
import Mathlib.Data.Rat.Defs
import Mathlib.Tactic.NormNum

/-! # Specification of floating point texts -/

namespace Pyincpp

/-- `CxMantissa t q`: `t` is `digits`, `digits.digits`, `digits.` or `.digits`, and denotes `q`. -/
inductive CxMantissa : List UInt8 → ℚ → Prop
  | int (ds : List UInt8) : ds ≠ [] → (∀ c ∈ ds, IsDigit c) → CxMantissa ds (denoteNat ds)
  | frac (ds fs : List UInt8) : ds ≠ [] ∨ fs ≠ [] → (∀ c ∈ ds, IsDigit c) → (∀ c ∈ fs, IsDigit c) →
      CxMantissa (ds ++ 46 :: fs) (denoteNat ds + denoteNat fs / 10 ^ fs.length)

/-- A mantissa, with or without exponent. -/
inductive CxUnsigned : List UInt8 → ℚ → Prop
  | plain (t : List UInt8) (q : ℚ) : CxMantissa t q → CxUnsigned t q
  | exp (t x : List UInt8) (q : ℚ) (z : ℤ) (e : UInt8) : CxMantissa t q → e = 101 ∨ e = 69 → Literal x z →
      CxUnsigned (t ++ e :: x) (q * 10 ^ z)

/-- `CxDecimal t q`: `t` is a decimal floating point text that denotes `q`. -/
inductive CxDecimal : List UInt8 → ℚ → Prop
  | plain (t : List UInt8) (q : ℚ) : CxUnsigned t q → CxDecimal t q
  | plus (t : List UInt8) (q : ℚ) : CxUnsigned t q → CxDecimal (43 :: t) q
  | minus (t : List UInt8) (q : ℚ) : CxUnsigned t q → CxDecimal (45 :: t) (-q)

/-- Nothing follows that could belong to a floating point text. -/
def Ends (r : List UInt8) : Prop := ∀ c t, r = c :: t → ¬ IsDigit c ∧ c ≠ 46 ∧ c ≠ 101 ∧ c ≠ 69

end Pyincpp
