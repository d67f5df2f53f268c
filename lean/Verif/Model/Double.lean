import Mathlib.Data.Int.Log
import Mathlib.Data.Rat.Floor

/-! # `double`

IEEE 754 binary64 with rounding to nearest, ties to even: what `+ - * /` and the comparisons give. The two zeros are
identified (the sign of a zero has no effect on any comparison, and no operation of the code divides by a negative zero);
Model/SignedZero.lean distinguishes them, and C95 says where it can be seen. -/

namespace Pyincpp

inductive Dbl
  | nan
  | inf (neg : Bool)
  | fin (q : ℚ)
  deriving DecidableEq, Repr

namespace Dbl

/-- Nearest integer, ties to even. -/
def roundEven (x : ℚ) : ℤ :=
  let f := ⌊x⌋
  let r := x - f
  if r < 1 / 2 then f else if 1 / 2 < r then f + 1 else if f % 2 = 0 then f else f + 1

/-- The weight of the last place of the 53-bit significand of a number of the size of `q`; fixed for the subnormal range. -/
def ulp (q : ℚ) : ℚ := 2 ^ (max (Int.log 2 |q|) (-1022) - 52)

/-- Rounding of a rational number, without the overflow to infinity. -/
def rnd (q : ℚ) : ℚ := roundEven (q / ulp q) * ulp q

/-- The `double` nearest to `q`. -/
def ofRat (q : ℚ) : Dbl := if 2 ^ 1024 ≤ |rnd q| then inf (decide (q < 0)) else fin (rnd q)

/-- `double(n)`. -/
def ofInt (n : ℤ) : Dbl := ofRat n

def neg : Dbl → Dbl
  | nan => nan
  | inf s => inf !s
  | fin q => fin (-q)

/-- `std::abs(double)`. -/
def abs : Dbl → Dbl
  | nan => nan
  | inf _ => inf false
  | fin q => fin |q|

def add : Dbl → Dbl → Dbl
  | nan, _ | _, nan => nan
  | inf s, inf t => if s = t then inf s else nan
  | inf s, fin _ => inf s
  | fin _, inf t => inf t
  | fin p, fin q => ofRat (p + q)

def sub (x y : Dbl) : Dbl := add x (neg y)

def mul : Dbl → Dbl → Dbl
  | nan, _ | _, nan => nan
  | inf s, inf t => inf (s != t)
  | inf s, fin q => if q = 0 then nan else inf (s != decide (q < 0))
  | fin p, inf t => if p = 0 then nan else inf (decide (p < 0) != t)
  | fin p, fin q => ofRat (p * q)

def div : Dbl → Dbl → Dbl
  | nan, _ | _, nan => nan
  | inf _, inf _ => nan
  | inf s, fin q => inf (s != decide (q < 0))
  | fin _, inf _ => fin 0
  | fin p, fin q => if q = 0 then (if p = 0 then nan else inf (decide (p < 0))) else ofRat (p / q)

/-- `x < y`. -/
def lt : Dbl → Dbl → Bool
  | nan, _ | _, nan => false
  | inf s, inf t => s && !t
  | inf s, fin _ => s
  | fin _, inf t => !t
  | fin p, fin q => decide (p < q)

/-- `x == y`. -/
def eq : Dbl → Dbl → Bool
  | nan, _ | _, nan => false
  | inf s, inf t => s == t
  | fin p, fin q => decide (p = q)
  | _, _ => false

/-- `std::numeric_limits<double>::epsilon()`. -/
def epsilon : Dbl := fin (1 / 2 ^ 52)

/-- The finite `double`s. -/
def IsFinite (q : ℚ) : Prop := rnd q = q ∧ |q| < 2 ^ 1024

end Dbl
end Pyincpp
