import Verif.Model.Double

/-! # The text of a `double`

`os << x` for a `double` (complex.hpp:213 prints the two parts so): the conversion `%g` with the default precision of 6
significant digits, the shorter of fixed and exponential notation, without trailing zeros. The value is rounded to nearest, ties
to even, as glibc does. The one zero of the model is printed as `0`. -/

namespace Pyincpp
namespace Dbl

/-- The six digits of a number below 1000000. -/
def sixDigits (m : ℕ) : List UInt8 :=
  [100000, 10000, 1000, 100, 10, 1].map (fun p => (48 + m / p % 10).toUInt8)

/-- Without the zeros at the end. -/
def stripZeros (l : List UInt8) : List UInt8 := (l.reverse.dropWhile (· == 48)).reverse

/-- Digits before and behind the point, which is left out with nothing behind it. -/
def withPoint (ip fp : List UInt8) : List UInt8 := ip ++ (if fp = [] then [] else 46 :: fp)

/-- The six significant digits of a positive number and its decimal exponent, after rounding. -/
def significant (q : ℚ) : ℕ × ℤ :=
  let e := Int.log 10 q
  let m := (roundEven (q / (10 : ℚ) ^ (e - 5))).toNat
  if m = 1000000 then (100000, e + 1) else (m, e)

/-- The exponent: a sign and at least two digits. -/
def expText (e : ℤ) : List UInt8 :=
  (if e < 0 then 45 else 43) ::
    ((if e.natAbs < 10 then [48] else []) ++ (Nat.toDigits 10 e.natAbs).map (fun c => c.toNat.toUInt8))

/-- `%g` of a positive number. -/
def textPos (q : ℚ) : List UInt8 :=
  let (m, e) := significant q
  let ds := sixDigits m
  if -4 ≤ e ∧ e < 6 then
    if 0 ≤ e then withPoint (ds.take (e.toNat + 1)) (stripZeros (ds.drop (e.toNat + 1)))
    else withPoint [48] (stripZeros (List.replicate (-e - 1).toNat 48 ++ ds))
  else withPoint (ds.take 1) (stripZeros (ds.drop 1)) ++ 101 :: expText e

/-- `os << x` for a `double`. -/
def text : Dbl → List UInt8
  | nan => [110, 97, 110]
  | inf s => (if s then [45] else []) ++ [105, 110, 102]
  | fin q => if q = 0 then [48] else if q < 0 then 45 :: textPos (-q) else textPos q

end Dbl
end Pyincpp
