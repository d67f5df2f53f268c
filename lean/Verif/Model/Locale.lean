import Verif.Model.Int
import Verif.Model.Fraction
import Verif.Model.ComplexStream
import Verif.Model.DoubleText

/-! # Printing on a stream with a locale

`os << int` and `os << double` ask the locale of the stream (`os.imbue`) how digits are grouped and what the decimal point is
[facet.num.put.virtuals]; characters and strings are written as they are. The other formatting flags are the default ones. -/

namespace Pyincpp

/-- `std::numpunct`: the decimal point, the separator, and the sizes of the groups from the right; the last size is repeated, and
0 or `CHAR_MAX` means that nothing further is grouped. -/
structure Locale where
  point : UInt8
  sep : UInt8
  grouping : List ℕ
  deriving DecidableEq, Repr

namespace Locale

/-- `std::locale::classic()`, in which all the texts of the other models are. -/
def classic : Locale := ⟨46, 44, []⟩

/-- Inserts the separators. -/
def group (sep : UInt8) (gs : List ℕ) (ds : List UInt8) : List UInt8 :=
  match gs with
  | [] => ds
  | g :: gs =>
    if 0 < g ∧ g < 127 ∧ g < ds.length then
      group sep (if gs = [] then [g] else gs) (ds.take (ds.length - g)) ++ sep :: ds.drop (ds.length - g)
    else ds
termination_by ds.length
decreasing_by
  rw [List.length_take]
  omega

variable (L : Locale)

/-- `os << n` for an `int`. -/
def intText (n : ℤ) : List UInt8 :=
  (if n < 0 then [45] else []) ++ Locale.group L.sep L.grouping ((Nat.toDigits 10 n.natAbs).map (fun c => c.toNat.toUInt8))

/-- `os << x` for a `double`, from the text in the classic locale: the digits in front are grouped, the point is replaced. -/
def doubleText (x : Dbl) : List UInt8 :=
  let t := x.text
  let s := if t.head? = some 45 then [45] else []
  let r := t.drop s.length
  s ++ Locale.group L.sep L.grouping (r.takeWhile (fun c => 48 ≤ c ∧ c ≤ 57)) ++
    (r.dropWhile (fun c => 48 ≤ c ∧ c ≤ 57)).map (fun c => if c = 46 then L.point else c)

end Locale

/-- int.hpp:854-874 `operator<<`: the first digit as an `int`, the others with `std::to_string`. -/
def BInt.printIn (L : Locale) (x : BInt) : Res (List UInt8) :=
  if x.sign = 0 then .ok [48]
  else match x.chunks.reverse with
    | [] => .ub .badDeref
    | c :: cs => .ok ((if x.sign = -1 then [45] else []) ++ L.intText c ++ (cs.map BInt.decimal).flatten)

/-- fraction.hpp:243-253 `operator<<`. -/
def Frac.printIn (L : Locale) (x : Frac) : List UInt8 :=
  if x.den = 1 then L.intText x.num else L.intText x.num ++ [47] ++ L.intText x.den

/-- complex.hpp:211-214 `operator<<`. -/
def Cx.printIn (L : Locale) (x : Cx Dbl) : List UInt8 := Cx.print L.doubleText x

end Pyincpp
