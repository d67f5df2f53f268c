import Verif.Model.Format

/-! # Specification of printing: the text of a value, and what the formatting state of the stream does to it -/

namespace Pyincpp
namespace Val

mutual

/-- The text of a value. -/
def shown : Val → List UInt8
  | .text t => t
  | .int n => numeral n
  | .double x => x.text
  | .big z => numeral z
  | .frac x => if x.den = 1 then numeral x.num else numeral x.num ++ 47 :: numeral x.den
  | .str s => 34 :: (s ++ [34])
  | .complex x => 40 :: (x.re.text ++ (if Dbl.lt x.im (.fin 0) then 45 else 43) :: ((Dbl.abs x.im).text ++ [106, 41]))
  | .pair k v => shown k ++ 58 :: 32 :: shown v
  | .range o c l => o :: (List.intercalate [44, 32] (showns l) ++ [c])
  | .tuple l => 40 :: (List.intercalate [44, 32] (showns l) ++ (if l.length = 1 then [44, 41] else [41]))

def showns : List Val → List (List UInt8)
  | [] => []
  | v :: l => shown v :: showns l

end

/-- The beginning of the text that a field width applies to. -/
def lead : Val → List UInt8
  | .text t => t
  | .int n => numeral n
  | .double x => x.text
  | .big z => (numeral z).take 1
  | .frac x => numeral x.num
  | .str _ => [34]
  | .complex _ => [40]
  | .pair k _ => lead k
  | .range o _ _ => [o]
  | .tuple _ => [40]

/-- Is this beginning written as a number? -/
def numeric : Val → Bool
  | .int _ | .double _ | .frac _ => true
  | .big z => decide (0 < z)
  | .pair k _ => numeric k
  | _ => false

mutual

/-- Is there an `Int` of two digits or more in the value? -/
def long : Val → Bool
  | .big z => decide (10 ≤ z.natAbs)
  | .pair k v => long k || long v
  | .range _ _ l => longs l
  | .tuple l => longs l
  | _ => false

def longs : List Val → Bool
  | [] => false
  | v :: l => long v || longs l

end

/-- A text filled up to a width. -/
def padded (w : ℕ) (fill : UInt8) (a : Adjust) (number : Bool) (t : List UInt8) : List UInt8 :=
  let f := List.replicate (w - t.length) fill
  match a with
  | .left => t ++ f
  | .right => f ++ t
  | .internal => if number ∧ t.head? = some 45 then 45 :: (f ++ t.tail) else f ++ t

/-- What printing a value makes of a stream whose flags are the default ones, whatever its width, fill character and adjustment. -/
def printed (v : Val) (os : OStream) : OStream :=
  { os with
    out := os.out ++ (padded os.width os.fill os.adjust v.numeric v.lead ++ v.shown.drop v.lead.length)
    width := 0
    fill := if v.long then 48 else os.fill }

end Val

/-- Decimal, neither `showpos` nor `uppercase`. -/
structure OStream.Default (os : OStream) : Prop where
  dec : os.base = .dec
  pos : os.showpos = false
  upper : os.uppercase = false

end Pyincpp
