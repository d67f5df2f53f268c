import Verif.Model.Complex
import Verif.Model.Stream

/-! # sources/complex.hpp, streams

`is >> x` for a `double` is libstdc++'s `num_get` in the "C" locale: the longest prefix of the form
`[+-]? digits* (. digits*)? ([eE] [+-]? digits*)?` is extracted (`e` only after a digit) and converted as a whole. -/

namespace Pyincpp
namespace IStream

/-- The parts of a floating point text. -/
structure FloatText where
  neg : Bool
  int : List UInt8
  frac : List UInt8
  /-- the sign and the digits after `e` -/
  exp : Option (Bool × List UInt8)
  deriving DecidableEq, Repr

/-- An optional sign: is it a minus, and what follows. -/
def scanSign (l : List UInt8) : Bool × List UInt8 :=
  match l with
  | 45 :: t => (true, t)
  | 43 :: t => (false, t)
  | l => (false, l)

/-- A point and the digits after it. -/
def scanFrac (l : List UInt8) : List UInt8 × List UInt8 :=
  match l with
  | 46 :: t => (t.takeWhile isDigit, t.dropWhile isDigit)
  | l => ([], l)

/-- The exponent. -/
def scanExp (l : List UInt8) : Option (Bool × List UInt8) × List UInt8 :=
  match l with
  | c :: t =>
    if c = 101 ∨ c = 69 then
      let p := scanSign t
      (some (p.1, p.2.takeWhile isDigit), p.2.dropWhile isDigit)
    else (none, l)
  | [] => (none, [])

/-- The extracted text and what follows. -/
def scanFloat (l : List UInt8) : FloatText × List UInt8 :=
  let p := scanSign l
  let ds := p.2.takeWhile isDigit
  let q := scanFrac (p.2.dropWhile isDigit)
  if (ds ++ q.1).isEmpty then (⟨p.1, ds, q.1, none⟩, q.2)
  else
    let e := scanExp q.2
    (⟨p.1, ds, q.1, e.1⟩, e.2)

/-- The number denoted, before rounding; `none` if `strtod` does not consume the whole text. -/
def FloatText.value (t : FloatText) : Option ℚ :=
  if (t.int ++ t.frac).isEmpty then none
  else
    let m : ℚ := digitsValue (t.int ++ t.frac) / 10 ^ t.frac.length
    let m := if t.neg then -m else m
    match t.exp with
    | none => some m
    | some (n, ds) =>
      if ds.isEmpty then none
      else some (m * 10 ^ (if n then -(digitsValue ds : ℤ) else (digitsValue ds : ℤ)))

/-- `std::numeric_limits<double>::max()`. -/
def dblMax : ℚ := (2 ^ 53 - 1) * 2 ^ 971

/-- `is >> x` for a `double`: an incomplete text gives 0, one out of range the largest number of that sign, and both set
`failbit`. `none`: `x` is left as it was. -/
def readDouble (s : IStream) : Option Dbl × IStream :=
  match s.sentry with
  | (false, s) => (none, s)
  | (true, s) =>
    let p := scanFloat s.buf
    let s' : IStream := { s with buf := p.2, eof := p.2.isEmpty }
    match p.1.value with
    | none => (some (.fin 0), { s' with fail := true })
    | some q =>
      match Dbl.ofRat q with
      | .fin x => (some (.fin x), s')
      | _ => (some (.fin (if q < 0 then -dblMax else dblMax)), { s' with fail := true })

end IStream

namespace Cx

def msgLiteral : String := "Error: Wrong complex literal."

/-- complex.hpp:211-214 `operator<<`; `fmt` is the text of a `double`. -/
def print (fmt : Dbl → List UInt8) (x : Cx Dbl) : List UInt8 :=
  [40] ++ fmt x.re ++ [if Dbl.lt x.im (.fin 0) then 45 else 43] ++ fmt (Dbl.abs x.im) ++ [106, 41]

/-- complex.hpp:231 may a number begin with this `peek()`? If not, there have been four calls of `peek` (see `Frac.startsNumber`). -/
def startsNumber (c : Int) : Bool := (48 ≤ c && c ≤ 57) || c == 45 || c == 43 || c == 46

/-- complex.hpp:254-262 the imaginary part. -/
def parseImag (re : Option Dbl) (s : IStream) : Res (Cx Dbl) × IStream :=
  let i := s.readDouble
  let c := i.2.readChar
  match c.1 with
  | none => (.ub .uninit, c.2)
  | some ch =>
    if ch ≠ 106 then (.throw msgLiteral, c.2)
    else
      let p := c.2.peek
      if 0x20 < p.1 then (.throw msgLiteral, p.2)
      else match re, i.1 with
        | some r, some i => (.ok ⟨r, i⟩, p.2)
        | _, _ => (.ub .uninit, p.2)

/-- complex.hpp:231-262 `operator>>` after the blanks: the new number and the stream. -/
def parse (s : IStream) : Res (Cx Dbl) × IStream :=
  let p := s.peek
  if startsNumber p.1 = false then (.throw msgLiteral, p.2.peek.2.peek.2.peek.2)
  else
    let n := p.2.readDouble
    let q := n.2.peek
    if q.1 ≤ 0x20 then
      match n.1 with
      | some r => (.ok ⟨r, .fin 0⟩, q.2)
      | none => (.ub .uninit, q.2)
    else if q.1 = 106 then
      let r := q.2.get.2.peek
      if r.1 ≤ 0x20 then
        match n.1 with
        | some i => (.ok ⟨.fin 0, i⟩, r.2)
        | none => (.ub .uninit, r.2)
      else (.throw msgLiteral, r.2)
    else parseImag n.1 q.2

/-- complex.hpp:225-263 `operator>>`: the number and the stream change; `k` bounds the loop. The number is assigned
last. -/
def input (k : Nat) : Meth (Cx Dbl × IStream) Unit := do
  let (x, s) ← Meth.get
  let s ← Meth.lift (s.skipBlanks k)
  let p := parse s
  Meth.set (x, p.2)
  let f ← Meth.lift p.1
  Meth.set (f, p.2)

end Cx
end Pyincpp
