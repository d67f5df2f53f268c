import Verif.Model.ComplexStream
import Verif.Model.DoubleText
import Verif.Model.Fraction
import Verif.Model.Str
import Mathlib.Data.NNRat.Defs

/-! # `double` with two zeros

`Dbl` (Model/Double.lean) has one zero. Here a finite number is a sign and a magnitude, as in IEEE 754, so that there are two zeros, and the operations
follow its section 6.3: the sign of a product or quotient is the exclusive or of the signs; a sum of zeros is negative only if both
are, and a sum that cancels is the positive zero. The classes that hold or make `double`s are taken over as they are. -/

namespace Pyincpp

inductive SDbl
  | nan
  | inf (neg : Bool)
  | fin (neg : Bool) (mag : ℚ≥0)
  deriving DecidableEq

namespace SDbl

/-- The number of a sign and a magnitude. -/
def value (s : Bool) (q : ℚ≥0) : ℚ := if s then -q else q

/-- Rounding of an exact result; `s` is the sign it has if it is zero. -/
def round (s : Bool) (v : ℚ) : SDbl :=
  match Dbl.ofRat v with
  | .nan => nan
  | .inf t => inf t
  | .fin x => fin (if v = 0 then s else decide (v < 0)) (Rat.nnabs x)

/-- `double(n)`: there is no negative zero among the `int`s. -/
def ofInt (n : ℤ) : SDbl := round false n

/-- `-x`. -/
def neg : SDbl → SDbl
  | nan => nan
  | inf s => inf !s
  | fin s q => fin (!s) q

/-- `std::abs(double)`. -/
def abs : SDbl → SDbl
  | nan => nan
  | inf _ => inf false
  | fin _ q => fin false q

/-- `x + y`. -/
def add : SDbl → SDbl → SDbl
  | nan, _ | _, nan => nan
  | inf s, inf t => if s = t then inf s else nan
  | inf s, fin _ _ => inf s
  | fin _ _, inf t => inf t
  | fin s p, fin t q => round (s && t) (value s p + value t q)

/-- `x - y`. -/
def sub (x y : SDbl) : SDbl := add x (neg y)

/-- `x * y`. -/
def mul : SDbl → SDbl → SDbl
  | nan, _ | _, nan => nan
  | inf s, inf t => inf (s != t)
  | inf s, fin t q => if q = 0 then nan else inf (s != t)
  | fin s p, inf t => if p = 0 then nan else inf (s != t)
  | fin s p, fin t q => round (s != t) (value s p * value t q)

/-- `x / y`. -/
def div : SDbl → SDbl → SDbl
  | nan, _ | _, nan => nan
  | inf _, inf _ => nan
  | inf s, fin t _ => inf (s != t)
  | fin s _, inf t => fin (s != t) 0
  | fin s p, fin t q => if q = 0 then (if p = 0 then nan else inf (s != t)) else round (s != t) (value s p / value t q)

/-- `x < y`: the zeros are equal. -/
def lt : SDbl → SDbl → Bool
  | nan, _ | _, nan => false
  | inf s, inf t => s && !t
  | inf s, fin _ _ => s
  | fin _ _, inf t => !t
  | fin s p, fin t q => decide (value s p < value t q)

/-- `os << x`: as Model/DoubleText.lean, and `-0` for the negative zero. -/
def text : SDbl → List UInt8
  | nan => Dbl.text .nan
  | inf s => Dbl.text (.inf s)
  | fin s q => (if s then [45] else []) ++ Dbl.text (.fin q)

end SDbl

/-- IEEE 754 arithmetic with two zeros. -/
def Arith.signed : Arith SDbl where
  zero := .fin false 0
  one := .fin false 1
  add := SDbl.add
  sub := SDbl.sub
  mul := SDbl.mul
  div := SDbl.div
  neg := SDbl.neg
  abs := SDbl.abs
  lt a b := SDbl.lt a b = true
  ltDec _ _ := inferInstance
  eps := .fin false (1 / 2 ^ 52)

/-- The arithmetic of `to_decimal` (str.hpp:276-388); `pow` is `std::pow(10, ·)`. -/
def signedOps (pow : SDbl → SDbl) : Str.DoubleOps SDbl where
  ofInt := SDbl.ofInt
  mul := SDbl.mul
  div := SDbl.div
  add := SDbl.add
  pow10 := pow
  inf := .inf false
  negInf := .inf true
  nan := .nan

/-- fraction.hpp:104-107 `operator double`. -/
def Frac.toSigned (x : Frac) : SDbl := SDbl.div (SDbl.ofInt x.num) (SDbl.ofInt x.den)

/-- `is >> x` for a `double` (see `IStream.readDouble`): a text with a minus that denotes zero, or rounds to it, gives the negative zero. -/
def IStream.readSigned (s : IStream) : Option SDbl × IStream :=
  match s.sentry with
  | (false, s) => (none, s)
  | (true, s) =>
    let p := scanFloat s.buf
    let s' : IStream := { s with buf := p.2, eof := p.2.isEmpty }
    match p.1.value with
    | none => (some (.fin false 0), { s' with fail := true })
    | some q =>
      match SDbl.round p.1.neg q with
      | .fin t x => (some (.fin t x), s')
      | _ => (some (.fin (decide (q < 0)) (Rat.nnabs dblMax)), { s' with fail := true })

namespace Cx

/-- complex.hpp:211-214 `operator<<` in the default format. -/
def printSigned (x : Cx SDbl) : List UInt8 :=
  [40] ++ x.re.text ++ [if SDbl.lt x.im (.fin false 0) then 45 else 43] ++ x.im.abs.text ++ [106, 41]

/-- complex.hpp:254-262 the imaginary part. -/
def parseImagSigned (re : Option SDbl) (s : IStream) : Res (Cx SDbl) × IStream :=
  let i := s.readSigned
  let c := i.2.readChar
  match c.1 with
  | none => (.ub .uninit, c.2)
  | some ch =>
    if ch ≠ 106 then (.throw msgLiteral, c.2)
    else
      let p := c.2.peek
      if 0x20 < p.1 then (.throw msgLiteral, p.2)
      else match re, i.1 with
        | some r, some i => (.ok ⟨r, i⟩, p.2)
        | _, _ => (.ub .uninit, p.2)

/-- complex.hpp:231-262 `operator>>` after the blanks: the new number and the stream. -/
def parseSigned (s : IStream) : Res (Cx SDbl) × IStream :=
  let p := s.peek
  if startsNumber p.1 = false then (.throw msgLiteral, p.2.peek.2.peek.2.peek.2)
  else
    let n := p.2.readSigned
    let q := n.2.peek
    if q.1 ≤ 0x20 then
      match n.1 with
      | some r => (.ok ⟨r, .fin false 0⟩, q.2)
      | none => (.ub .uninit, q.2)
    else if q.1 = 106 then
      let r := q.2.get.2.peek
      if r.1 ≤ 0x20 then
        match n.1 with
        | some i => (.ok ⟨.fin false 0, i⟩, r.2)
        | none => (.ub .uninit, r.2)
      else (.throw msgLiteral, r.2)
    else parseImagSigned n.1 q.2

/-- complex.hpp:225-263 `operator>>`; `k` bounds the loop. -/
def inputSigned (k : Nat) : Meth (Cx SDbl × IStream) Unit := do
  let (x, s) ← Meth.get
  let s ← Meth.lift (s.skipBlanks k)
  let p := parseSigned s
  Meth.set (x, p.2)
  let f ← Meth.lift p.1
  Meth.set (f, p.2)

/-! ## Programs with complex variables -/

/-- Statements of a program whose variables are numbered. -/
inductive Stmt (F : Type)
  /-- `x_i = Complex(re, im)` -/
  | lit (i : Nat) (x : Cx F)
  /-- `x_i = x_j op x_k` -/
  | bin (o : Op) (i j k : Nat)
  /-- `x_i op= x_j` -/
  | assign (o : Op) (i j : Nat)
  /-- `x_i = -x_j` -/
  | neg (i j : Nat)
  /-- `x_i = x_j.conjugate()` -/
  | conj (i j : Nat)
  /-- `x_i == x_j` -/
  | test (i j : Nat)
  /-- `std::cout << x_i` -/
  | print (i : Nat)
  deriving DecidableEq

/-- What can be seen of a statement: the result of a comparison, an exception, a text. -/
inductive Seen | nothing | bool (b : Bool) | error (m : String) | text (t : List UInt8)
  deriving DecidableEq, Repr

def store {F : Type} (m : Nat → Cx F) (i : Nat) : Res (Cx F) → Seen × (Nat → Cx F)
  | .ok x => (.nothing, fun j => if j = i then x else m j)
  | .throw e => (.error e, m)
  | _ => (.nothing, m)

/-- One statement, exceptions caught; `fmt` is `operator<<`. -/
def Stmt.run {F : Type} (A : Arith F) (fmt : Cx F → List UInt8) (m : Nat → Cx F) : Stmt F → Seen × (Nat → Cx F)
  | .lit i x => store m i (.ok x)
  | .bin o i j k => store m i (o.run A (m j) (m k))
  | .assign o i j =>
    match assignM A o (if i = j then none else some (m j)) (m i) with
    | (.ok _, x) => store m i (.ok x)
    | (.throw e, x) => (.error e, (store m i (.ok x)).2)
    | (_, x) => store m i (.ok x)
  | .neg i j => store m i (.ok (Cx.neg A (m j)))
  | .conj i j => store m i (.ok (Cx.conjugate A (m j)))
  | .test i j => (.bool (Cx.eq A (m i) (m j)), m)
  | .print i => (.text (fmt (m i)), m)

/-- A program: everything that is seen, and the variables at the end. -/
def Stmt.runAll {F : Type} (A : Arith F) (fmt : Cx F → List UInt8) : List (Stmt F) → (Nat → Cx F) → List Seen × (Nat → Cx F)
  | [], m => ([], m)
  | c :: cs, m =>
    let r := c.run A fmt m
    let rs := Stmt.runAll A fmt cs r.2
    (r.1 :: rs.1, rs.2)

end Cx
end Pyincpp
