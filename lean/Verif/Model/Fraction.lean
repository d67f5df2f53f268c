import Verif.Model.Stream
import Verif.Model.Utility
import Verif.Model.Double
import Mathlib.Algebra.Order.Field.Rat
import Mathlib.Algebra.Order.Group.Unbundled.Int

/-! # sources/fraction.hpp -/

namespace Pyincpp

/-- fraction.hpp:18-22 the two members; 109-119 `numerator()` and `denominator()` return them, 171-175 unary `+` returns the fraction itself. -/
structure Frac where
  num : Int
  den : Int
  deriving DecidableEq, Repr

namespace Frac

/-- `std::gcd(int, int)`: undefined if an absolute value does not fit in `int`. -/
def stdGcd (m n : Int) : Res Int :=
  if m = INT_MIN ∨ n = INT_MIN then .ub .overflow else .ok (Int.gcd m n)

/-- fraction.hpp:30-48 `Fraction(int numerator, int denominator)`. -/
def make (n d : Int) : Res Frac := do
  checkZero (d == 0)
  let (n, d) ← (if d < 0 then do
      let n ← ineg n
      let d ← ineg d
      pure (n, d)
    else pure (n, d) : Res (Int × Int))
  let g ← stdGcd n d
  let n ← idiv n g
  let d ← idiv d g
  pure ⟨n, d⟩

/-- The conversion of an `int` (fraction.hpp:31, default denominator). -/
def ofInt (n : Int) : Res Frac := make n 1

/-- fraction.hpp:67-78 `operator<=>`. -/
def cmp (x y : Frac) : Res Int := do
  let l ← imul x.num y.den
  let r ← imul x.den y.num
  isub l r

/-- `x < y`: `(x <=> y) < 0`. -/
def lss (x y : Frac) : Res Bool := do pure (decide ((← cmp x y) < 0))
/-- `x <= y`. -/
def le (x y : Frac) : Res Bool := do pure (decide ((← cmp x y) ≤ 0))
/-- `x > y`. -/
def gtr (x y : Frac) : Res Bool := do pure (decide ((← cmp x y) > 0))
/-- `x >= y`. -/
def ge (x y : Frac) : Res Bool := do pure (decide ((← cmp x y) ≥ 0))

/-- fraction.hpp:104-107 `operator double`. -/
def toDouble (x : Frac) : Dbl := Dbl.div (Dbl.ofInt x.num) (Dbl.ofInt x.den)

/-- `x == y`: the class has no `operator==`, and `<=>` does not provide one unless defaulted; both sides are converted
by `operator double`. -/
def eq (x y : Frac) : Bool := Dbl.eq x.toDouble y.toDouble

/-- `x == 0` and `x == T(0)`. -/
def isZero (x : Frac) : Bool := Dbl.eq x.toDouble (Dbl.ofInt 0)

/-- fraction.hpp:178-181 unary `-`. -/
def neg (x : Frac) : Res Frac := do make (← ineg x.num) x.den

/-- fraction.hpp:184-187 `abs`. -/
def abs (x : Frac) : Res Frac := if x.num ≥ 0 then .ok x else neg x

/-- fraction.hpp:190-193 `+`. -/
def add (x y : Frac) : Res Frac := do
  let a ← imul x.num y.den
  let b ← imul x.den y.num
  let s ← iadd a b
  let d ← imul x.den y.den
  make s d

/-- fraction.hpp:196-199 `-`. -/
def sub (x y : Frac) : Res Frac := do
  let a ← imul x.num y.den
  let b ← imul x.den y.num
  let s ← isub a b
  let d ← imul x.den y.den
  make s d

/-- fraction.hpp:202-205 `*`. -/
def mul (x y : Frac) : Res Frac := do
  let n ← imul x.num y.num
  let d ← imul x.den y.den
  make n d

/-- fraction.hpp:208-211 `/`. -/
def div (x y : Frac) : Res Frac := do
  let n ← imul x.num y.den
  let d ← imul x.den y.num
  make n d

/-- fraction.hpp:214-219 `%`. -/
def mod (x y : Frac) : Res Frac := do
  checkZero y.isZero
  let a ← imul x.num y.den
  let b ← imul y.num x.den
  let n ← imod a b
  let d ← imul x.den y.den
  make n d

/-- The binary operators. -/
inductive Op | add | sub | mul | div | mod
  deriving DecidableEq, Repr

def Op.run : Op → Frac → Frac → Res Frac
  | .add => Frac.add
  | .sub => Frac.sub
  | .mul => Frac.mul
  | .div => Frac.div
  | .mod => Frac.mod

/-- fraction.hpp:126-153 the compound assignments: `*this = *this op rhs`; `none` is the fraction itself. -/
def assignM (o : Op) (rhs : Option Frac) : Meth Frac Unit := do
  let x ← Meth.get
  let r ← Meth.lift (o.run x (rhs.getD x))
  Meth.set r

/-- fraction.hpp:156-159 `++`. -/
def incM : Meth Frac Unit := do
  let one ← Meth.lift (ofInt 1)
  assignM .add (some one)

/-- fraction.hpp:162-165 `--`. -/
def decM : Meth Frac Unit := do
  let one ← Meth.lift (ofInt 1)
  assignM .sub (some one)

/-- utility.hpp:110-115 the loop of `internal::gcd<Fraction>`. -/
def gcdLoop : Nat → Frac → Frac → Res Frac
  | 0, _, _ => .fuel
  | k + 1, a, b =>
    if b.isZero then .ok a
    else do
      let r ← mod a b
      gcdLoop k b r

/-- fraction.hpp:222-225 `gcd`, utility.hpp:103-118. -/
def gcd (a b : Frac) (k : Nat) : Res Frac := do
  let a ← abs a
  let b ← abs b
  gcdLoop k a b

/-- fraction.hpp:228-236 `lcm`. -/
def lcm (a b : Frac) (k : Nat) : Res Frac := do
  if a.isZero || b.isZero then ofInt 0
  else do
    let p ← mul a b
    let p ← abs p
    let g ← gcd a b k
    div p g

/-- fraction.hpp:305-308 `std::hash<Fraction>`; `h` is `std::hash<int>`. -/
def hash (h : Int → BitVec 64) (x : Frac) : BitVec 64 := h x.num ^^^ (h x.den <<< 1)

/-- The text `os << n` of an `int`. -/
def intText (n : Int) : List UInt8 := (if n < 0 then [45] else []) ++ (Nat.toDigits 10 n.natAbs).map (fun c => c.toNat.toUInt8)

/-- fraction.hpp:243-253 `operator<<`. -/
def print (x : Frac) : List UInt8 :=
  if x.den = 1 then intText x.num else intText x.num ++ [47] ++ intText x.den

def msgLiteral : String := "Error: Wrong fraction literal."

/-- `std::isdigit(is.peek()) || is.peek() == '-' || is.peek() == '+'`. If it is false, there have been three calls of `peek`; the second one sets
`failbit` at the end of the text. If it is true, there is a character, and the further calls change nothing. -/
def startsNumber (c : Int) : Bool := (48 ≤ c && c ≤ 57) || c == 45 || c == 43

/-- fraction.hpp:284-296 what follows the character `c` after the number `num`; `none` is a variable never set. -/
def parseDen (num : Option Int) (c : Option UInt8) (s : IStream) : Res Frac × IStream :=
  let p := s.peek
  if startsNumber p.1 = false then (.throw msgLiteral, p.2.peek.2.peek.2)
  else
    let d := p.2.readInt
    match c with
    | none => (.ub .uninit, d.2)
    | some c =>
      if c ≠ 47 then (.throw msgLiteral, d.2)
      else
        let q := d.2.peek
        if 0x20 < q.1 then (.throw msgLiteral, q.2)
        else match num, d.1 with
          | some n, some d => (make n d, q.2)
          | _, _ => (.ub .uninit, q.2)

/-- fraction.hpp:270-296 `operator>>` after the blanks: the new fraction and the stream. -/
def parse (s : IStream) : Res Frac × IStream :=
  let p := s.peek
  if startsNumber p.1 = false then (.throw msgLiteral, p.2.peek.2.peek.2)
  else
    let n := p.2.readInt
    let q := n.2.peek
    if q.1 ≤ 0x20 then
      match n.1 with
      | some n => (ofInt n, q.2)
      | none => (.ub .uninit, q.2)
    else
      let c := q.2.readChar
      parseDen n.1 c.1 c.2

/-- fraction.hpp:264-297 `operator>>`: the fraction and the stream change; `k` bounds the loop. The fraction is assigned
last. -/
def input (k : Nat) : Meth (Frac × IStream) Unit := do
  let (x, s) ← Meth.get
  let s ← Meth.lift (s.skipBlanks k)
  let p := parse s
  Meth.set (x, p.2)
  let f ← Meth.lift p.1
  Meth.set (f, p.2)

end Frac
end Pyincpp
