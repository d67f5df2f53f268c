import Verif.Model.List
import Verif.Model.Stream

/-! # sources/str.hpp

`Str`: an immutable `std::string`, here a list of bytes. `char` is signed (x86-64), bytes are written as `UInt8` and
converted where the sign matters. -/

namespace Pyincpp
namespace Str

/-- str.hpp:205-208 `int size() const { return str_.size(); }`. -/
def size (s : List UInt8) : Int := wrap32 s.length

/-- str.hpp:211-214 `is_empty`. -/
def isEmpty (s : List UInt8) : Bool := s.isEmpty

/-- `str_[i]` on a `const std::string`: index `size()` is allowed and reads the terminating NUL. -/
def charAt (s : List UInt8) (i : Int) : Res UInt8 :=
  if i = s.length then .ok 0 else if 0 ≤ i then vget s i.toNat else .ub .outOfBounds

/-- The value of a `char` (signed). -/
def schar (c : UInt8) : Int := if c.toNat < 128 then c.toNat else (c.toNat : Int) - 256

/-- str.hpp:193-198 `operator[]`. -/
def get (s : List UInt8) (index : Int) : Res UInt8 := do
  checkBounds index (← ineg (size s)) (size s)
  let i ← if index ≥ 0 then pure index else iadd index (size s)
  charAt s i

/-! ## Searching -/

/-- `std::string_view::find(pattern)`: the first position at which the pattern occurs. -/
def search (p : List UInt8) : List UInt8 → Option Nat
  | [] => if p.isEmpty then some 0 else none
  | c :: cs => if p.isPrefixOf (c :: cs) then some 0 else (search p cs).map (· + 1)

/-- `std::string_view view(str_.data() + start, n)`: the range must lie within the string (`n` is an `int` converted to
`size_t`, so a negative one is a huge length). -/
def view (s : List UInt8) (start n : Int) : Res (List UInt8) :=
  if start < 0 ∨ start > s.length then .ub .badRange
  else if n < 0 ∨ start + n > s.length then .ub .badRange
  else .ok ((s.drop start.toNat).take n.toNat)

/-- str.hpp:225-237 `find`. -/
def find (s p : List UInt8) (start : Int := 0) (stop : Int := INT_MAX) : Res Int :=
  if start > size s then .ok (-1)
  else do
    let stop := if stop > size s then size s else stop
    let v ← view s start (← isub stop start)
    match search p v with
    | none => pure (-1)
    | some pos => iadd start (wrap32 pos)

/-- str.hpp:240-243 `contains`. -/
def contains (s p : List UInt8) (start : Int := 0) (stop : Int := INT_MAX) : Res Bool := do
  pure ((← find s p start stop) != -1)

/-- str.hpp:254-257, the loop of `count`; `k` bounds the rounds. -/
def countLoop (s p : List UInt8) : Nat → Int → Int → Res Int
  | 0, _, _ => .fuel
  | k + 1, start, cnt => do
    let start ← find s p start
    if start = -1 then pure cnt
    else do countLoop s p k (← iadd start (size p)) (← iadd cnt 1)

/-- str.hpp:246-260 `count`. -/
def count (k : Nat) (s p : List UInt8) : Res Int :=
  if isEmpty p then iadd (size s) 1 else countLoop s p k 0 0

/-- str.hpp:455-458 `starts_with`. -/
def startsWith (s p : List UInt8) : Bool := p.isPrefixOf s
/-- str.hpp:461-464 `ends_with`. -/
def endsWith (s p : List UInt8) : Bool := p.isSuffixOf s

/-! ## Numbers -/

inductive St | start | sign | int | point | dec | exp | expSign | expNum | end_ | other
  deriving DecidableEq, Repr
inductive Ev | blank | sign | digit | point | exp | other
  deriving DecidableEq, Repr

def bytes (l : List Char) : List UInt8 := l.map (fun c => c.toNat.toUInt8)

/-- str.hpp:79. -/
def upperDigits : List UInt8 := bytes ['0','1','2','3','4','5','6','7','8','9','A','B','C','D','E','F','G','H','I','J','K','L',
  'M','N','O','P','Q','R','S','T','U','V','W','X','Y','Z']
/-- str.hpp:80. -/
def lowerDigits : List UInt8 := bytes ['0','1','2','3','4','5','6','7','8','9','a','b','c','d','e','f','g','h','i','j','k','l',
  'm','n','o','p','q','r','s','t','u','v','w','x','y','z']

/-- str.hpp:81-87, the loop with `n` rounds left. -/
def charToIntegerLoop (digit : UInt8) : (n i : Nat) → Res Int
  | 0, _ => .ok (-1)
  | n + 1, i => do
    let u ← vget upperDigits i
    if digit == u then pure i
    else do
      let l ← vget lowerDigits i
      if digit == l then pure i else charToIntegerLoop digit n (i + 1)

/-- str.hpp:77-89 `char_to_integer`. -/
def charToInteger (digit : UInt8) (base : Int) : Res Int := charToIntegerLoop digit base.toNat 0

/-- str.hpp:51-74 `get_event`. -/
def getEvent (ch : UInt8) (base : Int) : Res Ev :=
  if ch == 32 || ch == 10 || ch == 9 || ch == 13 then .ok .blank
  else if ch == 43 || ch == 45 then .ok .sign
  else do
    if (← charToInteger ch base) ≠ -1 then pure .digit
    else if ch == 46 then pure .point
    else if ch == 101 || ch == 69 then pure .exp
    else pure .other

/-- The characters that `for (int i = 0; i < size(); ++i)` visits: all of them, if `size()` is the length. -/
def visited (s : List UInt8) : List UInt8 := s.take (size s).toNat

/-- `i = size(); break;` followed by the `++i` of the loop head. -/
def leaveLoop {α : Type} (s : List UInt8) (a : α) : Res α := do
  let _ ← iadd (size s) 1
  pure a

/-- str.hpp:414-446, the loop of `to_integer` over the characters left; `s` is the whole string. The arithmetic is
that of class `Int` (`mem` and `k` as there). -/
def toIntegerLoop (mem : Mem) (k : Nat) (s : List UInt8) (base : Int) : List UInt8 → St → Bool → BInt → Res (St × Bool × BInt)
  | [], st, nonNegative, integer => .ok (st, nonNegative, integer)
  | c :: cs, st, nonNegative, integer => do
    let ev ← getEvent c base
    match st, ev with
    | .start, .blank => toIntegerLoop mem k s base cs .start nonNegative integer
    | .start, .sign => toIntegerLoop mem k s base cs .sign (c == 43) integer
    | .start, .digit | .sign, .digit | .int, .digit => do
      let p ← BInt.mul integer (← BInt.ofInt base)
      let integer ← BInt.add mem k p (← BInt.ofInt (← charToInteger c base))
      toIntegerLoop mem k s base cs .int nonNegative integer
    | .int, .blank | .end_, .blank => toIntegerLoop mem k s base cs .end_ nonNegative integer
    | _, _ => leaveLoop s (.other, nonNegative, integer)

/-- str.hpp:401-452 `to_integer`. -/
def toInteger (mem : Mem) (k : Nat) (s : List UInt8) (base : Int := 10) : Res BInt := do
  if base < 2 ∨ base > 36 then .throw "Error: Invalid base for to_integer()."
  else
    let (st, nonNegative, integer) ← toIntegerLoop mem k s base (visited s) .start true (← BInt.ofInt 0)
    if st ≠ .int ∧ st ≠ .end_ then .throw "Error: Invalid literal for to_integer()."
    else pure (if nonNegative then integer else BInt.neg integer)

/-- The operations of `double` that `to_decimal` uses. The model says nothing about rounding: the theorems hold for every
interpretation, exact or IEEE 754. -/
structure DoubleOps (D : Type) where
  ofInt : Int → D
  mul : D → D → D
  div : D → D → D
  add : D → D → D
  pow10 : D → D
  inf : D
  negInf : D
  nan : D

/-- The local variables of `to_decimal` (lines 307-311). `sign` and `expSign` hold 1 or -1. -/
structure DecVars (D : Type) where
  sign : Int := 1
  decimalPart : D
  decimalCnt : Int := 0
  expSign : Int := 1
  expPart : Int := 0

/-- str.hpp:315-374, the loop of `to_decimal`. -/
def toDecimalLoop {D : Type} (ops : DoubleOps D) (s : List UInt8) : List UInt8 → St → DecVars D → Res (St × DecVars D)
  | [], st, v => .ok (st, v)
  | c :: cs, st, v => do
    let ev ← getEvent c 10
    match st, ev with
    | .start, .blank => toDecimalLoop ops s cs .start v
    | .start, .sign => toDecimalLoop ops s cs .sign { v with sign := if c == 43 then 1 else -1 }
    | .start, .point | .sign, .point => toDecimalLoop ops s cs .point v
    | .start, .digit | .sign, .digit | .int, .digit => do
      let d ← charToInteger c 10
      toDecimalLoop ops s cs .int
        { v with decimalPart := ops.add (ops.mul v.decimalPart (ops.ofInt 10)) (ops.ofInt d) }
    | .int, .point => toDecimalLoop ops s cs .dec v
    | .point, .digit | .dec, .digit => do
      let d ← charToInteger c 10
      let n ← iadd v.decimalCnt 1
      toDecimalLoop ops s cs .dec
        { v with decimalPart := ops.add (ops.mul v.decimalPart (ops.ofInt 10)) (ops.ofInt d), decimalCnt := n }
    | .int, .exp | .dec, .exp => toDecimalLoop ops s cs .exp v
    | .exp, .sign => toDecimalLoop ops s cs .expSign { v with expSign := if c == 43 then 1 else -1 }
    | .exp, .digit | .expSign, .digit | .expNum, .digit => do
      let d ← charToInteger c 10
      let e ← iadd (← imul v.expPart 10) d
      toDecimalLoop ops s cs .expNum { v with expPart := e }
    | .int, .blank | .dec, .blank | .expNum, .blank | .end_, .blank => toDecimalLoop ops s cs .end_ v
    | _, _ => leaveLoop s (.other, v)

/-- str.hpp:279. -/
def posInfs : List (List UInt8) := [
  bytes ['i','n','f'], bytes ['I','N','F'], bytes ['I','n','f'],
  bytes ['+','i','n','f'], bytes ['+','I','N','F'], bytes ['+','I','n','f'],
  bytes ['i','n','f','i','n','i','t','y'], bytes ['I','N','F','I','N','I','T','Y'], bytes ['I','n','f','i','n','i','t','y'],
  bytes ['+','i','n','f','i','n','i','t','y'], bytes ['+','I','N','F','I','N','I','T','Y'],
  bytes ['+','I','n','f','i','n','i','t','y']]
/-- str.hpp:280. -/
def negInfs : List (List UInt8) := [
  bytes ['-','i','n','f'], bytes ['-','I','N','F'], bytes ['-','I','n','f'],
  bytes ['-','i','n','f','i','n','i','t','y'], bytes ['-','I','N','F','I','N','I','T','Y'],
  bytes ['-','I','n','f','i','n','i','t','y']]
/-- str.hpp:281. -/
def nans : List (List UInt8) := [
  bytes ['n','a','n'], bytes ['N','a','N'], bytes ['N','A','N'],
  bytes ['+','n','a','n'], bytes ['+','N','a','N'], bytes ['+','N','A','N'],
  bytes ['-','n','a','n'], bytes ['-','N','a','N'], bytes ['-','N','A','N']]

/-- str.hpp:276-388 `to_decimal`. -/
def toDecimal {D : Type} (ops : DoubleOps D) (s : List UInt8) : Res D := do
  if posInfs.any (· == s) then pure ops.inf
  else if negInfs.any (· == s) then pure ops.negInf
  else if nans.any (· == s) then pure ops.nan
  else
    let (st, v) ← toDecimalLoop ops s (visited s) .start { decimalPart := ops.ofInt 0 }
    if st ≠ .int ∧ st ≠ .dec ∧ st ≠ .expNum ∧ st ≠ .end_ then .throw "Error: Invalid literal for to_decimal()."
    else pure (ops.mul (ops.ofInt v.sign)
      (ops.mul (ops.div v.decimalPart (ops.pow10 (ops.ofInt v.decimalCnt)))
        (ops.pow10 (ops.mul (ops.ofInt v.expSign) (ops.ofInt v.expPart)))))

/-! ## Production -/

/-- `std::string buffer(n, 0)`, `n` being converted to `size_t`. -/
def buffer (n : Int) : Res (List UInt8) :=
  if n < 0 then .throw "basic_string::_M_create" else .ok (List.replicate n.toNat 0)

/-- str.hpp:487-505 `operator<<`. -/
def shl (s : List UInt8) (n : Int) : Res (List UInt8) :=
  if size s ≤ 1 ∨ n = 0 then .ok s
  else do
    let n ← imod n (size s)
    let n ← if n < 0 then iadd n (size s) else .ok n
    let p ← Lst.iter s n
    Lst.stdCopy (Lst.stdRotate s p) (← buffer (size s)) 0

/-- str.hpp:471-484 `operator>>`. -/
def shr (s : List UInt8) (n : Int) : Res (List UInt8) :=
  if size s ≤ 1 ∨ n = 0 then .ok s
  else if n < 0 then do shl s (← ineg n)
  else do shl s (← isub (size s) n)

/-- str.hpp:508-514 `reverse`. -/
def reverse (s : List UInt8) : Res (List UInt8) := do Lst.stdCopy s.reverse (← buffer (size s)) 0

/-- str.hpp:517-524 `lower`. -/
def lower (s : List UInt8) : List UInt8 := s.map (fun c => c ||| 0b00100000)

/-- str.hpp:527-534 `upper`. -/
def upper (s : List UInt8) : List UInt8 := s.map (fun c => c &&& 0b11011111)

/-- str.hpp:537-546 `erase`. -/
def erase (s : List UInt8) (start stop : Int) : Res (List UInt8) := do
  checkBounds start 0 (← iadd (size s) 1)
  checkBounds stop 0 (← iadd (size s) 1)
  Lst.stdErase s (← Lst.iter s start) (← Lst.iter s stop)

/-- `std::string::substr(pos, n)`, `n` being converted to `size_t`. -/
def substr (s : List UInt8) (pos n : Int) : Res (List UInt8) :=
  if pos < 0 ∨ pos > s.length then .throw "basic_string::substr"
  else .ok (if n < 0 then s.drop pos.toNat else (s.drop pos.toNat).take n.toNat)

/-- str.hpp:566-570, the loop of `replace`. -/
def replaceLoop (s old new : List UInt8) : Nat → Int → List UInt8 → Res (Int × List UInt8)
  | 0, _, _ => .fuel
  | k + 1, thisStart, buffer => do
    let pattStart ← find s old thisStart
    if pattStart = -1 then pure (thisStart, buffer)
    else do
      let sub ← substr s thisStart (← isub pattStart thisStart)
      replaceLoop s old new k (← iadd pattStart (size old)) (buffer ++ (sub ++ new))

/-- str.hpp:555-573 `replace`. For an empty `old` the separator is the C string `new_str.data()`, i.e. up to the first
NUL of `new`. -/
def replace (k : Nat) (s old new : List UInt8) : Res (List UInt8) := do
  if isEmpty old then pure (new ++ s.flatMap (fun c => c :: new.takeWhile (· != 0)))
  else
    let (thisStart, buffer) ← replaceLoop s old new k 0 []
    let sub ← substr s thisStart (-1)
    pure (buffer ++ sub)

/-- The condition of the two loops of `strip` (lines 581, 588): `ch == -1 ? c <= 0x20 : c == ch`. -/
def stripTest (ch : Int) (c : UInt8) : Bool := if ch = -1 then schar c ≤ 0x20 else schar c = ch

/-- str.hpp:580-584; `n` characters are left from position `i` on. -/
def stripFront (ch : Int) (b : List UInt8) : (n i : Nat) → Res Nat
  | 0, i => .ok i
  | n + 1, i => do
    let c ← vget b i
    if stripTest ch c then stripFront ch b n (i + 1) else pure i

/-- str.hpp:587-591; the argument is `i + 1`. -/
def stripBack (ch : Int) (b : List UInt8) : Nat → Res Nat
  | 0 => .ok 0
  | i + 1 => do
    let c ← vget b i
    if stripTest ch c then stripBack ch b i else pure (i + 1)

/-- str.hpp:586-591 where the part to keep ends, i.e. `i + 1`. -/
def stripEnd (ch : Int) (b : List UInt8) : Res Int :=
  let i := wrap32 ((b.length : Int) - 1)
  if i ≥ 0 then (fun j : Nat => (j : Int)) <$> stripBack ch b (i.toNat + 1) else pure (i + 1)

/-- str.hpp:592 `buffer.begin() + i + 1`, from the left, given `i + 1`: if `i` is -1 the iterator before the first character is
formed on the way, which the standard leaves undefined (`strict`). Iterators that are pointers do nothing about it (`lenient`). -/
def iterSucc : Mem → List UInt8 → Int → Res Nat
  | .strict, b, e => if e = 0 then .ub .badRange else Lst.iter b e
  | .lenient, b, e => Lst.iter b e

/-- str.hpp:576-595 `strip`. -/
def strip (mem : Mem) (s : List UInt8) (ch : Int := -1) : Res (List UInt8) := do
  let i ← stripFront ch s (size s).toNat 0
  let b ← Lst.stdErase s 0 i
  Lst.stdErase b (← iterSucc mem b (← stripEnd ch b)) b.length

/-- str.hpp:615-618, the loop of `slice`. -/
def sliceLoop (s : List UInt8) (stop step : Int) : Nat → Int → List UInt8 → Res (List UInt8)
  | 0, _, _ => .fuel
  | k + 1, i, buffer =>
    if (if step > 0 then i < stop else i > stop) then do
      let x ← charAt s i
      sliceLoop s stop step k (← iadd i step) (buffer ++ [x])
    else .ok buffer

/-- str.hpp:610-611. -/
def fromEnd (s : List UInt8) (i : Int) : Res Int := if i < 0 then iadd i (size s) else .ok i

/-- str.hpp:599-621 `slice`. -/
def slice (k : Nat) (s : List UInt8) (start stop : Int) (step : Int := 1) : Res (List UInt8) := do
  if step = 0 then .throw "Error: Slice step can not be zero."
  else
    let lo ← ineg (size s)
    checkBounds start lo (size s)
    let lo' ← isub lo 1
    let hi' ← iadd (size s) 1
    checkBounds stop lo' hi'
    let start ← fromEnd s start
    let stop ← fromEnd s stop
    sliceLoop s stop step k start []

/-- str.hpp:624-627 `operator+(char)`. -/
def plusChar (s : List UInt8) (c : UInt8) : List UInt8 := s ++ [c]
/-- str.hpp:630-633 `operator+(const Str&)`. -/
def plus (s t : List UInt8) : List UInt8 := s ++ t

/-- str.hpp:636-650 `operator*`. -/
def mul (s : List UInt8) (times : Int) : Res (List UInt8) := do
  if times < 0 then .throw "Error: Times to repeat can not be less than zero."
  else
    let b ← buffer (← imul (size s) times)
    forRange 0 times.toNat (fun part b => do
      let p ← Lst.iter b (← imul (size s) part)
      Lst.stdCopy s b p) b

/-- str.hpp:671-678, the loop of `split`. -/
def splitLoop (s sep : List UInt8) (keepEmpty : Bool) : Nat → Int → List (List UInt8) → Res (Int × List (List UInt8))
  | 0, _, _ => .fuel
  | k + 1, thisStart, strList => do
    let pattStart ← find s sep thisStart
    if pattStart = -1 then pure (thisStart, strList)
    else if !keepEmpty && pattStart == thisStart then
      splitLoop s sep keepEmpty k (← iadd pattStart (size sep)) strList
    else do
      let sub ← substr s thisStart (← isub pattStart thisStart)
      let strList ← Lst.onCopy (Lst.append sub) strList
      splitLoop s sep keepEmpty k (← iadd pattStart (size sep)) strList

/-- str.hpp:662-685 `split`. -/
def split (k : Nat) (s sep : List UInt8) (keepEmpty : Bool := false) : Res (List (List UInt8)) := do
  if isEmpty sep then .throw "Error: Empty separator."
  else
    let (thisStart, strList) ← splitLoop s sep keepEmpty k 0 []
    if keepEmpty || thisStart != size s then do
      let sub ← substr s thisStart (-1)
      Lst.onCopy (Lst.append sub) strList
    else pure strList

/-- str.hpp:693-706 `join`. -/
def join (s : List UInt8) (strList : List (List UInt8)) : Res (List UInt8) :=
  if Lst.isEmpty strList then .ok []
  else do
    let first ← Lst.get strList 0
    forRange 1 (Lst.size strList).toNat (fun i buffer => do
      let e ← Lst.get strList i
      pure (buffer ++ (s ++ e))) first

/-- `std::string_view::find(c, from)`; `none` is `npos`. -/
def findChar (s : List UInt8) (c : UInt8) (start : Nat) : Option Nat :=
  ((s.drop start).findIdx? (· == c)).map (· + start)

/-- str.hpp:93-103 `format_helper`; the pair is `(oss, str)`. (`npos + 1 == 0`.) -/
def formatHelper (st : List UInt8 × List UInt8) (value : List UInt8) : List UInt8 × List UInt8 :=
  let openB := findChar st.2 123 0
  let closeB := findChar st.2 125 (match openB with | some i => i + 1 | none => 0)
  match openB, closeB with
  | some i, some j => (st.1 ++ (st.2.take i ++ value), st.2.drop (j + 1))
  | _, _ => st

/-- str.hpp:710-717 `format`; an argument is given by the text that `operator<<` prints for it. -/
def format (s : List UInt8) (args : List (List UInt8)) : List UInt8 :=
  let (oss, str) := args.foldl formatHelper ([], s)
  oss ++ str

/-- str.hpp:724-732 `operator<<`. -/
def print (s : List UInt8) : List UInt8 := 34 :: (s ++ [34])

/-- str.hpp:735-738 `operator>>`, i.e. `std::getline` up to `'\n'`: the new contents, the stream afterwards. A stream that is not
good leaves the string as it was (`none`). -/
def input (s : IStream) : Option (List UInt8) × IStream :=
  if !s.good then (none, { s with fail := true })
  else
    let line := s.buf.takeWhile (· != 10)
    match s.buf.dropWhile (· != 10) with
    | [] => (some line, { buf := [], eof := true, fail := line.isEmpty })
    | _ :: rest => (some line, { s with buf := rest })

end Str
end Pyincpp
