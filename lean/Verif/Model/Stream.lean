import Verif.Model.Int

/-! # Input streams

`std::istringstream` as used by the three `operator>>` (int.hpp:877-884, fraction.hpp:264-297,
complex.hpp `operator>>`): the characters not yet extracted and the two state bits the code can set. The third
bit (`badbit`) is never set by a string stream and is omitted. Whitespace is that of the "C" locale. -/

namespace Pyincpp

structure IStream where
  buf : List UInt8
  eof : Bool := false
  fail : Bool := false
  deriving DecidableEq, Repr

namespace IStream

def good (s : IStream) : Bool := !s.eof && !s.fail

/-- `std::isspace` in the "C" locale. -/
def isSpace (c : UInt8) : Bool := c == 32 || (9 ≤ c && c ≤ 13)

/-- `is.peek()`: the next character (0..255) or -1. A stream that is not good gets `failbit`; reaching the end
sets `eofbit`. -/
def peek (s : IStream) : Int × IStream :=
  if !s.good then (-1, { s with fail := true })
  else match s.buf with
    | [] => (-1, { s with eof := true })
    | c :: _ => (c.toNat, s)

/-- `is.ignore()`. -/
def ignore (s : IStream) : IStream :=
  if !s.good then { s with fail := true }
  else match s.buf with
    | [] => { s with eof := true }
    | _ :: t => { s with buf := t }

/-- The sentry of formatted input: skips white space; `false` means nothing may be extracted. -/
def sentry (s : IStream) : Bool × IStream :=
  if !s.good then (false, { s with fail := true })
  else
    let b := s.buf.dropWhile isSpace
    if b.isEmpty then (false, { buf := [], eof := true, fail := true })
    else (true, { s with buf := b })

/-- `is >> str` for an empty `std::string`. -/
def readWord (s : IStream) : List UInt8 × IStream :=
  match s.sentry with
  | (false, s) => ([], s)
  | (true, s) =>
    let w := s.buf.takeWhile (fun c => !isSpace c)
    let r := s.buf.dropWhile (fun c => !isSpace c)
    (w, { s with buf := r, eof := r.isEmpty })

/-- `is.get()`: extracts a character, or -1. At the end both bits are set. -/
def get (s : IStream) : Int × IStream :=
  if !s.good then (-1, { s with fail := true })
  else match s.buf with
    | [] => (-1, { s with eof := true, fail := true })
    | c :: t => (c.toNat, { s with buf := t })

/-- `is >> c` for a `char`; `none`: `c` is left as it was. -/
def readChar (s : IStream) : Option UInt8 × IStream :=
  match s.sentry with
  | (false, s) => (none, s)
  | (true, s) =>
    match s.buf with
    | [] => (none, { s with eof := true, fail := true })
    | c :: t => (some c, { s with buf := t })

def isDigit (c : UInt8) : Bool := 48 ≤ c && c ≤ 57

/-- The value of decimal digits. -/
def digitsValue (l : List UInt8) : Nat := l.foldl (fun v c => 10 * v + (c.toNat - 48)) 0

/-- `is >> n` for an `int`, decimal, "C" locale (libstdc++'s `num_get`): an optional sign and all digits that follow are
extracted. Without a digit `n` becomes 0, outside the range of `int` it becomes the nearer bound, and both set `failbit`.
`none`: `n` is left as it was. -/
def readInt (s : IStream) : Option Int × IStream :=
  match s.sentry with
  | (false, s) => (none, s)
  | (true, s) =>
    let neg := s.buf.head? == some 45
    let t := if neg || s.buf.head? == some 43 then s.buf.drop 1 else s.buf
    let ds := t.takeWhile isDigit
    let r := t.dropWhile isDigit
    let s' : IStream := { s with buf := r, eof := r.isEmpty }
    if ds.isEmpty then (some 0, { s' with fail := true })
    else
      let v : Int := if neg then -(digitsValue ds : Int) else digitsValue ds
      if v < INT_MIN then (some INT_MIN, { s' with fail := true })
      else if INT_MAX < v then (some INT_MAX, { s' with fail := true })
      else (some v, s')

/-- `while (is.peek() <= 0x20) is.ignore();` -/
def skipBlanks : Nat → IStream → Res IStream
  | 0, _ => .fuel
  | n + 1, s =>
    if s.peek.1 ≤ 0x20 then skipBlanks n s.peek.2.ignore else .ok s.peek.2

end IStream

namespace BInt

/-- int.hpp:877-884 `operator>>`: the word is handed over as `str.c_str()`, i.e. up to its first NUL byte. If
parsing throws, the `Int` keeps its value. -/
def input (s : IStream) : Res (BInt × IStream) := do
  let (w, s) := s.readWord
  let x ← ofChars (w.takeWhile (· != 0))
  pure (x, s)

end BInt
end Pyincpp
