import Verif.Model.Locale
import Verif.Model.Stream

/-! # Reading fractions from a stream with a locale

`is >> n` for an `int` as in libstdc++'s `num_get`: separators between the digits are accepted if the locale groups digits, and
`failbit` is set if they do not stand where the locale would have put them. White space is still that of the "C" locale
(another facet). -/

namespace Pyincpp
namespace Locale

variable (L : Locale)

/-- Are digits grouped at all? -/
def used : Bool :=
  match L.grouping with
  | [] => false
  | g :: _ => decide (0 < g ∧ g < 127)

/-- Is this character taken for a separator? -/
def isSep (c : UInt8) : Bool := L.used && c == L.sep

/-- Extracts digits and separators. The groups, the rightmost first; `false` if a separator has no digit in front; what follows. -/
def scan (done : List (List UInt8)) (cur : List UInt8) : List UInt8 → List (List UInt8) × Bool × List UInt8
  | [] => (cur :: done, true, [])
  | c :: t =>
    if L.isSep c then
      if cur = [] then (done, false, c :: t) else scan (cur :: done) [] t
    else if c ≠ L.point ∧ IStream.isDigit c then scan done (cur ++ [c]) t
    else (cur :: done, true, c :: t)

/-- libstdc++'s `__verify_grouping`, of the sizes of the groups from the right. The leftmost may be
smaller, and any size will do if the locale does not group there (0, `CHAR_MAX`, and negative `char`s, here from 128 on). -/
def verify : List ℕ → List ℕ → Bool
  | g :: _, [n] => g == 0 || decide (127 ≤ g) || n ≤ g
  | g :: gs, n :: ns => n == g && verify (if gs = [] then [g] else gs) ns
  | _, _ => true

/-- `is >> n` for an `int`. -/
def readInt (s : IStream) : Option Int × IStream :=
  match s.sentry with
  | (false, s) => (none, s)
  | (true, s) =>
    let h := s.buf.headD 0
    let signed := (h == 45 || h == 43) && !L.isSep h && h != L.point
    let neg := signed && h == 45
    let p := L.scan [] [] (if signed then s.buf.drop 1 else s.buf)
    let ds := p.1.reverse.flatten
    let s' : IStream := { s with buf := p.2.2, eof := p.2.2.isEmpty }
    if ds.isEmpty || !p.2.1 then (some 0, { s' with fail := true })
    else
      let s' := { s' with fail := s.fail || decide (1 < p.1.length) && !verify L.grouping (p.1.map List.length) }
      let v : Int := if neg then -(IStream.digitsValue ds : Int) else IStream.digitsValue ds
      if v < INT_MIN then (some INT_MIN, { s' with fail := true })
      else if INT_MAX < v then (some INT_MAX, { s' with fail := true })
      else (some v, s')

end Locale

namespace Frac

/-- fraction.hpp:284-296, as `Frac.parseDen`, with the `int` read by `rd`. -/
def parseDenWith (rd : IStream → Option Int × IStream) (num : Option Int) (c : Option UInt8) (s : IStream) : Res Frac × IStream :=
  let p := s.peek
  if startsNumber p.1 = false then (.throw msgLiteral, p.2.peek.2.peek.2)
  else
    let d := rd p.2
    match c with
    | none => (.ub .uninit, d.2)
    | some c =>
      if c ≠ 47 then (.throw msgLiteral, d.2)
      else
        let q := d.2.peek
        if 0x20 < q.1 then (.throw msgLiteral, q.2)
        else match num, d.1 with
          | some n, some d => (make n d, q.2)
          | _, _ => (.ub .uninit, q.2)

/-- fraction.hpp:270-296, as `Frac.parse`, with the `int`s read by `rd`. -/
def parseWith (rd : IStream → Option Int × IStream) (s : IStream) : Res Frac × IStream :=
  let p := s.peek
  if startsNumber p.1 = false then (.throw msgLiteral, p.2.peek.2.peek.2)
  else
    let n := rd p.2
    let q := n.2.peek
    if q.1 ≤ 0x20 then
      match n.1 with
      | some n => (ofInt n, q.2)
      | none => (.ub .uninit, q.2)
    else
      let c := q.2.readChar
      parseDenWith rd n.1 c.1 c.2

/-- fraction.hpp:264-297 `operator>>` on a stream with the locale `L`; `k` bounds the loop over the blanks. -/
def inputIn (L : Locale) (k : Nat) : Meth (Frac × IStream) Unit := do
  let (x, s) ← Meth.get
  let s ← Meth.lift (s.skipBlanks k)
  let p := parseWith L.readInt s
  Meth.set (x, p.2)
  let f ← Meth.lift p.1
  Meth.set (f, p.2)

end Frac
end Pyincpp
