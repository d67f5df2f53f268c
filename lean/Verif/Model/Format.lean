import Verif.Model.Fraction
import Verif.Model.ComplexStream
import Verif.Model.DoubleText
import Verif.Spec.Int
import Verif.Model.Str

/-! # Output streams with their formatting state

The `operator<<`s of the library on a `std::ostream` whose state (field width, fill character, adjustment, base and the flags
`showpos`, `showbase`, `uppercase`) is arbitrary. The stream is one that never fails, as a string stream. The notation and the
precision of `double`s are the default ones; the width is not negative. -/

namespace Pyincpp

/-- `std::left`, `std::right` (also the initial state), `std::internal`. -/
inductive Adjust | right | left | internal
  deriving DecidableEq, Repr

inductive Base | dec | hex | oct
  deriving DecidableEq, Repr

structure OStream where
  out : List UInt8 := []
  width : Nat := 0
  fill : UInt8 := 32
  adjust : Adjust := .right
  base : Base := .dec
  showpos : Bool := false
  showbase : Bool := false
  uppercase : Bool := false
  deriving DecidableEq, Repr

namespace OStream

/-- `std::setw(n)`. -/
def setw (n : Nat) (os : OStream) : OStream := { os with width := n }

/-- `std::setfill(c)`. -/
def setfill (c : UInt8) (os : OStream) : OStream := { os with fill := c }

/-- `os << t` for a character or a string: filled up to the width, behind the text if adjusted left; the width becomes 0. -/
def putText (t : List UInt8) (os : OStream) : OStream :=
  let f := List.replicate (os.width - t.length) os.fill
  { os with out := os.out ++ (if os.adjust = .left then t ++ f else f ++ t), width := 0 }

/-- Writes the two halves of a number (its sign or base, its digits), filled up to the width. -/
def putNumber (p d : List UInt8) (os : OStream) : OStream :=
  let f := List.replicate (os.width - (p.length + d.length)) os.fill
  { os with
    out := os.out ++ (match os.adjust with
      | .left => p ++ d ++ f
      | .right => f ++ (p ++ d)
      | .internal => p ++ f ++ d)
    width := 0 }

/-- The digits of a number in some base. -/
def digits (b n : Nat) : List UInt8 := (Nat.toDigits b n).map (fun c => c.toNat.toUInt8)

/-- Upper case letters. -/
def upper (t : List UInt8) : List UInt8 := t.map (fun c => if 97 ≤ c ∧ c ≤ 122 then c - 32 else c)

/-- `os << n` for an `int`. In the bases other than ten a negative number is taken as `unsigned`, without a sign, and zero has no
prefix. -/
def putInt (n : Int) (os : OStream) : OStream :=
  match os.base with
  | .dec => putNumber (if n < 0 then [45] else if os.showpos then [43] else []) (digits 10 n.natAbs) os
  | .hex =>
    let m := (n % 2 ^ 32).toNat
    let up := fun t => if os.uppercase then upper t else t
    putNumber (if os.showbase && m != 0 then up [48, 120] else []) (up (digits 16 m)) os
  | .oct =>
    let m := (n % 2 ^ 32).toNat
    putNumber [] ((if os.showbase && m != 0 then [48] else []) ++ digits 8 m) os

/-- `os << x` for a `double`. -/
def putDouble (x : Dbl) (os : OStream) : OStream :=
  let t := if os.uppercase then upper x.text else x.text
  match t with
  | 45 :: t => putNumber [45] t os
  | t => putNumber (if os.showpos then [43] else []) t os

/-- int.hpp:867-871 the remaining chunks; `DIGITS_PER_CHUNK` is 1 (int.hpp:22). -/
def putChunks : List Int → OStream → OStream
  | [], os => os
  | c :: cs, os => putChunks cs (putText (BInt.decimal c) ((os.setw 1).setfill 48))

/-- int.hpp:854-874 `operator<<` of `Int`. -/
def putBig (x : BInt) (os : OStream) : Res OStream :=
  if x.sign = 0 then .ok (os.putText [48])
  else
    let os := if x.sign = -1 then os.putText [45] else os
    match x.chunks.reverse with
    | [] => .ub .badDeref
    | c :: cs => .ok (putChunks cs (os.putInt c))

/-- fraction.hpp:243-253 `operator<<` of `Fraction`. -/
def putFrac (x : Frac) (os : OStream) : OStream :=
  if x.den = 1 then os.putInt x.num else ((os.putInt x.num).putText [47]).putInt x.den

/-- complex.hpp:211-214 `operator<<` of `Complex`. -/
def putCx (x : Cx Dbl) (os : OStream) : OStream :=
  ((((os.putText [40]).putDouble x.re).putText [if Dbl.lt x.im (.fin 0) then 45 else 43]).putDouble (Dbl.abs x.im)).putText [106, 41]

/-- str.hpp:724-732 `operator<<` of `Str`: character by character. -/
def putStr (s : List UInt8) (os : OStream) : OStream :=
  (s.foldl (fun os c => os.putText [c]) (os.putText [34])).putText [34]

end OStream

/-- The values that can be printed: the standard ones, those of the library, and the containers of them, given by the sequence of
their elements. A range has its opening and closing character: `[]` list.hpp:412-415, `<>` deque.hpp:259-262, `{}`
set.hpp:266-269, and of pairs dict.hpp:233-236. -/
inductive Val
  | text (t : List UInt8)
  | int (n : Int)
  | double (x : Dbl)
  | big (z : Int)
  | frac (x : Frac)
  | str (s : List UInt8)
  | complex (x : Cx Dbl)
  | pair (k v : Val)
  | range (opening close : UInt8) (l : List Val)
  | tuple (l : List Val)

namespace OStream

mutual

/-- `os << v`. -/
def put : Val → OStream → Res OStream
  | .text t, os => .ok (os.putText t)
  | .int n, os => .ok (os.putInt n)
  | .double x, os => .ok (os.putDouble x)
  | .big z, os => os.putBig (enc z)
  | .frac x, os => .ok (os.putFrac x)
  | .str s, os => .ok (os.putStr s)
  | .complex x, os => .ok (os.putCx x)
  -- utility.hpp:69-73
  | .pair k v, os => do put v ((← put k os).putText [58, 32])
  -- utility.hpp:76-100
  | .range o c [], os => .ok ((os.putText [o]).putText [c])
  | .range o c (v :: l), os => putLoop c (v :: l) (os.putText [o])
  -- tuple.hpp:156-169
  | .tuple [v], os => do pure ((← put v (os.putText [40])).putText [44, 41])
  | .tuple l, os => do pure ((← putElems l (os.putText [40])).putText [41])

/-- utility.hpp:91-99 the loop from `it`. -/
def putLoop (close : UInt8) : List Val → OStream → Res OStream
  | [], _ => .ub .badDeref
  | [v], os => do pure ((← put v os).putText [close])
  | v :: w :: it, os => do putLoop close (w :: it) ((← put v os).putText [44, 32])

/-- tuple.hpp:139-147 `internal::print`. `tuple.size() == 1` is true of the last element only, the number of elements being an
`int`. -/
def putElems : List Val → OStream → Res OStream
  | [], os => .ok os
  | v :: l, os => do putElems l ((← put v os).putText (if l.isEmpty then [] else [44, 32]))

end

/-- A statement `os << v << w << …`. -/
def putAll : List Val → OStream → Res OStream
  | [], os => .ok os
  | v :: l, os => do putAll l (← put v os)

/-- str.hpp:93-103 `format_helper` with the stream; the pair is `(oss, str)`. -/
def formatHelper (st : OStream × List UInt8) (v : Val) : Res (OStream × List UInt8) :=
  let openB := Str.findChar st.2 123 0
  let closeB := Str.findChar st.2 125 (match openB with | some i => i + 1 | none => 0)
  match openB, closeB with
  | some i, some j => do pure (← put v (st.1.putText (st.2.take i)), st.2.drop (j + 1))
  | _, _ => .ok st

def formatArgs : List Val → OStream × List UInt8 → Res (OStream × List UInt8)
  | [], st => .ok st
  | v :: l, st => do formatArgs l (← formatHelper st v)

/-- str.hpp:710-717 `format`, on a new stream. -/
def format (s : List UInt8) (args : List Val) : Res (List UInt8) := do
  let (oss, str) ← formatArgs args ({}, s)
  pure (oss.putText str).out

end OStream
end Pyincpp
