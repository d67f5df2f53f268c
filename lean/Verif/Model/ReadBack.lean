import Verif.Model.Str
import Verif.Model.Fraction

/-! # Taking a printed text apart with the members of `Str`

Programs a user may write; the characters are `,` 44, ` ` 32, `:` 58, `/` 47, `"` 34. -/

namespace Pyincpp

/-- `for (const auto& w : t.slice(1, -1).split(", ")) l.append(w.to_integer());`
(str.hpp:599-626 `slice`, 663-690 `split`, 401-440 `to_integer`). -/
def readInts (mem : Mem) (k : Nat) (t : List UInt8) : Res (List BInt) := do
  let u ← Str.slice k t 1 (-1)
  let ws ← Str.split k u [44, 32]
  ws.mapM (fun w => Str.toInteger mem k w)

/-- `w.split(": ")`, and the two pieces as integers. -/
def readPair (mem : Mem) (k : Nat) (w : List UInt8) : Res (BInt × BInt) := do
  let p ← Str.split k w [58, 32]
  let a ← Str.toInteger mem k (← Lst.get p 0)
  let b ← Str.toInteger mem k (← Lst.get p 1)
  pure (a, b)

/-- The same for the pairs of a dictionary. -/
def readPairs (mem : Mem) (k : Nat) (t : List UInt8) : Res (List (BInt × BInt)) := do
  let u ← Str.slice k t 1 (-1)
  let ws ← Str.split k u [44, 32]
  ws.mapM (fun w => readPair mem k w)

/-- `auto p = t.split("/"); Fraction(p[0].to_integer().to_integer<int>(), p.size() == 1 ? 1 : p[1].to_integer().to_integer<int>())`. -/
def readFrac (mem : Mem) (k : Nat) (t : List UInt8) : Res Frac := do
  let p ← Str.split k t [47]
  let n ← BInt.toInteger ⟨32, true⟩ (← Str.toInteger mem k (← Lst.get p 0))
  let d ← (if Lst.size p = 1 then pure 1 else do
    BInt.toInteger ⟨32, true⟩ (← Str.toInteger mem k (← Lst.get p 1)) : Res Int)
  Frac.make n d

/-- `t.slice(2, -2).split("\", \"", true)`. -/
def readStrs (k : Nat) (t : List UInt8) : Res (List (List UInt8)) := do
  let u ← Str.slice k t 2 (-2)
  Str.split k u [34, 44, 32, 34] true

end Pyincpp
