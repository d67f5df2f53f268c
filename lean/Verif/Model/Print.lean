import Verif.Model.Utility

/-! # Printing of the containers: utility.hpp `print` and the `operator<<`s that use it

An element is represented by the text its own `operator<<` gives; the formatting state of the stream (width, fill) is the
default. -/

namespace Pyincpp

/-- utility.hpp:91-99 the loop from `it`; `out` is what was written so far. -/
def printLoop (close : UInt8) : List (List UInt8) → List UInt8 → Res (List UInt8)
  | [], _ => .ub .badDeref
  | x :: it, out =>
    let out := out ++ x
    if it.isEmpty then .ok (out ++ [close]) else printLoop close it (out ++ [44, 32])

/-- utility.hpp:76-100 `print`. -/
def printRange (range : List (List UInt8)) (opening close : UInt8) : Res (List UInt8) :=
  if range.isEmpty then .ok ([opening] ++ [close]) else printLoop close range [opening]

/-- utility.hpp:69-73 a pair. -/
def printPair (k v : List UInt8) : List UInt8 := k ++ [58, 32] ++ v

variable {α κ ν : Type}

/-- list.hpp:412-415 `operator<<`. -/
def Lst.print (shown : α → List UInt8) (l : List α) : Res (List UInt8) := printRange (l.map shown) 91 93

/-- deque.hpp:259-262 `operator<<`. -/
def Dq.print (shown : α → List UInt8) (l : List α) : Res (List UInt8) := printRange (l.map shown) 60 62

/-- set.hpp:266-269 `operator<<`: in the order of the tree. -/
def PSet.print (shown : α → List UInt8) (l : List α) : Res (List UInt8) := printRange (l.map shown) 123 125

/-- dict.hpp:233-236 `operator<<`: in the order of the tree. -/
def PDict.print (key : κ → List UInt8) (val : ν → List UInt8) (l : List (κ × ν)) : Res (List UInt8) :=
  printRange (l.map (fun p => printPair (key p.1) (val p.2))) 123 125

end Pyincpp
