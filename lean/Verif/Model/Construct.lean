import Verif.Model.Str
import Verif.Model.Int

/-! # Construction from C strings and ranges

A pointer to characters is the memory from the place it points to. -/

namespace Pyincpp

/-- `std::strlen`: the place of the first NUL; reading on behind the end of the memory is undefined. -/
def strlen : List UInt8 → Res Nat
  | [] => .ub .outOfBounds
  | c :: m => if c = 0 then .ok 0 else do
    let n ← strlen m
    pure (n + 1)

/-- str.hpp:115-118 `Str(const char*)`. -/
def Str.ofChars (m : List UInt8) : Res (List UInt8) := do
  let n ← strlen m
  pure (m.take n)

/-- str.hpp:121-124 `Str(const std::string&)`. -/
def Str.ofString (s : List UInt8) : List UInt8 := s

/-- str.hpp:218-221 `data()`: the memory of a `std::string` holds a NUL behind the last character. -/
def Str.data (s : List UInt8) : List UInt8 := s ++ [0]

/-- list.hpp:32-48 the constructors from a list, a range and a vector. -/
def Lst.ofRange {α : Type} (xs : List α) : List α := xs

/-- deque.hpp:34-50 the constructors from a list, a range and a deque. -/
def Dq.ofRange {α : Type} (xs : List α) : List α := xs

/-- int.hpp:173-175: the call `Int(chars)` reads the length of the text first. -/
def BInt.ofPtr (m : List UInt8) : Res BInt := do
  let n ← strlen m
  BInt.ofChars (m.take n)

end Pyincpp
