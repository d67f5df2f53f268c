import Verif.Model.IntProgram
import Verif.Model.Stream

/-! # The mutating operators of `Int` as methods

`Model/Int.lean` computes the value of the left operand after the call; here the object itself is part of the state, so
that what an operator writes before it throws is visible. -/

namespace Pyincpp
namespace BInt

/-- int.hpp:339-539, the five compound assignments. Only `/=` (lines 451-496) and `%=` (499-539) contain a statement that
throws, the `check_zero` of lines 454 and 502; both write `sign_ = 1` (lines 478, 526) before the loop. -/
def assignM (mem : Mem) (k : Nat) (self : Bool) : IntBin → BInt → Meth BInt Unit
  | .div, y => do
    Meth.lift (checkZero (y.sign == 0))
    let x ← Meth.get
    Meth.set { x with sign := 1 }
    let r ← Meth.lift (divAssign mem k x y)
    Meth.set r
  | .mod, y => do
    Meth.lift (checkZero (y.sign == 0))
    let x ← Meth.get
    Meth.set { x with sign := 1 }
    let r ← Meth.lift (modAssign mem k x y)
    Meth.set r
  | o, y => do
    let x ← Meth.get
    let r ← Meth.lift (o.runAssign mem k self x y)
    Meth.set r

/-- int.hpp:877-884 `operator>>` on an object: `integer = str.c_str()` constructs a temporary, which may throw, and then
assigns. The state is the object and the stream. -/
def inputM : Meth (BInt × IStream) Unit := do
  let (x, s) ← Meth.get
  let (w, s) := s.readWord
  Meth.set (x, s)
  let r ← Meth.lift (ofChars (w.takeWhile (· != 0)))
  Meth.set (r, s)

end BInt
end Pyincpp
