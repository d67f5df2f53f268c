import Verif.Model.Int
import Verif.Model.Fraction
import Verif.Model.Complex
import Verif.Model.List
import Verif.Model.Deque
import Verif.Model.Str

/-! # Arguments of other arithmetic types

The parameters of the constructors and of the members are `int` or `double`. An argument of another arithmetic type is converted
to it without a word, by the rules of the language [conv.integral, conv.fpint, conv.double]. A constant zero of an integer type
other than `int` is not considered for `Int`: the call is ambiguous (it converts to `const char*` as well) and does not compile. -/

namespace Pyincpp

/-- A value of an arithmetic type: of an integer type (`bool` and `char` are among them) or of `float` or `double`. -/
inductive Num
  | int (v : ℤ)
  | float (x : Dbl)
  deriving DecidableEq, Repr

/-- Conversion of a `double` to `int`: the fraction is dropped; undefined if the result does not fit [conv.fpint]. -/
def Dbl.toInt : Dbl → Res Int
  | .fin q => ck (if 0 ≤ q then ⌊q⌋ else ⌈q⌉)
  | _ => .ub .overflow

namespace Num

/-- Conversion to `int`: integers modulo `2^32` [conv.integral]. -/
def toInt : Num → Res Int
  | .int v => .ok (wrap32 v)
  | .float x => x.toInt

/-- Conversion to `double`: the nearest one [conv.fpint]. -/
def toDouble : Num → Dbl
  | .int v => Dbl.ofInt v
  | .float x => x

end Num

/-- int.hpp:161 `Int(int)`, called with a number of any type. -/
def BInt.ofNum (a : Num) : Res BInt := do BInt.ofInt (← a.toInt)

/-- fraction.hpp:30 `Fraction(int, int)`, called with numbers of any type. -/
def Frac.ofNum (a b : Num) : Res Frac := do
  let n ← a.toInt
  let d ← b.toInt
  Frac.make n d

/-- fraction.hpp:104-107 `operator double`: a fraction is converted to a `double` wherever a number is asked for. -/
def Frac.asNum (x : Frac) : Num := .float x.toDouble

/-- complex.hpp:29-33 `Complex(double, double)`, called with numbers of any type. -/
def Cx.ofNum (a b : Num) : Cx Dbl := ⟨a.toDouble, b.toDouble⟩

variable {α : Type}

/-- list.hpp:90, 99 `operator[](int)`, called with a number of any type. -/
def Lst.getNum (l : List α) (a : Num) : Res α := do Lst.get l (← a.toInt)

/-- deque.hpp:119, 127 `operator[](int)`. -/
def Dq.getNum (d : List α) (a : Num) : Res α := do Dq.get d (← a.toInt)

/-- str.hpp:193 `operator[](int)`. -/
def Str.getNum (s : List UInt8) (a : Num) : Res UInt8 := do Str.get s (← a.toInt)

/-- list.hpp:383 `operator*(int)`. -/
def Lst.mulNum [Inhabited α] (l : List α) (a : Num) : Res (List α) := do Lst.mul l (← a.toInt)

/-- str.hpp:636 `operator*(int)`. -/
def Str.mulNum (s : List UInt8) (a : Num) : Res (List UInt8) := do Str.mul s (← a.toInt)

/-- list.hpp:237 `operator<<=(int)`. -/
def Lst.rotLNum (a : Num) : Meth (List α) Unit := do
  let n ← Meth.lift a.toInt
  Lst.rotL n

end Pyincpp
