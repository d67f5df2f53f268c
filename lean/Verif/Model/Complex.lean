import Verif.Model.Double
import Verif.Model.Utility

/-! # sources/complex.hpp, without streams

The two members are `double`s. The arithmetic is a parameter: the theorems instantiate it with exact real numbers and with
IEEE 754 `double`s (`Arith.double`). The functions of `<cmath>` are a parameter of their own. -/

namespace Pyincpp

/-- The operations on `double` used by the class. -/
structure Arith (F : Type) where
  zero : F
  one : F
  add : F → F → F
  sub : F → F → F
  mul : F → F → F
  div : F → F → F
  neg : F → F
  abs : F → F
  lt : F → F → Prop
  ltDec : ∀ a b, Decidable (lt a b)
  /-- `std::numeric_limits<double>::epsilon()` -/
  eps : F

/-- The functions of `<cmath>` used by the class. -/
structure CMath (F : Type) where
  hypot : F → F → F
  atan2 : F → F → F
  pow : F → F → F
  exp : F → F
  log : F → F
  cos : F → F
  sin : F → F

/-- IEEE 754 arithmetic. -/
def Arith.double : Arith Dbl where
  zero := .fin 0
  one := .fin 1
  add := Dbl.add
  sub := Dbl.sub
  mul := Dbl.mul
  div := Dbl.div
  neg := Dbl.neg
  abs := Dbl.abs
  lt a b := Dbl.lt a b = true
  ltDec _ _ := inferInstance
  eps := Dbl.epsilon

/-- complex.hpp:15-22 the two members; 82-92 `real()` and `imag()` return them, 138-142 unary `+` returns the number itself. -/
@[ext] structure Cx (F : Type) where
  re : F
  im : F
  deriving DecidableEq, Repr

namespace Cx
variable {F : Type} (A : Arith F) (M : CMath F)

/-- complex.hpp:30-34 with the default imaginary part. -/
def ofReal (r : F) : Cx F := ⟨r, A.zero⟩

/-- complex.hpp:53-57 `operator==`. -/
def eq (x y : Cx F) : Bool :=
  have := A.ltDec
  decide (A.lt (A.abs (A.sub x.re y.re)) A.eps) && decide (A.lt (A.abs (A.sub x.im y.im)) A.eps)

/-- complex.hpp:95-98 `abs`. -/
def abs (x : Cx F) : F := M.hypot x.re x.im

/-- complex.hpp:101-104 `arg`. -/
def arg (x : Cx F) : F := M.atan2 x.im x.re

/-- complex.hpp:145-148 unary `-`. -/
def neg (x : Cx F) : Cx F := ⟨A.neg x.re, A.neg x.im⟩

/-- complex.hpp:151-154 `conjugate`. -/
def conjugate (x : Cx F) : Cx F := ⟨x.re, A.neg x.im⟩

/-- complex.hpp:157-160 `+`. -/
def add (x y : Cx F) : Cx F := ⟨A.add x.re y.re, A.add x.im y.im⟩

/-- complex.hpp:163-166 `-`. -/
def sub (x y : Cx F) : Cx F := ⟨A.sub x.re y.re, A.sub x.im y.im⟩

/-- complex.hpp:169-172 `*`. -/
def mul (x y : Cx F) : Cx F :=
  ⟨A.sub (A.mul x.re y.re) (A.mul x.im y.im), A.add (A.mul x.re y.im) (A.mul x.im y.re)⟩

/-- complex.hpp:175-181 `/`. -/
def div (x y : Cx F) : Res (Cx F) := do
  checkZero (eq A y ⟨A.zero, A.zero⟩)
  let den := A.add (A.mul y.re y.re) (A.mul y.im y.im)
  pure ⟨A.div (A.add (A.mul x.re y.re) (A.mul x.im y.im)) den, A.div (A.sub (A.mul x.im y.re) (A.mul x.re y.im)) den⟩

/-- The binary operators. -/
inductive Op | add | sub | mul | div
  deriving DecidableEq, Repr

def Op.run : Op → Cx F → Cx F → Res (Cx F)
  | .add, x, y => .ok (Cx.add A x y)
  | .sub, x, y => .ok (Cx.sub A x y)
  | .mul, x, y => .ok (Cx.mul A x y)
  | .div, x, y => Cx.div A x y

/-- complex.hpp:111-132 the compound assignments: `*this = *this op rhs`; `none` is the number itself. -/
def assignM (o : Op) (rhs : Option (Cx F)) : Meth (Cx F) Unit := do
  let x ← Meth.get
  let r ← Meth.lift (o.run A x (rhs.getD x))
  Meth.set r

/-- complex.hpp:188-204 `pow`. -/
def pow (base exp : Cx F) : Res (Cx F) :=
  if eq A exp ⟨A.zero, A.zero⟩ then .ok ⟨A.one, A.zero⟩
  else if eq A base ⟨A.zero, A.zero⟩ then .throw "Error: Math domain error."
  else
    let coef := A.mul (M.pow (abs M base) exp.re) (M.exp (A.mul (A.neg (arg M base)) exp.im))
    let theta := A.add (A.mul (M.log (abs M base)) exp.im) (A.mul (arg M base) exp.re)
    .ok ⟨A.mul coef (M.cos theta), A.mul coef (M.sin theta)⟩

/-- complex.hpp:271-274 `std::hash<Complex>`; `h` is `std::hash<double>`. -/
def hash (h : F → BitVec 64) (x : Cx F) : BitVec 64 := h x.re ^^^ (h x.im <<< 1)

end Cx
end Pyincpp
