import Verif.Model.Complex

/-! # Expressions of complex numbers: programs of a user that call the operators of Complex on doubles -/

namespace Pyincpp

inductive CxExpr
  | val (a b : ℚ)
  | add (x y : CxExpr)
  | sub (x y : CxExpr)
  | mul (x y : CxExpr)
  | div (x y : CxExpr)

/-- The value the program computes (complex.hpp:157-181 the operators). -/
def CxExpr.eval : CxExpr → Res (Cx Dbl)
  | .val a b => .ok ⟨.fin a, .fin b⟩
  | .add x y => do
    let a ← x.eval
    let b ← y.eval
    .ok (Cx.add Arith.double a b)
  | .sub x y => do
    let a ← x.eval
    let b ← y.eval
    .ok (Cx.sub Arith.double a b)
  | .mul x y => do
    let a ← x.eval
    let b ← y.eval
    .ok (Cx.mul Arith.double a b)
  | .div x y => do
    let a ← x.eval
    let b ← y.eval
    Cx.div Arith.double a b

/-- `for (const auto& x : xs) s += x;` (complex.hpp:111-114). -/
def Cx.sum (s : Cx Dbl) (xs : List (ℚ × ℚ)) : Cx Dbl := xs.foldl (fun s x => Cx.add Arith.double s ⟨.fin x.1, .fin x.2⟩) s

/-- `for (const auto& x : xs) s *= x;` (complex.hpp:123-126). -/
def Cx.product (s : Cx Dbl) (xs : List (ℚ × ℚ)) : Cx Dbl := xs.foldl (fun s x => Cx.mul Arith.double s ⟨.fin x.1, .fin x.2⟩) s

end Pyincpp
