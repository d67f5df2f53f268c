import Verif.Model.CxExpr
import Mathlib.Analysis.Complex.Norm

/-! # The value of an expression of complex numbers, and a bound of the error that can be computed along with it -/

namespace Pyincpp
namespace CxExpr

/-- The value in the complex numbers. -/
noncomputable def exact : CxExpr → ℂ
  | .val a b => ⟨a, b⟩
  | .add x y => x.exact + y.exact
  | .sub x y => x.exact - y.exact
  | .mul x y => x.exact * y.exact
  | .div x y => x.exact / y.exact

/-- The bound: the errors of the operands as they are passed on by the operation, and the error of the operation itself. -/
noncomputable def bound : CxExpr → ℝ
  | .val _ _ => 0
  | .add x y => x.bound + y.bound + 1 / 2 ^ 53 * (‖x.exact + y.exact‖ + x.bound + y.bound)
  | .sub x y => x.bound + y.bound + 1 / 2 ^ 53 * (‖x.exact - y.exact‖ + x.bound + y.bound)
  | .mul x y => x.bound * ‖y.exact‖ + ‖x.exact‖ * y.bound + x.bound * y.bound +
      6 / 2 ^ 53 * ((‖x.exact‖ + x.bound) * (‖y.exact‖ + y.bound)) + 2 ^ (-1072 : ℤ)
  | .div x y => (x.bound + ‖x.exact / y.exact‖ * y.bound) / (‖y.exact‖ - y.bound) +
      18 / 2 ^ 53 * ((‖x.exact‖ + x.bound) / (‖y.exact‖ - y.bound)) + 2 ^ (-967 : ℤ)

/-- Nothing is too large, and no divisor is too small. -/
def Safe : CxExpr → Prop
  | .val a b => Dbl.IsFinite a ∧ Dbl.IsFinite b
  | .add x y => x.Safe ∧ y.Safe ∧ ‖x.exact + y.exact‖ + x.bound + y.bound ≤ 2 ^ 1023
  | .sub x y => x.Safe ∧ y.Safe ∧ ‖x.exact - y.exact‖ + x.bound + y.bound ≤ 2 ^ 1023
  | .mul x y => x.Safe ∧ y.Safe ∧ ‖x.exact‖ + x.bound ≤ 2 ^ 500 ∧ ‖y.exact‖ + y.bound ≤ 2 ^ 500
  | .div x y => x.Safe ∧ y.Safe ∧ ‖x.exact‖ + x.bound ≤ 2 ^ 500 ∧ ‖y.exact‖ + y.bound ≤ 2 ^ 500 ∧ 2 / 2 ^ 52 ≤ ‖y.exact‖ - y.bound

end CxExpr
end Pyincpp
