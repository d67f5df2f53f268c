import Verif.Spec.ComplexStream

/-! # Six significant digits -/

namespace Pyincpp

/-- `d` is a decimal number with at most six significant digits. -/
def Sig6 (d : ℚ) : Prop := ∃ m e : ℤ, |m| < 1000000 ∧ d = m * 10 ^ e

/-- `d` is a nearest such number to `q`. -/
def Nearest6 (q d : ℚ) : Prop := Sig6 d ∧ ∀ p, Sig6 p → |d - q| ≤ |p - q|

end Pyincpp
