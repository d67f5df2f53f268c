import Verif.Model.Complex
import Mathlib.Analysis.SpecialFunctions.Complex.Arg
import Mathlib.Analysis.SpecialFunctions.Complex.Arctan
import Mathlib.Analysis.SpecialFunctions.Pow.Complex
import Mathlib.Analysis.SpecialFunctions.Pow.Real

/-! # Specification of complex numbers: exact arithmetic and Mathlib's complex numbers -/

namespace Pyincpp

/-- Exact arithmetic; `eps` is 2^-52. -/
noncomputable def Arith.real : Arith ℝ where
  zero := 0
  one := 1
  add := (· + ·)
  sub := (· - ·)
  mul := (· * ·)
  div := (· / ·)
  neg := (- ·)
  abs := (|·|)
  lt := (· < ·)
  ltDec _ _ := Classical.dec _
  eps := 1 / 2 ^ 52

/-- `atan2` by its definition in the C standard: the angle of the point `(x, y)`, between -π and π. -/
noncomputable def atan2 (y x : ℝ) : ℝ :=
  if 0 < x then Real.arctan (y / x)
  else if x < 0 then (if 0 ≤ y then Real.arctan (y / x) + Real.pi else Real.arctan (y / x) - Real.pi)
  else if 0 < y then Real.pi / 2 else if y < 0 then -(Real.pi / 2) else 0

/-- The exact functions. -/
noncomputable def CMath.real : CMath ℝ where
  hypot x y := √(x ^ 2 + y ^ 2)
  atan2 := Pyincpp.atan2
  pow := Real.rpow
  exp := Real.exp
  log := Real.log
  cos := Real.cos
  sin := Real.sin

namespace Cx

/-- The complex number. -/
def toC (x : Cx ℝ) : ℂ := ⟨x.re, x.im⟩

/-- Both components below 2^-52, which the code takes for zero. -/
def Tiny (x : Cx ℝ) : Prop := |x.re| < 1 / 2 ^ 52 ∧ |x.im| < 1 / 2 ^ 52

end Cx
end Pyincpp
