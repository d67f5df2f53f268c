import Verif.Model.FracProgram
import Verif.Spec.Fraction
import Verif.Spec.IntProgram

/-! # Meaning of the programs on rational numbers -/

namespace Pyincpp

/-- The binary operators; `none` = division by zero. The remainder is that of division rounded toward zero. -/
def Frac.Op.math : Frac.Op → ℚ → ℚ → Option ℚ
  | .add, x, y => some (x + y)
  | .sub, x, y => some (x - y)
  | .mul, x, y => some (x * y)
  | .div, x, y => if y = 0 then none else some (x / y)
  | .mod, x, y => if y = 0 then none else some (x - y * Frac.truncQ (x / y))

namespace FracOp

def qstore (σ : ℕ → ℚ) (i : ℕ) : Option ℚ → (ℕ → ℚ)
  | some z => upd σ i z
  | none => σ

/-- One statement on rational numbers. -/
inductive Math : FracOp → (ℕ → ℚ) → (ℕ → ℚ) → Prop
  | make {i n d σ} : Math (.make i n d) σ (qstore σ i (if d = 0 then none else some ((n : ℚ) / d)))
  | copy {i j σ} : Math (.copy i j) σ (upd σ i (σ j))
  | move {i j σ} : Math (.move i j) σ (upd (upd σ i (σ j)) j 0)
  | bin {o i j l σ} : Math (.bin o i j l) σ (qstore σ i (o.math (σ j) (σ l)))
  | assign {o i j σ} : Math (.assign o i j) σ (qstore σ i (o.math (σ i) (σ j)))
  | inc {i σ} : Math (.inc i) σ (upd σ i (σ i + 1))
  | dec {i σ} : Math (.dec i) σ (upd σ i (σ i - 1))
  | neg {i j σ} : Math (.neg i j) σ (upd σ i (-σ j))
  | abs {i j σ} : Math (.abs i j) σ (upd σ i |σ j|)
  | gcd {i j l σ g} : Frac.IsGcd g (σ j) (σ l) → Math (.gcd i j l) σ (upd σ i g)
  | lcm {i j l σ m} : σ j ≠ 0 → σ l ≠ 0 → Frac.IsLcm m (σ j) (σ l) → Math (.lcm i j l) σ (upd σ i m)
  | lcmZero {i j l σ} : σ j = 0 ∨ σ l = 0 → Math (.lcm i j l) σ (upd σ i 0)
  | less {j l σ} : Math (.less j l) σ σ

/-- A whole program on rational numbers. -/
inductive MathRun : List FracOp → (ℕ → ℚ) → (ℕ → ℚ) → Prop
  | nil {σ} : MathRun [] σ σ
  | cons {o os σ σ₁ σ₂} : o.Math σ σ₁ → MathRun os σ₁ σ₂ → MathRun (o :: os) σ σ₂

/-- Numerator and denominator of `q` in lowest terms are at most `b`. -/
def Small (b : ℕ) (q : ℚ) : Prop := q.num.natAbs ≤ b ∧ q.den ≤ b

/-- The operands of the statement are small: 32767 for the arithmetic operators and the comparison, 215 for `gcd` and 35 for `lcm`. -/
def Fits (σ : ℕ → ℚ) : FracOp → Prop
  | .make _ n d => (n.natAbs : ℤ) ≤ INT_MAX ∧ (d.natAbs : ℤ) ≤ INT_MAX
  | .bin _ _ j l => Small 32767 (σ j) ∧ Small 32767 (σ l)
  | .assign _ i j => Small 32767 (σ i) ∧ Small 32767 (σ j)
  | .inc i => Small 32767 (σ i)
  | .dec i => Small 32767 (σ i)
  | .gcd _ j l => Small 215 (σ j) ∧ Small 215 (σ l)
  | .lcm _ j l => Small 35 (σ j) ∧ Small 35 (σ l)
  | .less j l => Small 32767 (σ j) ∧ Small 32767 (σ l)
  | _ => True

/-- A whole program on rational numbers, all of whose statements have small operands. -/
inductive FitRun : List FracOp → (ℕ → ℚ) → (ℕ → ℚ) → Prop
  | nil {σ} : FitRun [] σ σ
  | cons {o os σ σ₁ σ₂} : o.Fits σ → o.Math σ σ₁ → FitRun os σ₁ σ₂ → FitRun (o :: os) σ σ₂

/-- The arguments of the constructors are `int`s. -/
def Typed : FracOp → Prop
  | .make _ n d => IsInt n ∧ IsInt d
  | _ => True

end FracOp
end Pyincpp
