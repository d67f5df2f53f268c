import Verif.Spec.FracProgram

/-! # When the operations of `Fraction` overflow

Said about the rational numbers alone: `q.num` and `q.den` are numerator and denominator in lowest terms. -/

namespace Pyincpp
namespace Frac

/-- The `int` operations of a binary operator stay in range. Division by zero is noticed in time. -/
def Op.Fit : Op → ℚ → ℚ → Prop
  | .add, a, b => IsInt (a.num * b.den) ∧ IsInt (a.den * b.num) ∧ |a.num * b.den + a.den * b.num| ≤ INT_MAX ∧ (a.den * b.den : ℤ) ≤ INT_MAX
  | .sub, a, b => IsInt (a.num * b.den) ∧ IsInt (a.den * b.num) ∧ |a.num * b.den - a.den * b.num| ≤ INT_MAX ∧ (a.den * b.den : ℤ) ≤ INT_MAX
  | .mul, a, b => |a.num * b.num| ≤ INT_MAX ∧ (a.den * b.den : ℤ) ≤ INT_MAX
  | .div, a, b => b = 0 ∨ |a.num * b.den| ≤ INT_MAX ∧ |a.den * b.num| ≤ INT_MAX
  | .mod, a, b => b = 0 ∨ IsInt (a.num * b.den) ∧ IsInt (b.num * a.den) ∧ ¬ (a.num * b.den = INT_MIN ∧ b.num * a.den = -1) ∧
      (a.den * b.den : ℤ) ≤ INT_MAX

/-- The remainders of Euclid's algorithm on `a` and `b` stay in range. -/
inductive EuclidFit : ℚ → ℚ → Prop
  | done {a} : EuclidFit a 0
  | step {a b} : b ≠ 0 → Op.Fit .mod a b → EuclidFit b (a - b * truncQ (a / b)) → EuclidFit a b

/-- `gcd` stays in range. -/
def GcdFit (a b : ℚ) : Prop := EuclidFit |a| |b|

/-- `lcm` stays in range: the product, the greatest common divisor and the quotient do. -/
def LcmFit (a b : ℚ) : Prop := a = 0 ∨ b = 0 ∨ (Op.Fit .mul a b ∧ GcdFit a b ∧ ∀ g, IsGcd g a b → Op.Fit .div |a * b| g)

/-- A comparison stays in range. -/
def LessFit (a b : ℚ) : Prop := IsInt (a.num * b.den) ∧ IsInt (a.den * b.num) ∧ IsInt (a.num * b.den - a.den * b.num)

end Frac

namespace FracOp
open Frac

/-- The `int` operations of a statement stay in range. -/
def Fit (σ : ℕ → ℚ) : FracOp → Prop
  | .make _ n d => d = 0 ∨ (n ≠ INT_MIN ∧ d ≠ INT_MIN)
  | .bin o _ j l => Op.Fit o (σ j) (σ l)
  | .assign o i j => Op.Fit o (σ i) (σ j)
  | .inc i => Op.Fit .add (σ i) 1
  | .dec i => Op.Fit .sub (σ i) 1
  | .gcd _ j l => GcdFit (σ j) (σ l)
  | .lcm _ j l => LcmFit (σ j) (σ l)
  | .less j l => LessFit (σ j) (σ l)
  | .copy _ _ | .move _ _ | .neg _ _ | .abs _ _ => True

/-- A whole program on rational numbers, all of whose statements stay in range. -/
inductive ExactRun : List FracOp → (ℕ → ℚ) → (ℕ → ℚ) → Prop
  | nil {σ} : ExactRun [] σ σ
  | cons {o os σ σ₁ σ₂} : o.Fit σ → o.Math σ σ₁ → ExactRun os σ₁ σ₂ → ExactRun (o :: os) σ σ₂

end FracOp
end Pyincpp
