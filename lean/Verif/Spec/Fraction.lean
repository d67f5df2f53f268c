import Verif.Model.Fraction
import Verif.Spec.Int
import Mathlib.Algebra.Order.Floor.Ring
import Mathlib.RingTheory.Coprime.Basic

/-! # Specification of fractions: rational numbers -/

namespace Pyincpp
namespace Frac

/-- The rational number. -/
def val (x : Frac) : ℚ := (x.num : ℚ) / (x.den : ℚ)

/-- In lowest terms with positive denominator, both within `int`. -/
structure Valid (x : Frac) : Prop where
  pos : 0 < x.den
  coprime : IsCoprime x.num x.den
  num_le : |x.num| ≤ INT_MAX
  den_le : x.den ≤ INT_MAX

/-- `r` is the fraction `q` in lowest terms if `fits`, and a signed overflow otherwise. -/
def ExactIf (fits : Prop) (q : ℚ) (r : Res Frac) : Prop :=
  (fits → ∃ f, r = .ok f ∧ f.Valid ∧ f.val = q) ∧ (¬ fits → r = .ub .overflow)

/-- Rounding toward zero. -/
def truncQ (q : ℚ) : ℤ := if 0 ≤ q then ⌊q⌋ else ⌈q⌉

/-- `a` is an integer multiple of `g`. -/
def Multiple (a g : ℚ) : Prop := ∃ i : ℤ, a = i * g

/-- Greatest common divisor of two rationals, by divisibility; see `IsGcd.greatest`. -/
def IsGcd (g a b : ℚ) : Prop := 0 ≤ g ∧ Multiple a g ∧ Multiple b g ∧ ∀ h, Multiple a h → Multiple b h → Multiple g h

/-- Least common multiple of two rationals that are not zero. -/
def IsLcm (l a b : ℚ) : Prop := 0 < l ∧ Multiple l a ∧ Multiple l b ∧ ∀ m, 0 < m → Multiple m a → Multiple m b → l ≤ m

/-- Texts of fractions: an integer literal, or two with `/` between. -/
inductive Text : List UInt8 → Prop
  | int (t : List UInt8) (z : ℤ) : Literal t z → Text t
  | ratio (t t' : List UInt8) (z z' : ℤ) : Literal t z → Literal t' z' → Text (t ++ 47 :: t')

/-- Every sign is followed by a digit. -/
def SignsOk (w : List UInt8) : Prop := ∀ a c b, w = a ++ c :: b → c = 43 ∨ c = 45 → ∃ d b', b = d :: b' ∧ IsDigit d

/-- No number in the text exceeds `INT_MAX`. -/
def RangeOk (w : List UInt8) : Prop := ∀ a ds b, w = a ++ (ds ++ b) → (∀ c ∈ ds, IsDigit c) → (denoteNat ds : ℤ) ≤ INT_MAX

end Frac
end Pyincpp
