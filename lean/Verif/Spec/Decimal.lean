import Verif.Model.Double
import Verif.Spec.Str

/-! # What `to_decimal` should give: the double nearest to the number written -/

namespace Pyincpp

/-- `to_decimal` (str.hpp:276-388) over IEEE 754 doubles; `pow` is `std::pow(10, ·)`, about which only the contracts below
are assumed. -/
def dblOps (pow : Dbl → Dbl) : Str.DoubleOps Dbl where
  ofInt := Dbl.ofInt
  mul := Dbl.mul
  div := Dbl.div
  add := Dbl.add
  pow10 := pow
  inf := .inf false
  negInf := .inf true
  nan := .nan

/-- `std::pow(10, n)` is exact where `10^n` is a double. -/
def PowExact (pow : Dbl → Dbl) : Prop := ∀ n : ℕ, n ≤ 22 → pow (.fin n) = .fin (10 ^ n)

/-- `std::pow(10, n)` is the double nearest to `10^n` (an infinity beyond the range). -/
def PowNear (pow : Dbl → Dbl) : Prop := ∀ n : ℤ, pow (.fin n) = Dbl.ofRat (10 ^ n)

/-- The number that the parts of a decimal text denote: `σ * ds.fs * 10^(τ es)`. -/
def written (σ : Int) (ds fs : List UInt8) (τ : Int) (es : List UInt8) : ℚ :=
  σ * (numeralIn 10 (ds ++ fs) : ℚ) / 10 ^ fs.length * (10 : ℚ) ^ (τ * (numeralIn 10 es : Nat))

/-- `x` is the double nearest to `v`: a finite double at the smallest distance, or an infinity from the middle between the
largest double and `2^1024` on. -/
inductive NearestDouble (v : ℚ) : Dbl → Prop
  | fin (x : ℚ) : Dbl.IsFinite x → (∀ p, Dbl.IsFinite p → |x - v| ≤ |p - v|) →
      |v| < 2 ^ 1024 - 2 ^ 970 → NearestDouble v (.fin x)
  | inf : 2 ^ 1024 - 2 ^ 970 ≤ |v| → NearestDouble v (.inf (decide (v < 0)))

end Pyincpp
