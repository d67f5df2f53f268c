import Verif.Model.Int
import Mathlib.Data.Rat.Floor
import Mathlib.Tactic.IntervalCases
import Mathlib.Tactic.NormNum
import Mathlib.Tactic.Linarith

/-! # `floor_div` through `double`

`floor_div(a, b)` (int.hpp:117-120) is `std::floor(double(a) / double(b))`, the model uses the exact floor. Here is why
that loses nothing: `operator-=` calls it only with `-10 ≤ a ≤ 9` and `b = 10`, and every rounding function that is
monotone and keeps the four representable numbers 0, 15/16, -1/16 and -1 gives the same floor. -/

namespace Pyincpp

theorem floorDiv_double (rnd : ℚ → ℚ) (hmono : ∀ x y, x ≤ y → rnd x ≤ rnd y) (h0 : rnd 0 = 0)
    (h1 : rnd (15 / 16) = 15 / 16) (h2 : rnd (-1 / 16) = -1 / 16) (h3 : rnd (-1) = -1)
    (a : ℤ) (ha : -10 ≤ a) (ha' : a ≤ 9) : ⌊rnd ((a : ℚ) / 10)⌋ = BInt.floorDiv a 10 := by
  have hfd : BInt.floorDiv a 10 = if a < 0 then -1 else 0 := by
    unfold BInt.floorDiv
    rw [Int.fdiv_eq_ediv_of_nonneg _ (by norm_num)]
    split <;> omega
  rw [hfd, Int.floor_eq_iff]
  by_cases h : a < 0
  · have hq : (a : ℚ) ≤ -1 := by exact_mod_cast (by omega : a ≤ -1)
    have hq' : (-10 : ℚ) ≤ a := by exact_mod_cast ha
    have m1 := hmono (-1) ((a : ℚ) / 10) (by linarith)
    have m2 := hmono ((a : ℚ) / 10) (-1 / 16) (by linarith)
    rw [h3] at m1; rw [h2] at m2
    simp only [h, if_true]
    push_cast
    constructor <;> linarith
  · have hq : (0 : ℚ) ≤ a := by exact_mod_cast (by omega : 0 ≤ a)
    have hq' : (a : ℚ) ≤ 9 := by exact_mod_cast ha'
    have m1 := hmono 0 ((a : ℚ) / 10) (by linarith)
    have m2 := hmono ((a : ℚ) / 10) (15 / 16) (by linarith)
    rw [h0] at m1; rw [h1] at m2
    simp only [h, if_false]
    push_cast
    constructor <;> linarith

-- the identity (infinite precision) meets the hypotheses
example : ⌊(fun q : ℚ => q) (((-3 : ℤ) : ℚ) / 10)⌋ = BInt.floorDiv (-3) 10 :=
  floorDiv_double (fun q => q) (fun _ _ h => h) rfl rfl rfl rfl (-3) (by norm_num) (by norm_num)

end Pyincpp
