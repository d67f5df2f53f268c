import Verif.Props.Fraction
import Verif.Props.Compare

/-! # C66: hashing

`Int`: C10; `Complex`: C57. -/

namespace Pyincpp
open Frac

/-- C66: fractions with the same value have the same hash, whatever the hash of `int` is. Missing: fractions that only compare equal
(`C66_fraction_not`). -/
theorem C66_fraction_partial {x y : Frac} (hx : x.Valid) (hy : y.Valid) :
    (x.val = y.val → ∀ h, Frac.hash h x = Frac.hash h y) ∧
    (|x.num| * y.den + |y.num| * x.den < 2 ^ 53 → Frac.eq x y = true → ∀ h, Frac.hash h x = Frac.hash h y) := by
  have key : x.val = y.val → ∀ h, Frac.hash h x = Frac.hash h y := fun e h => by rw [hx.ext hy e]
  refine ⟨key, fun hb he => key ?_⟩
  rw [(C52_equal_partial hx hy).2 hb] at he
  exact of_decide_eq_true he

example : (⟨3, 7⟩ : Frac).Valid ∧ |(3 : ℤ)| * 7 + |(3 : ℤ)| * 7 < 2 ^ 53 :=
  ⟨⟨by decide, by rw [Int.isCoprime_iff_gcd_eq_one]; decide, by decide, by decide⟩, by decide⟩

/-- C66 fails for fractions: two that compare equal have different hashes, with the identity as hash of `int` (libstdc++). -/
theorem C66_fraction_not : ∃ x y : Frac, x.Valid ∧ y.Valid ∧ Frac.eq x y = true ∧
    Frac.hash (BitVec.ofInt 64) x ≠ Frac.hash (BitVec.ofInt 64) y := by
  have hx : (⟨2147483647, 2147483646⟩ : Frac).Valid :=
    ⟨by decide, by rw [Int.isCoprime_iff_gcd_eq_one]; decide +kernel, by decide, by decide⟩
  have hy : (⟨2147483646, 2147483645⟩ : Frac).Valid :=
    ⟨by decide, by rw [Int.isCoprime_iff_gcd_eq_one]; decide +kernel, by decide, by decide⟩
  exact ⟨_, _, hx, hy, by decide +kernel, by decide +kernel⟩

/-- C66: equal strings have the same hash, whatever the hash of `std::string` is; and if that separates two strings, so does
this one. -/
theorem C66_str (h : List UInt8 → BitVec 64) (s t : List UInt8) :
    (Str.eq s t = .ok true → Str.hash h s = Str.hash h t) ∧ (h s ≠ h t → Str.hash h s ≠ Str.hash h t) := by
  refine ⟨fun e => ?_, fun hne => hne⟩
  rw [(C64_str s t).2.2.2.2] at e
  rw [of_decide_eq_true (Res.ok.inj e)]

example : Str.eq [97, 98] [97, 98] = .ok true := by decide

end Pyincpp
