import Verif.Props.Fraction
import Verif.Proof.Decimal
import Verif.Proof.ComplexRounding
import Mathlib.Data.Nat.Prime.Basic

/-! # C78: a fraction as a `double` -/

namespace Pyincpp
open Frac

variable {x y : Frac}

/-- Nearest points of a set keep the order. -/
theorem nearest_mono {p q dp dq : ℚ} (h : p < q) (h1 : |dp - p| ≤ |dq - p|) (h2 : |dq - q| ≤ |dp - q|) : dp ≤ dq := by
  by_contra hc
  push Not at hc
  have a1 : dp - p ≤ |dq - p| := (le_abs_self _).trans h1
  have a2 : -(dq - q) ≤ |dp - q| := (neg_le_abs _).trans h2
  have a3 : -(dp - p) ≤ |dq - p| := (neg_le_abs _).trans h1
  have a4 : dq - q ≤ |dp - q| := (le_abs_self _).trans h2
  rcases le_total 0 (dq - p) with c1 | c1 <;> rcases le_total 0 (dp - q) with c2 | c2
  · rw [abs_of_nonneg c1] at a1 a3
    linarith
  · rw [abs_of_nonneg c1] at a1 a3
    linarith
  · rw [abs_of_nonpos c1] at a1 a3
    rw [abs_of_nonneg c2] at a2 a4
    linarith
  · rw [abs_of_nonpos c1] at a1 a3
    rw [abs_of_nonpos c2] at a2 a4
    linarith

theorem rnd_mono {p q : ℚ} (h : p ≤ q) : Dbl.rnd p ≤ Dbl.rnd q := by
  rcases h.eq_or_lt with rfl | h
  · exact le_rfl
  · exact nearest_mono h (Dbl.rnd_nearest _ _ (Dbl.rnd_idem _)) (Dbl.rnd_nearest _ _ (Dbl.rnd_idem _))

theorem val_abs_le (h : x.Valid) : |x.val| ≤ INT_MAX := by
  unfold Frac.val
  have hd1 : (1 : ℚ) ≤ x.den := by exact_mod_cast h.pos
  rw [abs_div, abs_of_pos h.den_pos, div_le_iff₀ h.den_pos]
  have : |(x.num : ℚ)| ≤ INT_MAX := by exact_mod_cast h.num_le
  have hI : (0 : ℚ) ≤ INT_MAX := by unfold INT_MAX; norm_num
  nlinarith

/-- C78: `double(x)` is finite, no `double` is nearer to the fraction, and it is off by at most `2^-53` of it. -/
theorem C78_nearest (hx : x.Valid) : ∃ d, x.toDouble = .fin d ∧ Dbl.IsFinite d ∧ (∀ p, Dbl.IsFinite p → |d - x.val| ≤ |p - x.val|) ∧
    |d - x.val| ≤ |x.val| / 2 ^ 53 := by
  refine ⟨Dbl.rnd x.val, toDouble_eq hx, ⟨Dbl.rnd_idem _, ?_⟩, fun p hp => Dbl.rnd_nearest _ _ hp.1, ?_⟩
  · have h1 := rnd_mono (abs_le.1 (val_abs_le hx)).1
    have h2 := rnd_mono (abs_le.1 (val_abs_le hx)).2
    have e : Dbl.rnd (INT_MAX : ℚ) = INT_MAX := by
      have := Dbl.rnd_rep (m := INT_MAX) (e := 0) (by decide) (by norm_num)
      simpa using this
    rw [Dbl.rnd_neg, e] at h1
    rw [e] at h2
    refine lt_of_le_of_lt (abs_le.2 ⟨h1, h2⟩) (lt_of_lt_of_le (?_ : (INT_MAX : ℚ) < 2 ^ 31) ?_)
    · rw [INT_MAX]; norm_num
    · exact pow_le_pow_right₀ (by norm_num) (by norm_num)
  · by_cases h0 : x.val = 0
    · rw [h0, Dbl.rnd_zero]; simp
    · exact Dbl.rnd_rel (toDouble_eq.val_ge hx h0)

/-- C78: the conversion keeps the order, and zero only becomes zero. -/
theorem C78_order (hx : x.Valid) (hy : y.Valid) :
    ∃ d e, x.toDouble = .fin d ∧ y.toDouble = .fin e ∧ (x.val ≤ y.val → d ≤ e) ∧ (d = 0 ↔ x.val = 0) :=
  ⟨_, _, toDouble_eq hx, toDouble_eq hy, rnd_mono, by rw [rnd_val_eq_zero hx, hx.val_eq_zero]⟩

theorem den_pow {q : ℚ} {k : ℤ} {n : ℕ} (h : q = k * 2 ^ (-(n : ℤ))) : ∃ j : ℕ, (q.den : ℤ) = 2 ^ j := by
  have hd : (q.den : ℤ) ∣ 2 ^ n := by
    have : q = (k : ℚ) / ((2 ^ n : ℤ) : ℚ) := by
      rw [h, zpow_neg, div_eq_mul_inv, zpow_natCast]
      push_cast
      rfl
    rw [this, ← Rat.divInt_eq_div]
    exact Rat.den_dvd k (2 ^ n)
  have hn : q.den ∣ 2 ^ n := by exact_mod_cast hd
  obtain ⟨j, -, hj⟩ := (Nat.dvd_prime_pow Nat.prime_two).1 hn
  exact ⟨j, by exact_mod_cast hj⟩

/-- C78: the conversion is exact precisely for the fractions whose denominator is a power of two. -/
theorem C78_exact (hx : x.Valid) : x.toDouble = .fin x.val ↔ ∃ k : ℕ, x.den = 2 ^ k := by
  rw [toDouble_eq hx, Dbl.fin.injEq]
  have hc : x.num.natAbs.Coprime x.den.natAbs := Int.isCoprime_iff_gcd_eq_one.1 hx.coprime
  have e2 : (x.val.den : ℤ) = x.den := Rat.den_div_eq_of_coprime hx.pos hc
  constructor
  · intro h
    obtain ⟨k, hk⟩ := Dbl.exists_mul h
    obtain ⟨j, hj⟩ := den_pow (n := 1074) hk
    rw [e2] at hj
    exact ⟨j, hj⟩
  · rintro ⟨k, hk⟩
    have hk31 : k < 31 := by
      by_contra hc
      have h1 : (2 : ℤ) ^ 31 ≤ 2 ^ k := pow_le_pow_right₀ (by norm_num) (not_lt.1 hc)
      have := hx.den_le
      rw [hk, INT_MAX] at this
      linarith
    have hv : x.val = (x.num : ℚ) * 2 ^ (-(k : ℤ)) := by
      unfold Frac.val
      rw [hk, zpow_neg, div_eq_mul_inv]
      push_cast
      simp
    rw [hv]
    refine Dbl.rnd_rep (lt_of_le_of_lt hx.num_le ?_) (by omega)
    rw [INT_MAX]; norm_num

example : (⟨3, 8⟩ : Frac).toDouble = .fin (3 / 8) ∧ (⟨1, 3⟩ : Frac).toDouble = .fin (6004799503160661 / 2 ^ 54) ∧
    (⟨3, 8⟩ : Frac).Valid :=
  ⟨by decide +kernel, by decide +kernel, by decide, by rw [Int.isCoprime_iff_gcd_eq_one]; decide, by decide, by decide⟩

end Pyincpp
