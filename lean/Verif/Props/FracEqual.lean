import Verif.Props.Fraction
import Verif.Proof.Decimal
import Verif.Proof.DoubleMore
import Mathlib.Data.Nat.Prime.Basic

/-! # C52, `==` of fractions: exactly when it is true -/

namespace Pyincpp
namespace Frac

variable {x y : Frac}

theorem finite_dyadic {p : ℚ} (h : Dbl.IsFinite p) : ∃ n : ℤ, p * 2 ^ 1074 = n := by
  have he : -1074 ≤ max (Int.log 2 |p|) (-1022) - 52 := by have := le_max_right (Int.log 2 |p|) (-1022); omega
  obtain ⟨k, hk⟩ := Int.eq_ofNat_of_zero_le (show 0 ≤ max (Int.log 2 |p|) (-1022) - 52 + 1074 by omega)
  refine ⟨Dbl.roundEven (p / Dbl.ulp p) * 2 ^ k, ?_⟩
  have e : p = Dbl.roundEven (p / Dbl.ulp p) * Dbl.ulp p := h.1.symm
  have hu : Dbl.ulp p * 2 ^ 1074 = 2 ^ k := by
    unfold Dbl.ulp
    rw [show max (Int.log 2 |p|) (-1022) - 52 = (k : ℤ) - 1074 by omega, ← zpow_natCast, ← zpow_natCast, ← zpow_add₀ (by norm_num)]
    norm_num
  push_cast
  rw [← hu, ← mul_assoc, ← e]

theorem val_small (hx : x.Valid) : |x.val| < 2 ^ 1024 - 2 ^ 970 := by
  have h : |x.val| < 2 ^ 31 := by
    unfold val
    have hn : |(x.num : ℚ)| ≤ 2147483647 := by exact_mod_cast hx.num_le
    have hd : (1 : ℚ) ≤ x.den := by exact_mod_cast hx.pos
    rw [abs_div, abs_of_pos hx.den_pos, div_lt_iff₀ hx.den_pos]
    linarith
  have h1 : (2 : ℚ) ^ 31 ≤ 2 ^ 970 := pow_le_pow_right₀ (by norm_num) (by norm_num)
  have h2 : (2 : ℚ) ^ 1024 = 2 ^ 970 * 2 ^ 54 := by rw [← pow_add]
  rw [h2]
  generalize (2 : ℚ) ^ 970 = c at h1
  linarith

/-- No fraction lies in the middle of two doubles. -/
theorem nearest_unique (hx : x.Valid) {d d' : Dbl} (h : NearestDouble x.val d) (h' : NearestDouble x.val d') : d = d' := by
  have hs := val_small hx
  cases h with
  | inf h => exact absurd hs (not_lt.2 h)
  | fin p hp hn hlt =>
    cases h' with
    | inf h => exact absurd hlt (not_lt.2 h)
    | fin q hq hn' _ =>
      by_contra hne
      have hpq : p ≠ q := fun e => hne (by rw [e])
      have hd : |p - x.val| = |q - x.val| := le_antisymm (hn q hq) (hn' p hp)
      have hmid : x.val = (p + q) / 2 := by
        rcases abs_eq_abs.1 hd with e | e
        · exact absurd (by linarith) hpq
        · linarith
      obtain ⟨a, ha⟩ := finite_dyadic hp
      obtain ⟨b, hb⟩ := finite_dyadic hq
      have hden : (x.den : ℤ) ∣ x.num * 2 ^ 1075 := by
        refine ⟨a + b, ?_⟩
        have : (x.num : ℚ) * 2 ^ 1075 = x.den * (a + b) := by
          rw [← ha, ← hb, ← add_mul, show p + q = 2 * x.val by rw [hmid]; ring]
          unfold val
          have := hx.den_ne
          rw [pow_succ]
          field_simp
        exact Int.cast_injective (α := ℚ) (by rw [Int.cast_mul, Int.cast_pow, Int.cast_mul, Int.cast_add, Int.cast_ofNat]; exact this)
      have hdvd : x.den ∣ 2 ^ 1075 := hx.coprime.symm.dvd_of_dvd_mul_left hden
      obtain ⟨j, -, hj⟩ := (Nat.dvd_prime_pow Nat.prime_two).1 (show x.den.toNat ∣ 2 ^ 1075 by
        rw [← Int.natCast_dvd_natCast, Int.toNat_of_nonneg hx.pos.le, Nat.cast_pow]
        exact hdvd)
      have hj' : x.den = 2 ^ j := by
        rw [← Int.toNat_of_nonneg hx.pos.le, hj]
        push_cast
        rfl
      have hj31 : j < 32 := by
        by_contra hc
        have h1 : (2 : ℤ) ^ 32 ≤ 2 ^ j := pow_le_pow_right₀ (by norm_num) (not_lt.1 hc)
        have h2 := hx.den_le
        unfold INT_MAX at h2
        omega
      have hv : x.val = x.num * 2 ^ (-j : ℤ) := by
        unfold val
        rw [hj', zpow_neg, zpow_natCast, div_eq_mul_inv]
        push_cast
        rfl
      have hfin : Dbl.IsFinite x.val := by
        refine ⟨?_, hs.trans (sub_lt_self _ (by positivity))⟩
        rw [hv]
        exact Dbl.rnd_rep (lt_of_le_of_lt hx.num_le (by unfold INT_MAX; norm_num)) (by omega)
      have e1 := hn _ hfin
      have e2 := hn' _ hfin
      rw [sub_self, abs_zero, abs_nonpos_iff, sub_eq_zero] at e1 e2
      exact hpq (e1.trans e2.symm)

/-- C52: what `==` of fractions says: that one and the same double is the nearest one to both values. -/
theorem C52_equal_exact (hx : x.Valid) (hy : y.Valid) : Frac.eq x y = true ↔ ∃ d, NearestDouble x.val d ∧ NearestDouble y.val d := by
  have near : ∀ {z : Frac}, z.Valid → NearestDouble z.val (.fin (Dbl.rnd z.val)) := fun {z} hz => by
    have h := Dbl.nearest_ofRat z.val
    unfold Dbl.ofRat at h
    rwa [if_neg fun hc => absurd (val_small hz) (not_lt.2 ((Dbl.big_iff _).1 hc))] at h
  rw [eq_rnd hx hy, decide_eq_true_iff]
  constructor
  · intro h
    exact ⟨_, near hx, h ▸ near hy⟩
  · rintro ⟨d, h1, h2⟩
    have e1 := nearest_unique hx h1 (near hx)
    have e2 := nearest_unique hy h2 (near hy)
    rw [e1] at e2
    exact Dbl.fin.inj e2

example : (⟨1, 3⟩ : Frac).Valid := ⟨by decide, isCoprime_one_left, by decide, by decide⟩

end Frac
end Pyincpp
