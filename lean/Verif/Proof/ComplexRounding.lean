import Verif.Proof.DoubleMore

/-! # Rounding errors of sums and quotients of products -/

namespace Pyincpp
namespace Dbl

/-- Half the smallest positive double. -/
def eta : ℚ := 2 ^ (-1075 : ℤ)

theorem eta_pos : 0 < eta := zpow_pos (by norm_num) _

theorem rnd_abs_err (q : ℚ) : |rnd q - q| ≤ u * |q| + eta := by
  by_cases h : (2 : ℚ) ^ (-1022 : ℤ) ≤ |q|
  · have h1 := rnd_rel h
    have e : |q| / 2 ^ 53 = u * |q| := by unfold u; ring
    rw [e] at h1
    linarith [eta_pos]
  · have hun : 0 ≤ u * |q| := mul_nonneg u_pos.le (abs_nonneg q)
    by_cases h0 : q = 0
    · rw [h0, rnd_zero]; simpa using eta_pos.le
    · have h1 := rnd_err q
      have h2 : ulp q = 2 ^ (-1074 : ℤ) := by
        unfold ulp
        rw [max_eq_right (log_lt h0 (not_le.1 h)).le]; norm_num
      have h3 : (2 : ℚ) ^ (-1074 : ℤ) = eta * 2 := by
        unfold eta
        rw [show (-1074 : ℤ) = -1075 + 1 by norm_num, zpow_add₀ (by norm_num)]; norm_num
      rw [h2, h3] at h1
      linarith

/-- A double is a multiple of the smallest one. -/
theorem exists_mul {p : ℚ} (hp : rnd p = p) : ∃ k : ℤ, p = k * 2 ^ (-1074 : ℤ) := by
  obtain ⟨e, he, hu, -⟩ := ulp_eq_zpow p
  refine ⟨roundEven (p / ulp p) * 2 ^ (e + 1074).toNat, ?_⟩
  conv => lhs; rw [← hp]
  unfold rnd
  rw [hu]
  push_cast
  have e1 : (2 : ℚ) ^ (e + 1074).toNat = 2 ^ (e + 1074) := by
    rw [← zpow_natCast, Int.toNat_of_nonneg (by omega)]
  rw [e1, mul_assoc, ← zpow_add₀ (by norm_num)]
  congr 2
  ring

/-- The sum of two doubles has no underflow. -/
theorem rnd_sum {p q : ℚ} (hp : rnd p = p) (hq : rnd q = q) : |rnd (p + q) - (p + q)| ≤ u * |p + q| := by
  by_cases h : (2 : ℚ) ^ (-1022 : ℤ) ≤ |p + q|
  · have h1 := rnd_rel h
    have e : |p + q| / 2 ^ 53 = u * |p + q| := by unfold u; ring
    rwa [e] at h1
  · obtain ⟨k, hk⟩ := exists_mul hp
    obtain ⟨l, hl⟩ := exists_mul hq
    have hs : p + q = ((k + l : ℤ) : ℚ) * 2 ^ (-1074 : ℤ) := by rw [hk, hl]; push_cast; ring
    have hlt : |k + l| < 2 ^ 53 := by
      have h1 := not_le.1 h
      have e : (2 : ℚ) ^ (-1022 : ℤ) = 2 ^ (52 : ℕ) * 2 ^ (-1074 : ℤ) := by
        rw [← zpow_natCast, ← zpow_add₀ (by norm_num)]; norm_num
      have hpos : (0 : ℚ) < 2 ^ (-1074 : ℤ) := zpow_pos (by norm_num) _
      rw [hs, abs_mul, abs_of_pos hpos, e] at h1
      have h2 := lt_of_mul_lt_mul_right h1 hpos.le
      have h3 : |k + l| < 2 ^ 52 := by
        rw [← Int.cast_abs] at h2; exact_mod_cast h2
      omega
    have := rnd_rep hlt (le_refl (-1074))
    rw [← hs] at this
    rw [this, sub_self, abs_zero]
    exact mul_nonneg u_pos.le (abs_nonneg _)

theorem rnd_diff {p q : ℚ} (hp : rnd p = p) (hq : rnd q = q) : |rnd (p - q) - (p - q)| ≤ u * |p - q| := by
  rw [sub_eq_add_neg p q]
  exact rnd_sum hp (by rw [rnd_neg, hq])

theorem u_small : u ≤ 1 / 10000 := by unfold u; norm_num

/-- A rounded sum of two rounded numbers. -/
theorem rnd_rnd_sum (p q : ℚ) : |rnd (rnd p + rnd q) - (p + q)| ≤ (2 * u + u ^ 2) * (|p| + |q|) + 3 * eta := by
  have h1 := rnd_abs_err p
  have h2 := rnd_abs_err q
  have h3 := rnd_sum (rnd_idem p) (rnd_idem q)
  have hu := u_pos
  have hus := u_small
  have he := eta_pos
  have h4 : |rnd p + rnd q - (p + q)| ≤ u * (|p| + |q|) + 2 * eta := by
    have : rnd p + rnd q - (p + q) = (rnd p - p) + (rnd q - q) := by ring
    rw [this]
    have := abs_add_le (rnd p - p) (rnd q - q)
    linarith
  have h5 : |rnd p + rnd q| ≤ (1 + u) * (|p| + |q|) + 2 * eta := by
    have h := abs_add_le (rnd p + rnd q - (p + q)) (p + q)
    rw [sub_add_cancel] at h
    have := abs_add_le p q
    linarith
  have h6 : |rnd (rnd p + rnd q) - (p + q)| ≤ |rnd (rnd p + rnd q) - (rnd p + rnd q)| + |rnd p + rnd q - (p + q)| :=
    abs_sub_le _ _ _
  have h7 : u * |rnd p + rnd q| ≤ u * ((1 + u) * (|p| + |q|) + 2 * eta) := mul_le_mul_of_nonneg_left h5 hu.le
  have h8 : u * eta ≤ 1 / 10000 * eta := mul_le_mul_of_nonneg_right hus he.le
  have h9 : u * ((1 + u) * (|p| + |q|) + 2 * eta) = (u + u ^ 2) * (|p| + |q|) + 2 * (u * eta) := by ring
  nlinarith

theorem rnd_rnd_diff (p q : ℚ) : |rnd (rnd p - rnd q) - (p - q)| ≤ (2 * u + u ^ 2) * (|p| + |q|) + 3 * eta := by
  have h := rnd_rnd_sum p (-q)
  rw [rnd_neg, abs_neg, ← sub_eq_add_neg, ← sub_eq_add_neg] at h
  exact h

/-- The error of a rounded quotient of approximations. -/
theorem rnd_quot {M N D N' D' : ℚ} (hM : |N| ≤ M) (hN : |N' - N| ≤ 3 * u * M + 3 * eta) (hD0 : 0 < D)
    (hD : |D' - D| ≤ 3 * u * D) :
    |N' / D'| ≤ 2 * (M / D) + 4 * (eta / D) ∧ |rnd (N' / D') - N / D| ≤ 9 * u * (M / D) + 5 * (eta / D) + eta := by
  have hu := u_pos
  have hus := u_small
  have he := eta_pos
  have hM0 : 0 ≤ M := (abs_nonneg N).trans hM
  have hD1 := (_root_.abs_le.1 hD).1
  have hD2 : D * (1 - 3 * u) ≤ D' := by linarith
  have hD2' : D * (999 / 1000) ≤ D' := by nlinarith
  have hD' : 0 < D' := lt_of_lt_of_le (by positivity) hD2'
  set m := M / D with hm
  set t := eta / D with ht
  have hm0 : 0 ≤ m := div_nonneg hM0 hD0.le
  have ht0 : 0 ≤ t := div_nonneg he.le hD0.le
  have eM : M = m * D := by rw [hm, div_mul_cancel₀ _ hD0.ne']
  have eE : eta = t * D := by rw [ht, div_mul_cancel₀ _ hD0.ne']
  have hq : |N' / D' - N / D| ≤ 7 * u * m + 4 * t := by
    have e : N' / D' - N / D = ((N' - N) + (N / D) * (D - D')) / D' := by field_simp; ring
    rw [e, abs_div, abs_of_pos hD', div_le_iff₀ hD']
    have h1 : |N / D| ≤ m := by
      rw [abs_div, abs_of_pos hD0, hm]; exact div_le_div_of_nonneg_right hM hD0.le
    have h2 : |N / D * (D - D')| ≤ m * (3 * u * D) := by
      rw [abs_mul, abs_sub_comm D]
      exact mul_le_mul h1 hD (abs_nonneg _) hm0
    have h3 := abs_add_le (N' - N) (N / D * (D - D'))
    have h4 : |N' - N + N / D * (D - D')| ≤ (6 * u * m + 3 * t) * D := by
      have : 3 * u * M + 3 * eta = 3 * u * (m * D) + 3 * (t * D) := by rw [← eM, ← eE]
      linarith
    refine h4.trans ?_
    have h5 : (7 * u * m + 4 * t) * (D * (999 / 1000)) ≤ (7 * u * m + 4 * t) * D' :=
      mul_le_mul_of_nonneg_left hD2' (by positivity)
    refine le_trans ?_ h5
    have h6 : 0 ≤ u * m * D := by positivity
    have h7 : 0 ≤ t * D := by positivity
    linarith
  have hNDm : |N / D| ≤ m := by
    rw [abs_div, abs_of_pos hD0, hm]; exact div_le_div_of_nonneg_right hM hD0.le
  have hqa : |N' / D'| ≤ m + (7 * u * m + 4 * t) := by
    have h := abs_add_le (N' / D' - N / D) (N / D)
    rw [sub_add_cancel] at h
    linarith
  have hum : u * m ≤ 1 / 10000 * m := mul_le_mul_of_nonneg_right hus hm0
  constructor
  · linarith
  · have h1 := rnd_abs_err (N' / D')
    have h2 : |rnd (N' / D') - N / D| ≤ |rnd (N' / D') - N' / D'| + |N' / D' - N / D| := abs_sub_le _ _ _
    have h3 : u * |N' / D'| ≤ u * (m + (7 * u * m + 4 * t)) := mul_le_mul_of_nonneg_left hqa hu.le
    have h4 : u * (m + (7 * u * m + 4 * t)) = u * m + 7 * (u * (u * m)) + 4 * (u * t) := by ring
    have h5 : u * (u * m) ≤ 1 / 10000 * (u * m) := mul_le_mul_of_nonneg_right hus (by positivity)
    have h6 : u * t ≤ 1 / 10000 * t := mul_le_mul_of_nonneg_right hus ht0
    have h7 : 0 ≤ u * m := by positivity
    linarith

/-- The inequality of Cauchy for two terms. -/
theorem cauchy2 (a b c d : ℚ) : (|a * c| + |b * d|) ^ 2 ≤ (a ^ 2 + b ^ 2) * (c ^ 2 + d ^ 2) := by
  rw [abs_mul, abs_mul, ← sq_abs a, ← sq_abs b, ← sq_abs c, ← sq_abs d]
  nlinarith [sq_nonneg (|a| * |d| - |b| * |c|)]

end Dbl
end Pyincpp
