import Verif.Model.Double
import Mathlib.Tactic.Linarith
import Mathlib.Tactic.Ring
import Mathlib.Tactic.FieldSimp
import Mathlib.Tactic.NormNum
import Mathlib.Tactic.Positivity
import Mathlib.Algebra.Order.Floor.Ring

/-! # Lemmas about rounding -/

namespace Pyincpp
namespace Dbl

theorem roundEven_cases (x : ℚ) : roundEven x = ⌊x⌋ ∧ x - ⌊x⌋ ≤ 1 / 2 ∨ roundEven x = ⌊x⌋ + 1 ∧ 1 / 2 ≤ x - ⌊x⌋ := by
  unfold roundEven
  dsimp only
  split
  · next h => exact .inl ⟨rfl, le_of_lt h⟩
  · next h =>
    split
    · next h' => exact .inr ⟨rfl, le_of_lt h'⟩
    · next h' =>
      have e : x - ⌊x⌋ = 1 / 2 := le_antisymm (not_lt.1 h') (not_lt.1 h)
      split
      · exact .inl ⟨rfl, le_of_eq e⟩
      · exact .inr ⟨rfl, le_of_eq e.symm⟩

theorem roundEven_int (n : ℤ) : roundEven n = n := by
  rcases roundEven_cases (n : ℚ) with ⟨h, -⟩ | ⟨-, h⟩
  · simpa using h
  · simp at h; norm_num at h

theorem roundEven_err (x : ℚ) : |(roundEven x : ℚ) - x| ≤ 1 / 2 := by
  have h0 := Int.floor_le x
  have h1 := Int.lt_floor_add_one x
  rcases roundEven_cases x with ⟨h, h'⟩ | ⟨h, h'⟩
  · rw [h, abs_le]; constructor <;> linarith
  · rw [h, abs_le]; push_cast; constructor <;> linarith

theorem le_roundEven {n : ℤ} {x : ℚ} (h : (n : ℚ) ≤ x) : n ≤ roundEven x := by
  have : n ≤ ⌊x⌋ := Int.le_floor.2 h
  rcases roundEven_cases x with ⟨h, -⟩ | ⟨h, -⟩ <;> omega

theorem roundEven_le {n : ℤ} {x : ℚ} (h : x ≤ n) : roundEven x ≤ n := by
  have h0 := Int.floor_le x
  rcases roundEven_cases x with ⟨h', -⟩ | ⟨h', h''⟩
  · rw [h']; exact_mod_cast h0.trans h
  · rw [h']
    have : ((⌊x⌋ : ℤ) : ℚ) < n := by linarith
    have : ⌊x⌋ < n := by exact_mod_cast this
    omega

theorem roundEven_neg (x : ℚ) : roundEven (-x) = -roundEven x := by
  by_cases hx : ∃ n : ℤ, (n : ℚ) = x
  · obtain ⟨n, rfl⟩ := hx
    have : (-(n : ℚ)) = ((-n : ℤ) : ℚ) := by push_cast; rfl
    rw [this, roundEven_int, roundEven_int]
  · have hf : ⌊-x⌋ = -⌊x⌋ - 1 := by
      rw [Int.floor_neg]
      have : ⌈x⌉ = ⌊x⌋ + 1 := by
        rw [Int.ceil_eq_iff]
        push_cast
        refine ⟨?_, le_of_lt (Int.lt_floor_add_one x)⟩
        have h1 := Int.floor_le x
        have : ((⌊x⌋ : ℤ) : ℚ) ≠ x := fun e => hx ⟨_, e⟩
        have := lt_of_le_of_ne h1 this
        linarith
      omega
    unfold roundEven
    dsimp only
    rw [hf]
    push_cast
    have e : -x - (-(⌊x⌋ : ℚ) - 1) = 1 - (x - ⌊x⌋) := by ring
    rw [e]
    rcases lt_trichotomy (x - (⌊x⌋ : ℚ)) (1 / 2) with h | h | h
    · rw [if_neg (by linarith), if_pos (by linarith), if_pos h]; ring
    · have e' : 1 - (x - (⌊x⌋ : ℚ)) = 1 / 2 := by rw [h]; norm_num
      rw [e', h]
      simp only [lt_irrefl, if_false]
      split <;> split <;> omega
    · rw [if_pos (by linarith), if_neg (by linarith), if_pos h]; ring

theorem ulp_pos (q : ℚ) : 0 < ulp q := by unfold ulp; exact zpow_pos (by norm_num) _

theorem ulp_neg (q : ℚ) : ulp (-q) = ulp q := by unfold ulp; rw [abs_neg]

theorem rnd_neg (q : ℚ) : rnd (-q) = -rnd q := by
  unfold rnd
  rw [ulp_neg, neg_div, roundEven_neg]; push_cast; ring

theorem rnd_zero : rnd 0 = 0 := by
  have : roundEven 0 = 0 := by exact_mod_cast roundEven_int 0
  unfold rnd; rw [zero_div, this]; simp

theorem rnd_err (q : ℚ) : |rnd q - q| ≤ ulp q / 2 := by
  have h := roundEven_err (q / ulp q)
  have hu := ulp_pos q
  have e : rnd q - q = ((roundEven (q / ulp q) : ℚ) - q / ulp q) * ulp q := by
    unfold rnd; field_simp
  rw [e, abs_mul, abs_of_pos hu]
  nlinarith

/-- In the normal range the unit in the last place is at most `2^-52` of the number. -/
theorem ulp_le {q : ℚ} (h : (2 : ℚ) ^ (-1022 : ℤ) ≤ |q|) : ulp q * 2 ^ (52 : ℤ) ≤ |q| := by
  have hq : 0 < |q| := lt_of_lt_of_le (zpow_pos (by norm_num) _) h
  have hl : (-1022 : ℤ) ≤ Int.log 2 |q| := by
    have := Int.log_mono_right (b := 2) (zpow_pos (by norm_num) _ : (0 : ℚ) < 2 ^ (-1022 : ℤ)) h
    have e := Int.log_zpow (R := ℚ) (b := 2) (by norm_num) (-1022)
    push_cast at e
    rwa [e] at this
  unfold ulp
  rw [max_eq_left hl, ← zpow_add₀ (by norm_num)]
  have := Int.zpow_log_le_self (b := 2) (by norm_num) hq
  push_cast at this
  simpa using this

theorem rnd_rel {q : ℚ} (h : (2 : ℚ) ^ (-1022 : ℤ) ≤ |q|) : |rnd q - q| ≤ |q| / 2 ^ 53 := by
  have h1 := rnd_err q
  have h2 := ulp_le h
  have e : (2 : ℚ) ^ (52 : ℤ) = 2 ^ 52 := by norm_cast
  rw [e] at h2
  have : |q| / 2 ^ 53 = (|q| / 2 ^ 52) / 2 := by ring
  rw [this]
  have : ulp q ≤ |q| / 2 ^ 52 := by rw [le_div_iff₀ (by positivity)]; exact h2
  linarith

/-- Rounding does not fall below a power of two. -/
theorem rnd_ge_pow {q : ℚ} {k : ℤ} (hk : -1022 ≤ k) (h : (2 : ℚ) ^ k ≤ q) : (2 : ℚ) ^ k ≤ rnd q := by
  have hq : 0 < q := lt_of_lt_of_le (zpow_pos (by norm_num) _) h
  have h1022 : (2 : ℚ) ^ (-1022 : ℤ) ≤ |q| := by
    rw [abs_of_pos hq]
    exact le_trans (zpow_le_zpow_right₀ (by norm_num) hk) h
  have hkl : k ≤ Int.log 2 |q| := by
    rw [abs_of_pos hq]
    have := Int.log_mono_right (b := 2) (zpow_pos (by norm_num) _ : (0 : ℚ) < 2 ^ k) h
    have e := Int.log_zpow (R := ℚ) (b := 2) (by norm_num) k
    push_cast at e
    rwa [e] at this
  have hu := ulp_pos q
  have h2 := ulp_le h1022
  rw [abs_of_pos hq] at h2
  have hr : (2 ^ 52 : ℤ) ≤ roundEven (q / ulp q) := by
    apply le_roundEven
    rw [le_div_iff₀ hu]
    push_cast
    have e : (2 : ℚ) ^ (52 : ℤ) = 2 ^ 52 := by norm_cast
    rw [e] at h2
    linarith
  have hr' : (2 ^ 52 : ℚ) ≤ roundEven (q / ulp q) := by exact_mod_cast hr
  have : (2 : ℚ) ^ Int.log 2 |q| ≤ rnd q := by
    have e : (2 : ℚ) ^ Int.log 2 |q| = 2 ^ 52 * ulp q := by
      unfold ulp
      rw [max_eq_left (hk.trans hkl)]
      have : (2 : ℚ) ^ (52 : ℕ) = 2 ^ (52 : ℤ) := by norm_cast
      rw [this, ← zpow_add₀ (by norm_num)]
      congr 1; ring
    rw [e]
    unfold rnd
    exact mul_le_mul_of_nonneg_right hr' (le_of_lt hu)
  exact le_trans (zpow_le_zpow_right₀ (by norm_num) hkl) this

theorem rnd_eq_of_mul {q : ℚ} (n : ℤ) (h : q = n * ulp q) : rnd q = q := by
  unfold rnd
  have hu := ulp_pos q
  have : q / ulp q = n := by rw [div_eq_iff (ne_of_gt hu)]; exact h
  rw [this, roundEven_int]; exact h.symm

/-- Integers of at most 53 bits are not rounded. -/
theorem rnd_int {n : ℤ} (h : |n| < 2 ^ 53) : rnd (n : ℚ) = n := by
  by_cases h0 : n = 0
  · subst h0; simpa using rnd_zero
  have hn1 : (1 : ℤ) ≤ |n| := Int.one_le_abs h0
  have hpos : (0 : ℚ) < |(n : ℚ)| := by exact_mod_cast lt_of_lt_of_le (by norm_num) hn1
  have hl : Int.log 2 |(n : ℚ)| ≤ 52 := by
    have hlt : |(n : ℚ)| < 2 ^ (53 : ℤ) := by exact_mod_cast h
    by_contra hc
    push Not at hc
    have h1 := Int.zpow_log_le_self (b := 2) (by norm_num) hpos
    push_cast at h1
    have h2 : (2 : ℚ) ^ (53 : ℤ) ≤ 2 ^ Int.log 2 |(n : ℚ)| := zpow_le_zpow_right₀ (by norm_num) (by omega)
    linarith
  have hl0 : 0 ≤ Int.log 2 |(n : ℚ)| := by
    have h1 : (1 : ℚ) ≤ |(n : ℚ)| := by exact_mod_cast hn1
    have := Int.log_mono_right (b := 2) (by norm_num : (0 : ℚ) < 1) h1
    simpa using this
  obtain ⟨j, hj⟩ : ∃ j : ℕ, 52 - Int.log 2 |(n : ℚ)| = j := ⟨(52 - Int.log 2 |(n : ℚ)|).toNat, by omega⟩
  apply rnd_eq_of_mul (n * 2 ^ j)
  unfold ulp
  rw [max_eq_left (by omega)]
  push_cast
  have e : (2 : ℚ) ^ j = 2 ^ (j : ℤ) := by norm_cast
  rw [e, mul_assoc, ← zpow_add₀ (by norm_num), ← hj]
  simp

theorem ofRat_small {q : ℚ} (h : |rnd q| < 2 ^ 1024) : ofRat q = fin (rnd q) := by
  unfold ofRat; rw [if_neg (not_le.2 h)]

theorem ofInt_eq {n : ℤ} (h : |n| < 2 ^ 53) : ofInt n = fin n := by
  unfold ofInt
  have hr := rnd_int h
  rw [ofRat_small, hr]
  rw [hr]
  have : |(n : ℚ)| < 2 ^ 53 := by exact_mod_cast h
  exact lt_trans this (pow_lt_pow_right₀ (by norm_num) (by norm_num))

end Dbl
end Pyincpp
