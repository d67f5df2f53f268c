import Verif.Proof.Double

/-! # More lemmas about rounding: representable numbers, relative error -/

namespace Pyincpp
namespace Dbl

theorem log_lt {q : ℚ} {k : ℤ} (hq : q ≠ 0) (h : |q| < 2 ^ k) : Int.log 2 |q| < k := by
  have hpos : 0 < |q| := abs_pos.2 hq
  by_contra hc
  have h1 := Int.zpow_log_le_self (b := 2) (by norm_num) hpos
  push_cast at h1
  have h2 : (2 : ℚ) ^ k ≤ 2 ^ Int.log 2 |q| := zpow_le_zpow_right₀ (by norm_num) (not_lt.1 hc)
  linarith

/-- A 53-bit multiple of a power of two that is not too small is a `double`. -/
theorem rnd_rep {m e : ℤ} (hm : |m| < 2 ^ 53) (he : -1074 ≤ e) : rnd (m * 2 ^ e) = m * 2 ^ e := by
  by_cases h0 : m = 0
  · subst h0; simpa using rnd_zero
  have hq : (m : ℚ) * 2 ^ e ≠ 0 := mul_ne_zero (by exact_mod_cast h0) (zpow_ne_zero _ (by norm_num))
  have hlt : |(m : ℚ) * 2 ^ e| < 2 ^ (53 + e) := by
    rw [abs_mul, abs_of_pos (zpow_pos (by norm_num : (0 : ℚ) < 2) e), zpow_add₀ (by norm_num)]
    apply mul_lt_mul_of_pos_right _ (zpow_pos (by norm_num) e)
    exact_mod_cast hm
  have hl := log_lt hq hlt
  set L := max (Int.log 2 |(m : ℚ) * 2 ^ e|) (-1022) - 52 with hL
  have hle : L ≤ e := by
    rw [hL]
    rcases max_cases (Int.log 2 |(m : ℚ) * 2 ^ e|) (-1022) with ⟨h, -⟩ | ⟨h, -⟩ <;> omega
  obtain ⟨j, hj⟩ : ∃ j : ℕ, e - L = j := ⟨(e - L).toNat, by omega⟩
  apply rnd_eq_of_mul (m * 2 ^ j)
  unfold ulp
  rw [← hL]
  push_cast
  have e1 : (2 : ℚ) ^ j = 2 ^ (j : ℤ) := by norm_cast
  rw [e1, mul_assoc, ← zpow_add₀ (by norm_num), ← hj]
  congr 2; ring

theorem ulp_eq_zpow (q : ℚ) : ∃ e : ℤ, -1074 ≤ e ∧ ulp q = 2 ^ e ∧ |q| < 2 ^ (53 + e) := by
  refine ⟨max (Int.log 2 |q|) (-1022) - 52, ?_, rfl, ?_⟩
  · have := le_max_right (Int.log 2 |q|) (-1022); omega
  · by_cases hq : q = 0
    · subst hq; rw [abs_zero]; exact zpow_pos (by norm_num) _
    · have h := Int.lt_zpow_succ_log_self (b := 2) (by norm_num) |q|
      push_cast at h
      apply lt_of_lt_of_le h
      apply zpow_le_zpow_right₀ (by norm_num)
      have := le_max_left (Int.log 2 |q|) (-1022); omega

/-- Rounding gives a `double`. -/
theorem rnd_idem (q : ℚ) : rnd (rnd q) = rnd q := by
  obtain ⟨e, he, hu, hlt⟩ := ulp_eq_zpow q
  have hup := ulp_pos q
  have hr : rnd q = roundEven (q / ulp q) * 2 ^ e := by unfold rnd; rw [hu]
  have hb : |q / ulp q| ≤ 2 ^ 53 := by
    rw [abs_div, abs_of_pos hup, div_le_iff₀ hup, hu]
    rw [zpow_add₀ (by norm_num)] at hlt
    have : (2 : ℚ) ^ (53 : ℤ) = 2 ^ 53 := by norm_cast
    rw [this] at hlt
    exact hlt.le
  have hb' := abs_le.1 hb
  have hle : roundEven (q / ulp q) ≤ 2 ^ 53 := roundEven_le (by push_cast; exact hb'.2)
  have hge : -2 ^ 53 ≤ roundEven (q / ulp q) := le_roundEven (by push_cast; exact hb'.1)
  rw [hr]
  by_cases h1 : roundEven (q / ulp q) = 2 ^ 53
  · rw [h1]
    have : ((2 ^ 53 : ℤ) : ℚ) * 2 ^ e = ((2 ^ 52 : ℤ) : ℚ) * 2 ^ (e + 1) := by
      rw [zpow_add₀ (by norm_num)]; push_cast; ring
    rw [this]
    exact rnd_rep (by norm_num) (by omega)
  by_cases h2 : roundEven (q / ulp q) = -2 ^ 53
  · rw [h2]
    have : ((-2 ^ 53 : ℤ) : ℚ) * 2 ^ e = ((-2 ^ 52 : ℤ) : ℚ) * 2 ^ (e + 1) := by
      rw [zpow_add₀ (by norm_num)]; push_cast; ring
    rw [this]
    exact rnd_rep (by norm_num) (by omega)
  · exact rnd_rep (by rw [abs_lt]; omega) he

theorem ofRat_fin {q : ℚ} (h : |q| ≤ 2 ^ 1023) : ofRat q = fin (rnd q) := by
  apply ofRat_small
  have h1 := rnd_err q
  have h2 : ulp q ≤ 2 ^ (972 : ℤ) := by
    unfold ulp
    apply zpow_le_zpow_right₀ (by norm_num)
    by_cases hq : q = 0
    · subst hq; norm_num
    · have := log_lt (k := 1024) hq (lt_of_le_of_lt h (by exact_mod_cast pow_lt_pow_right₀ (by norm_num : (1 : ℚ) < 2) (by norm_num : 1023 < 1024)))
      have : max (Int.log 2 |q|) (-1022) ≤ 1023 := max_le (by omega) (by norm_num)
      omega
  have h3 : |rnd q| ≤ |q| + |rnd q - q| := by
    have := abs_add_le q (rnd q - q)
    rwa [add_sub_cancel] at this
  have e1 : (2 : ℚ) ^ (972 : ℤ) ≤ 2 ^ (1023 : ℕ) := by
    rw [← zpow_natCast]
    exact zpow_le_zpow_right₀ (by norm_num) (by norm_num)
  have e2 : (2 : ℚ) ^ 1024 = 2 ^ 1023 * 2 := pow_succ 2 1023
  have e3 : (0 : ℚ) < 2 ^ 1023 := pow_pos (by norm_num) _
  have h5 := h2.trans e1
  rw [e2]
  clear e1 e2 h2
  generalize (2 : ℚ) ^ 1023 = B at *
  linarith

theorem of_fin {q x : ℚ} (h : ofRat q = fin x) : x = rnd q ∧ |x| < 2 ^ 1024 := by
  unfold ofRat at h
  split at h
  · cases h
  · rename_i hlt
    injection h with h
    subst h
    exact ⟨rfl, not_le.1 hlt⟩

/-- Rounding twice is rounding once. -/
theorem ofRat_rnd (q : ℚ) (h : 0 ≤ q) (h' : 0 ≤ rnd q) : ofRat (rnd q) = ofRat q := by
  unfold ofRat
  rw [rnd_idem, decide_eq_false (not_lt.2 h), decide_eq_false (not_lt.2 h')]

/-- The largest relative error of one rounding. -/
def u : ℚ := 1 / 2 ^ 53

theorem u_pos : 0 < u := by unfold u; norm_num
theorem u_lt : u < 1 := by unfold u; norm_num

/-- `x` approximates the non-negative number `q` with at most `n` roundings. -/
def Near (n : ℕ) (x q : ℚ) : Prop := q * (1 - u) ^ n ≤ x ∧ x ≤ q * (1 + u) ^ n

theorem Near.refl {q : ℚ} : Near 0 q q := by simp [Near]

theorem pow_lo_pos (n : ℕ) : 0 < (1 - u) ^ n := pow_pos (by have := u_lt; linarith) n
theorem pow_hi_pos (n : ℕ) : 0 < (1 + u) ^ n := pow_pos (by have := u_pos; linarith) n

theorem Near.mono {n m : ℕ} {x q : ℚ} (h : Near n x q) (hq : 0 ≤ q) (hnm : n ≤ m) : Near m x q := by
  have hu := u_pos
  have hu' := u_lt
  constructor
  · exact le_trans (mul_le_mul_of_nonneg_left (pow_le_pow_of_le_one (by linarith) (by linarith) hnm) hq) h.1
  · exact le_trans h.2 (mul_le_mul_of_nonneg_left (pow_le_pow_right₀ (by linarith) hnm) hq)

theorem Near.nonneg {n : ℕ} {x q : ℚ} (h : Near n x q) (hq : 0 ≤ q) : 0 ≤ x :=
  le_trans (mul_nonneg hq (pow_lo_pos n).le) h.1

/-- One rounding of a non-negative number. -/
theorem near_rnd {x : ℚ} (h : x = 0 ∨ 2 ^ (-1022 : ℤ) ≤ x) : Near 1 (rnd x) x := by
  rcases h with rfl | h
  · rw [rnd_zero]; simp [Near]
  · have hx : 0 ≤ x := le_trans (zpow_nonneg (by norm_num) _) h
    have := rnd_rel (q := x) (by rwa [abs_of_nonneg hx])
    rw [abs_of_nonneg hx, abs_le] at this
    have e : x / 2 ^ 53 = x * u := by unfold u; ring
    rw [e] at this
    constructor <;> rw [pow_one] <;> linarith [this.1, this.2]

theorem Near.trans {n m : ℕ} {x y q : ℚ} (h : Near n y q) (h' : Near m x y) : Near (n + m) x q := by
  constructor
  · rw [pow_add, ← mul_assoc]
    exact le_trans (mul_le_mul_of_nonneg_right h.1 (pow_lo_pos m).le) h'.1
  · rw [pow_add, ← mul_assoc]
    exact le_trans h'.2 (mul_le_mul_of_nonneg_right h.2 (pow_hi_pos m).le)

theorem Near.mul {n m : ℕ} {x y p q : ℚ} (h : Near n x p) (h' : Near m y q) (hp : 0 ≤ p) (hq : 0 ≤ q) : Near (n + m) (x * y) (p * q) := by
  have hx := h.nonneg hp
  have hy := h'.nonneg hq
  constructor
  · calc p * q * (1 - u) ^ (n + m) = (p * (1 - u) ^ n) * (q * (1 - u) ^ m) := by rw [pow_add]; ring
      _ ≤ x * y := mul_le_mul h.1 h'.1 (mul_nonneg hq (pow_lo_pos m).le) hx
  · calc x * y ≤ (p * (1 + u) ^ n) * (q * (1 + u) ^ m) := mul_le_mul h.2 h'.2 hy (mul_nonneg hp (pow_hi_pos n).le)
      _ = p * q * (1 + u) ^ (n + m) := by rw [pow_add]; ring

theorem Near.add_exact {n : ℕ} {x p d : ℚ} (h : Near n x p) (hd : 0 ≤ d) : Near n (x + d) (p + d) := by
  have hu := u_pos
  have hu' := u_lt
  have h1 : (1 - u) ^ n ≤ 1 := pow_le_one₀ (by linarith) (by linarith)
  have h2 : 1 ≤ (1 + u) ^ n := one_le_pow₀ (by linarith)
  constructor
  · have := h.1; nlinarith
  · have := h.2; nlinarith

/-- The inverse of an approximation of one rounding. -/
theorem Near.inv {y q : ℚ} (h : Near 1 y q) (hq : 0 < q) : Near 2 y⁻¹ q⁻¹ := by
  have hu := u_pos
  have hu' : u < 1 / 4 := by unfold u; norm_num
  obtain ⟨h1, h2⟩ := h
  rw [pow_one] at h1 h2
  have hy : 0 < y := lt_of_lt_of_le (mul_pos hq (by linarith)) h1
  have e1 : q⁻¹ * (1 - u) ^ 2 ≤ y⁻¹ := by
    rw [inv_mul_eq_div, div_le_iff₀ hq, inv_mul_eq_div, le_div_iff₀ hy]
    calc (1 - u) ^ 2 * y ≤ (1 - u) ^ 2 * (q * (1 + u)) := mul_le_mul_of_nonneg_left h2 (by positivity)
      _ = q * ((1 - u) ^ 2 * (1 + u)) := by ring
      _ ≤ q * 1 := by
        apply mul_le_mul_of_nonneg_left _ hq.le
        have : (1 - u) ^ 2 * (1 + u) = 1 - u * (1 + u * (1 - u)) := by ring
        have : 0 ≤ u * (1 + u * (1 - u)) := mul_nonneg hu.le (by nlinarith)
        linarith
      _ = q := by ring
  have e2 : y⁻¹ ≤ q⁻¹ * (1 + u) ^ 2 := by
    rw [inv_mul_eq_div, le_div_iff₀ hq, inv_mul_eq_div, div_le_iff₀ hy]
    calc q = q * 1 := by ring
      _ ≤ q * ((1 + u) ^ 2 * (1 - u)) := by
        apply mul_le_mul_of_nonneg_left _ hq.le
        have : (1 + u) ^ 2 * (1 - u) = 1 + u * (1 - u * (1 + u)) := by ring
        have : 0 ≤ u * (1 - u * (1 + u)) := mul_nonneg hu.le (by nlinarith)
        linarith
      _ = (1 + u) ^ 2 * (q * (1 - u)) := by ring
      _ ≤ (1 + u) ^ 2 * y := mul_le_mul_of_nonneg_left h1 (by positivity)
  exact ⟨e1, e2⟩

theorem pow_lo_ge (n : ℕ) : 1 - n * u ≤ (1 - u) ^ n := by
  have hu := u_pos
  have hu' := u_lt
  induction n with
  | zero => simp
  | succ n ih =>
    push_cast
    have hn0 : (0 : ℚ) ≤ n * u * u := by positivity
    rw [pow_succ]
    calc 1 - (n + 1) * u ≤ (1 - n * u) * (1 - u) := by nlinarith
      _ ≤ (1 - u) ^ n * (1 - u) := mul_le_mul_of_nonneg_right ih (by linarith)

theorem pow_hi_le (n : ℕ) (h : 2 * n * u ≤ 1) : (1 + u) ^ n ≤ 1 + 2 * n * u := by
  have hu := u_pos
  induction n with
  | zero => simp
  | succ n ih =>
    push_cast at h ⊢
    have h' : 2 * (n : ℚ) * u ≤ 1 := by nlinarith
    have := ih h'
    rw [pow_succ]
    calc (1 + u) ^ n * (1 + u) ≤ (1 + 2 * n * u) * (1 + u) := mul_le_mul_of_nonneg_right this (by linarith)
      _ = 1 + 2 * n * u + u + (2 * n * u) * u := by ring
      _ ≤ 1 + 2 * (n + 1) * u := by nlinarith

/-- The error of `n` roundings. -/
theorem Near.abs_le {n : ℕ} {x q : ℚ} (h : Near n x q) (hq : 0 ≤ q) (hn : 2 * n * u ≤ 1) : |x - q| ≤ 2 * n * u * q := by
  have hu := u_pos
  have h1 := pow_lo_ge n
  have h2 := pow_hi_le n hn
  have hn0 : (0 : ℚ) ≤ n := Nat.cast_nonneg n
  obtain ⟨a, b⟩ := h
  rw [_root_.abs_le]
  constructor
  · have : q * (1 - n * u) ≤ x := le_trans (mul_le_mul_of_nonneg_left h1 hq) a
    have : 0 ≤ n * u * q := by positivity
    nlinarith
  · have : x ≤ q * (1 + 2 * n * u) := le_trans b (mul_le_mul_of_nonneg_left h2 hq)
    linarith

end Dbl
end Pyincpp
