import Verif.Proof.DoubleMore
import Verif.Proof.StrNum
import Verif.Spec.Decimal

/-! # The arithmetic of `to_decimal` in doubles -/

namespace Pyincpp
namespace Dbl

/-! ## Rounding gives the nearest double -/

theorem roundEven_nearest (x : ℚ) (k : ℤ) : |(roundEven x : ℚ) - x| ≤ |k - x| := by
  by_cases h : k = roundEven x
  · rw [h]
  · have h1 := roundEven_err x
    have h2 : (1 : ℚ) ≤ |(k : ℚ) - roundEven x| := by
      have : (1 : ℤ) ≤ |k - roundEven x| := Int.one_le_abs (by omega)
      exact_mod_cast this
    have h3 : |(k : ℚ) - roundEven x| ≤ |k - x| + |(roundEven x : ℚ) - x| := by
      have := abs_sub_le (k : ℚ) x (roundEven x)
      rwa [abs_sub_comm x] at this
    linarith

theorem rnd_near_mul (q : ℚ) (k : ℤ) : |rnd q - q| ≤ |k * ulp q - q| := by
  have hu := ulp_pos q
  have key (j : ℤ) : |(j : ℚ) * ulp q - q| = |(j : ℚ) - q / ulp q| * ulp q := by
    nth_rewrite 3 [← abs_of_pos hu]
    rw [← abs_mul, sub_mul, div_mul_cancel₀ _ hu.ne']
  unfold rnd
  rw [key, key]
  exact mul_le_mul_of_nonneg_right (roundEven_nearest _ k) hu.le

/-- No double is nearer to `q` than `rnd q`. -/
theorem rnd_nearest (q p : ℚ) (hp : rnd p = p) : |rnd q - q| ≤ |p - q| := by
  by_cases hq0 : q = 0
  · rw [hq0, rnd_zero, sub_zero, abs_zero]; exact abs_nonneg _
  by_cases hle : ulp q ≤ ulp p
  · obtain ⟨j, hj⟩ : ∃ j : ℤ, p = j * ulp q := by
      have h1 : p = roundEven (p / ulp p) * ulp p := by
        conv => lhs; rw [← hp]
        rfl
      unfold ulp at hle h1 ⊢
      set a := max (Int.log 2 |q|) (-1022) - 52
      set b := max (Int.log 2 |p|) (-1022) - 52
      have hab : a ≤ b := (zpow_le_zpow_iff_right₀ (by norm_num : (1 : ℚ) < 2)).1 hle
      refine ⟨roundEven (p / 2 ^ b) * 2 ^ (b - a).toNat, ?_⟩
      push_cast
      have e1 : (2 : ℚ) ^ (b - a).toNat = 2 ^ (b - a) := by
        rw [← zpow_natCast, Int.toNat_of_nonneg (by omega)]
      rw [e1, mul_assoc, ← zpow_add₀ (by norm_num), sub_add_cancel]
      exact h1
    rw [hj]
    exact rnd_near_mul q j
  · have hlt : ulp p < ulp q := not_le.1 hle
    by_cases hp0 : p = 0
    · have := rnd_near_mul q 0
      rw [hp0]; simpa using this
    have h1 : max (Int.log 2 |p|) (-1022) < max (Int.log 2 |q|) (-1022) := by
      unfold ulp at hlt
      have := (zpow_lt_zpow_iff_right₀ (by norm_num : (1 : ℚ) < 2)).1 hlt
      omega
    have h2 : max (Int.log 2 |q|) (-1022) = Int.log 2 |q| := by
      apply max_eq_left
      by_contra hc
      rw [max_eq_right (by omega : Int.log 2 |q| ≤ -1022)] at h1
      have := le_max_right (Int.log 2 |p|) (-1022)
      omega
    have h3 : Int.log 2 |p| < Int.log 2 |q| := by
      have := le_max_left (Int.log 2 |p|) (-1022)
      omega
    have h4 : |p| < 2 ^ Int.log 2 |q| := by
      have h := Int.lt_zpow_succ_log_self (b := 2) (by norm_num) |p|
      push_cast at h
      exact lt_of_lt_of_le h (zpow_le_zpow_right₀ (by norm_num) (by omega))
    have h5 : (2 : ℚ) ^ Int.log 2 |q| ≤ |q| := by
      have h := Int.zpow_log_le_self (b := 2) (by norm_num) (abs_pos.2 hq0)
      push_cast at h
      exact h
    have h6 : (2 : ℚ) ^ Int.log 2 |q| = (2 ^ 52 : ℤ) * ulp q := by
      unfold ulp
      rw [h2, show Int.log 2 |q| - 52 = Int.log 2 |q| + (-52) by ring, zpow_add₀ (by norm_num)]
      push_cast
      rw [zpow_neg]
      field_simp
      norm_num
    have h7 : |q| - |p| ≤ |p - q| := by
      rw [abs_sub_comm]; exact abs_sub_abs_le_abs_sub q p
    generalize (2 : ℚ) ^ Int.log 2 |q| = B at *
    rcases lt_or_gt_of_ne hq0 with hneg | hpos
    · have h8 := rnd_near_mul q (-2 ^ 52)
      have e : ((-2 ^ 52 : ℤ) : ℚ) * ulp q - q = |q| - B := by
        rw [h6, abs_of_neg hneg]; push_cast; ring
      rw [e, abs_of_nonneg (by linarith : 0 ≤ |q| - B)] at h8
      linarith
    · have h8 := rnd_near_mul q (2 ^ 52)
      rw [← h6, abs_sub_comm B q] at h8
      have hq : |q| = q := abs_of_pos hpos
      rw [abs_of_nonneg (by linarith : 0 ≤ q - B)] at h8
      linarith

/-! ## Powers of ten -/

theorem ten_le_two (n : ℕ) : (10 : ℚ) ^ (3 * n) ≤ 2 ^ (10 * n) := by
  rw [pow_mul, pow_mul]
  exact pow_le_pow_left₀ (by norm_num) (by norm_num) n

theorem ten300 : (10 : ℚ) ^ 300 ≤ 2 ^ 1000 := by
  simpa using ten_le_two 100

theorem ten309 : (2 : ℚ) ^ (1024 : ℤ) ≤ 10 ^ 309 := by
  have : (2 : ℚ) ^ (1024 : ℤ) = ((2 ^ 1024 : ℕ) : ℚ) := by
    rw [Nat.cast_pow, ← zpow_natCast]; rfl
  rw [this]
  have h : (2 ^ 1024 : ℕ) ≤ 10 ^ 309 := by decide +kernel
  exact_mod_cast h

/-! ## The threshold of infinity -/

theorem roundEven_even_le {m : ℤ} {x : ℚ} (h : 2 * (m : ℚ) - 1 / 2 ≤ x) : 2 * m ≤ roundEven x := by
  by_cases h1 : 2 * (m : ℚ) ≤ x
  · exact le_roundEven (by push_cast; exact h1)
  · have hf : ⌊x⌋ = 2 * m - 1 := by
      rw [Int.floor_eq_iff]; push_cast; constructor <;> linarith
    unfold roundEven
    simp only [hf]
    push_cast
    rw [if_neg (by linarith)]
    split
    · omega
    · rw [if_neg (by omega)]; omega

theorem roundEven_lt {m : ℤ} {x : ℚ} (h : x < (m : ℚ) - 1 / 2) : roundEven x < m := by
  have h1 := roundEven_err x
  rw [_root_.abs_le] at h1
  have : (roundEven x : ℚ) < m := by linarith [h1.2]
  exact_mod_cast this

theorem rnd_nonneg {q : ℚ} (h : 0 ≤ q) : 0 ≤ rnd q := by
  unfold rnd
  have : (0 : ℤ) ≤ roundEven (q / ulp q) := le_roundEven (by push_cast; exact div_nonneg h (ulp_pos q).le)
  exact mul_nonneg (by exact_mod_cast this) (ulp_pos q).le

theorem rnd_abs (q : ℚ) : |rnd q| = rnd |q| := by
  rcases le_total 0 q with h | h
  · rw [abs_of_nonneg h, abs_of_nonneg (rnd_nonneg h)]
  · rw [abs_of_nonpos h, rnd_neg]
    have := rnd_nonneg (neg_nonneg.2 h)
    rw [rnd_neg] at this
    exact abs_of_nonpos (by linarith)

theorem big_iff (q : ℚ) : 2 ^ 1024 ≤ |rnd q| ↔ 2 ^ 1024 - 2 ^ 970 ≤ |q| := by
  rw [rnd_abs]
  have hq : 0 ≤ |q| := abs_nonneg q
  generalize |q| = x at hq ⊢
  have e1024 : (2 : ℚ) ^ (1024 : ℕ) = 2 ^ (1024 : ℤ) := by rw [← zpow_natCast]; rfl
  by_cases h1 : (2 : ℚ) ^ 1024 ≤ x
  · refine iff_of_true ?_ ?_
    · rw [e1024] at h1 ⊢; exact rnd_ge_pow (by norm_num) h1
    · exact le_trans (sub_le_self _ (pow_nonneg (by norm_num) _)) h1
  have h1 := not_le.1 h1
  by_cases h2 : x < 2 ^ 1023
  · have h3 : (2 : ℚ) ^ 1024 = 2 ^ 1023 + 2 ^ 1023 := by rw [pow_succ, mul_two]
    have h4 : (2 : ℚ) ^ 970 ≤ 2 ^ 1023 := pow_le_pow_right₀ (by norm_num) (by norm_num)
    refine iff_of_false (not_le.2 ?_) (not_le.2 ?_)
    · have hf := ofRat_fin (q := x) (by rw [abs_of_nonneg hq]; exact h2.le)
      unfold ofRat at hf
      split at hf
      · cases hf
      · rename_i h; rw [abs_of_nonneg (rnd_nonneg hq)] at h; exact not_le.1 h
    · rw [h3]
      clear h3
      generalize (2 : ℚ) ^ 1023 = A at *
      generalize (2 : ℚ) ^ 970 = B at *
      linarith
  · have h2 := not_lt.1 h2
    have hx : 0 < x := lt_of_lt_of_le (pow_pos (by norm_num) _) h2
    have hl : Int.log 2 |x| = 1023 := by
      rw [abs_of_pos hx]
      apply le_antisymm
      · have := log_lt (q := x) (k := 1024) hx.ne' (by rw [abs_of_pos hx, ← e1024]; exact h1)
        rw [abs_of_pos hx] at this
        omega
      · rw [← Int.zpow_le_iff_le_log (by norm_num) hx]
        push_cast
        rw [← zpow_natCast] at h2
        exact h2
    have hu : ulp x = 2 ^ 971 := by
      unfold ulp
      rw [hl, ← zpow_natCast]
      norm_num
    have e1 : (2 : ℚ) ^ 1024 = (2 * (2 ^ 52 : ℤ) : ℤ) * 2 ^ 971 := by
      have : ((2 * (2 ^ 52 : ℤ) : ℤ) : ℚ) = 2 ^ 53 := by norm_num
      rw [this, ← pow_add]
    have e2 : (2 : ℚ) ^ 970 = 1 / 2 * 2 ^ 971 := by rw [pow_succ _ 970]; ring
    have hup : (0 : ℚ) < 2 ^ 971 := pow_pos (by norm_num) _
    unfold rnd
    rw [hu, e1, e2]
    generalize (2 : ℚ) ^ 971 = U at *
    rw [← sub_mul, mul_le_mul_iff_left₀ hup, ← le_div_iff₀ hup]
    constructor
    · intro h
      by_contra hc
      have := roundEven_lt (m := 2 * (2 ^ 52 : ℤ)) (not_le.1 hc)
      have h' : (2 * 2 ^ 52 : ℤ) ≤ roundEven (x / U) := by exact_mod_cast h
      omega
    · intro h
      have := roundEven_even_le (m := (2 ^ 52 : ℤ)) (x := x / U) (by push_cast at h ⊢; linarith)
      exact_mod_cast this

theorem nearest_ofRat (v : ℚ) : NearestDouble v (ofRat v) := by
  unfold ofRat
  split
  · rename_i h; exact .inf ((big_iff v).1 h)
  · rename_i h
    exact .fin _ ⟨rnd_idem v, not_le.1 h⟩ (fun p hp => rnd_nearest v p hp.1) (not_le.1 fun hc => h ((big_iff v).2 hc))

/-! ## Digits -/

theorem digit_lt {c : UInt8} (h : IsDigitIn 10 c) : (digitValue c).getD 0 < 10 := by
  obtain ⟨v, h1, h2⟩ := h
  rw [h1]; exact h2

/-- Up to `2^53` the digits are evaluated exactly. -/
theorem evalDigits_exact (pow : Dbl → Dbl) (ds : List UInt8) (h : numeralIn 10 ds < 2 ^ 53) :
    evalDigits (dblOps pow) ds = fin (numeralIn 10 ds) := by
  have h0 (n : ℕ) (hn : n < 2 ^ 53) : ofInt (n : ℤ) = fin n := by
    rw [ofInt_eq (by rw [Nat.abs_cast]; exact_mod_cast hn)]; simp
  induction ds using List.reverseRecOn with
  | nil => simpa [evalDigits, numeralIn, dblOps] using h0 0 (by norm_num)
  | append_singleton ds c ih =>
    rw [numeralIn_snoc] at h
    rw [evalDigits_snoc, ih (by omega), numeralIn_snoc]
    have h10 := h0 10 (by norm_num)
    have hd := h0 ((digitValue c).getD 0) (by omega)
    have h1 : ofRat ((numeralIn 10 ds : ℚ) * 10) = fin ((10 * numeralIn 10 ds : ℕ) : ℚ) := by
      rw [← h0 (10 * numeralIn 10 ds) (by omega)]
      unfold ofInt
      congr 1; push_cast; ring
    have h2 : ofRat (((10 * numeralIn 10 ds : ℕ) : ℚ) + ((digitValue c).getD 0 : ℕ)) =
        fin ((10 * numeralIn 10 ds + (digitValue c).getD 0 : ℕ) : ℚ) := by
      rw [← h0 (10 * numeralIn 10 ds + (digitValue c).getD 0) (by omega)]
      unfold ofInt
      congr 1; push_cast; ring
    simp only [dblOps]
    rw [show (10 : ℤ) = ((10 : ℕ) : ℤ) from rfl, h10, hd]
    simp only [mul, add, Nat.cast_ofNat]
    rw [h1]
    simp only [add]
    rw [h2]

theorem small_u : u ≤ 1 / 10000 := by unfold u; norm_num

theorem numeralIn_lt (ds : List UInt8) (h : ∀ c ∈ ds, IsDigitIn 10 c) : numeralIn 10 ds < 10 ^ ds.length := by
  induction ds using List.reverseRecOn with
  | nil => simp [numeralIn]
  | append_singleton ds c ih =>
    have := ih (fun c hc => h c (by simp [hc]))
    have hc := digit_lt (h c (by simp))
    rw [numeralIn_snoc, List.length_append, List.length_singleton, pow_succ]
    omega

theorem pow_lo_half {n : ℕ} (hn : n ≤ 1000) : 1 / 2 ≤ (1 - u) ^ n := by
  have h1 := pow_lo_ge n
  have h2 := small_u
  have hu := u_pos
  have h3 : (n : ℚ) ≤ 1000 := by exact_mod_cast hn
  nlinarith

theorem pow_hi_two {n : ℕ} (hn : n ≤ 1000) : (1 + u) ^ n ≤ 2 := by
  have h2 := small_u
  have hu := u_pos
  have h3 : (n : ℚ) ≤ 1000 := by exact_mod_cast hn
  have h4 : 2 * (n : ℚ) * u ≤ 1 := by nlinarith
  have h1 := pow_hi_le n h4
  linarith

theorem Near.half_le {n : ℕ} {x q : ℚ} (h : Near n x q) (hq : 0 ≤ q) (hn : n ≤ 1000) : q / 2 ≤ x := by
  have := mul_le_mul_of_nonneg_left (pow_lo_half hn) hq
  linarith [h.1]

theorem Near.le_two {n : ℕ} {x q : ℚ} (h : Near n x q) (hq : 0 ≤ q) (hn : n ≤ 1000) : x ≤ q * 2 := by
  have := mul_le_mul_of_nonneg_left (pow_hi_two hn) hq
  linarith [h.2]

/-- One rounded operation on non-negative numbers. -/
theorem near_ofRat {n : ℕ} {x q : ℚ} (h : Near n x q) (hq : q = 0 ∨ (2 : ℚ) ^ (-1021 : ℤ) ≤ q) (hq' : q ≤ 2 ^ 1022) (hn : n ≤ 999) :
    ofRat x = fin (rnd x) ∧ Near (n + 1) (rnd x) q := by
  have hp : (0 : ℚ) < 2 ^ (-1021 : ℤ) := zpow_pos (by norm_num) _
  have hq0 : 0 ≤ q := by
    rcases hq with rfl | hq
    · rfl
    · exact hp.le.trans hq
  have hx := h.nonneg hq0
  refine ⟨ofRat_fin ?_, h.trans (near_rnd ?_)⟩
  · rw [abs_of_nonneg hx, pow_succ]
    exact (h.le_two hq0 (by omega)).trans (mul_le_mul_of_nonneg_right hq' (by norm_num))
  · rcases hq with rfl | hq
    · left
      have h1 := h.1
      have h2 := h.2
      rw [zero_mul] at h1 h2
      exact le_antisymm h2 h1
    · right
      have e : (2 : ℚ) ^ (-1021 : ℤ) = 2 ^ (-1022 : ℤ) * 2 := by
        rw [show (-1021 : ℤ) = -1022 + 1 by norm_num, zpow_add₀ (by norm_num)]; norm_num
      rw [e] at hq
      have := h.half_le hq0 (by omega)
      generalize (2 : ℚ) ^ (-1022 : ℤ) = B at *
      linarith

theorem one_ge_tiny : (2 : ℚ) ^ (-1021 : ℤ) ≤ 1 := zpow_le_one_of_nonpos₀ (by norm_num) (by norm_num)

/-- Up to 300 digits are evaluated with two roundings per digit. -/
theorem evalDigits_near (pow : Dbl → Dbl) (ds : List UInt8) (hd : ∀ c ∈ ds, IsDigitIn 10 c) (hn : ds.length ≤ 300) :
    ∃ x, evalDigits (dblOps pow) ds = fin x ∧ Near (2 * ds.length) x (numeralIn 10 ds) := by
  have h0 (n : ℕ) (hn : n < 2 ^ 53) : ofInt (n : ℤ) = fin n := by
    rw [ofInt_eq (by rw [Nat.abs_cast]; exact_mod_cast hn)]; simp
  induction ds using List.reverseRecOn with
  | nil => exact ⟨0, by simpa [evalDigits, dblOps] using h0 0 (by norm_num), by simp [numeralIn, Near]⟩
  | append_singleton ds c ih =>
    rw [List.length_append, List.length_singleton] at hn ⊢
    obtain ⟨x, hx, hnear⟩ := ih (fun c hc => hd c (by simp [hc])) (by omega)
    have hc := digit_lt (hd c (by simp))
    have hN := numeralIn_lt ds (fun c hc => hd c (by simp [hc]))
    have hN' : (numeralIn 10 ds : ℚ) * 10 + 10 ≤ 2 ^ 1022 := by
      have h1 : numeralIn 10 ds + 1 ≤ 10 ^ 299 := hN.trans_le (Nat.pow_le_pow_right (by norm_num) (by omega))
      have h2 : ((numeralIn 10 ds : ℚ) + 1) * 10 ≤ 10 ^ 299 * 10 := mul_le_mul_of_nonneg_right (by exact_mod_cast h1) (by norm_num)
      rw [← pow_succ] at h2
      have h3 := ten300.trans (pow_le_pow_right₀ (by norm_num : (1 : ℚ) ≤ 2) (by norm_num : 1000 ≤ 1022))
      linarith [h2.trans h3]
    have hcq : ((digitValue c).getD 0 : ℚ) ≤ 10 := by exact_mod_cast hc.le
    have tiny (n : ℕ) : (n : ℚ) = 0 ∨ (2 : ℚ) ^ (-1021 : ℤ) ≤ n := by
      rcases Nat.eq_zero_or_pos n with rfl | h
      · left; simp
      · right; exact one_ge_tiny.trans (by exact_mod_cast h)
    have n1 : Near (2 * ds.length) (x * 10) ((10 * numeralIn 10 ds : ℕ) : ℚ) := by
      have := Near.mul hnear (Near.refl (q := 10)) (Nat.cast_nonneg _) (by norm_num)
      push_cast
      rw [mul_comm (10 : ℚ)]
      exact this
    obtain ⟨e1, n2⟩ := near_ofRat n1 (tiny _) (by push_cast; linarith) (by omega)
    have n3 : Near (2 * ds.length + 1) (rnd (x * 10) + ((digitValue c).getD 0 : ℕ)) ((10 * numeralIn 10 ds + (digitValue c).getD 0 : ℕ) : ℚ) := by
      push_cast at n2 ⊢
      exact n2.add_exact (Nat.cast_nonneg _)
    obtain ⟨e2, n4⟩ := near_ofRat n3 (tiny _) (by push_cast; linarith) (by omega)
    refine ⟨_, ?_, by rw [numeralIn_snoc]; exact n4⟩
    rw [evalDigits_snoc, hx]
    simp only [dblOps]
    rw [show (10 : ℤ) = ((10 : ℕ) : ℤ) from rfl, h0 10 (by norm_num), h0 _ (by omega : (digitValue c).getD 0 < 2 ^ 53)]
    simp only [mul, Nat.cast_ofNat]
    rw [e1]
    simp only [add]
    rw [e2]

/-- A power of ten of moderate size. -/
theorem near_pow (k : ℤ) (h : |k| ≤ 300) : ofRat (10 ^ k) = fin (rnd (10 ^ k)) ∧ Near 1 (rnd (10 ^ k)) (10 ^ k) := by
  have hk := _root_.abs_le.1 h
  have h1 : (10 : ℚ) ^ k ≤ 10 ^ (300 : ℕ) := by
    rw [← zpow_natCast]; exact zpow_le_zpow_right₀ (by norm_num) hk.2
  have h2 : ((10 : ℚ) ^ (300 : ℕ))⁻¹ ≤ 10 ^ k := by
    rw [← zpow_natCast, ← zpow_neg]; exact zpow_le_zpow_right₀ (by norm_num) hk.1
  have h3 : (2 : ℚ) ^ (-1021 : ℤ) ≤ ((10 : ℚ) ^ (300 : ℕ))⁻¹ := by
    rw [zpow_neg]
    apply inv_anti₀ (by positivity)
    refine ten300.trans ?_
    rw [← zpow_natCast]
    exact zpow_le_zpow_right₀ (by norm_num) (by norm_num)
  have h4 := ten300.trans (pow_le_pow_right₀ (by norm_num : (1 : ℚ) ≤ 2) (by norm_num : 1000 ≤ 1022))
  exact near_ofRat (n := 0) Near.refl (.inr (h3.trans h2)) (h1.trans h4) (by norm_num)

end Dbl
end Pyincpp
