import Verif.Proof.IntAnyDiv
import Verif.Proof.IntNum
import Verif.Proof.IntRoot

/-! # Counting with `int`: the number functions -/

namespace Pyincpp

theorem numDigits_le_iff (z : ℤ) (k : ℕ) : numDigits z ≤ k ↔ |z| < 10 ^ k := by
  rw [numDigits_eq, enc_length_le_iff]

theorem short_digits_iff (z : ℤ) : Short z ↔ numDigits z ≤ maxLen := (numDigits_le_iff z maxLen).symm

theorem thousand_le : (1000 : ℤ) ≤ 10 ^ maxLen := by
  have h : (10:ℤ) ^ 3 ≤ 10 ^ maxLen := pow_le_pow_right₀ (by norm_num) (by unfold maxLen; norm_num)
  norm_num at h
  exact h

theorem short_small {z : ℤ} (h : |z| < 1000) : Short z := by
  unfold Short
  have := thousand_le
  omega

theorem short_of_abs_le {x y : ℤ} (h : Short y) (hxy : |x| ≤ |y|) : Short x := lt_of_le_of_lt hxy h

theorem numDigits_mono {x y : ℤ} (h : |x| ≤ |y|) : numDigits x ≤ numDigits y := by
  rw [numDigits_le_iff]
  exact lt_of_le_of_lt h ((numDigits_le_iff y _).1 le_rfl)

theorem numDigits_ge {x : ℤ} (h : x ≠ 0) : 10 ^ (numDigits x - 1) ≤ |x| := by
  have := numDigits_pos h
  by_contra hc
  rw [not_le, ← numDigits_le_iff] at hc
  omega

theorem numDigits_mul {x y : ℤ} (hx : x ≠ 0) (hy : y ≠ 0) : numDigits x + numDigits y ≤ numDigits (x * y) + 1 := by
  by_contra hc
  have h1 := numDigits_ge hx
  have h2 := numDigits_ge hy
  have p1 := numDigits_pos hx
  have p2 := numDigits_pos hy
  have h3 : numDigits (x * y) ≤ (numDigits x - 1) + (numDigits y - 1) := by omega
  rw [numDigits_le_iff, pow_add, abs_mul] at h3
  have h4 : (10:ℤ) ^ (numDigits x - 1) * 10 ^ (numDigits y - 1) ≤ |x| * |y| :=
    mul_le_mul h1 h2 (by positivity) (abs_nonneg x)
  omega

theorem big_mul_short {x y : ℤ} (h : Short (x * y)) : Big.mul (enc x) (enc y) = BInt.mul (enc x) (enc y) := by
  rw [big_mul, if_pos]
  by_cases hx : x = 0
  · exact Or.inl hx
  by_cases hy : y = 0
  · exact Or.inr (Or.inl hy)
  right; right
  have := numDigits_mul hx hy
  rw [short_digits_iff] at h
  omega

theorem addFits_nonneg {x y : ℤ} (hx : 0 ≤ x) (hy : 0 ≤ y) (h : Short (x + y)) : AddFits x y := by
  unfold AddFits
  by_cases hx0 : x = 0
  · exact Or.inl hx0
  by_cases hy0 : y = 0
  · exact Or.inr (Or.inl hy0)
  right; right; left
  unfold Short at h
  rw [abs_of_nonneg (by omega)] at h
  refine ⟨by rw [Int.sign_eq_one_of_pos (by omega), Int.sign_eq_one_of_pos (by omega)], ?_⟩
  rw [abs_of_nonneg hx, abs_of_nonneg hy]
  have hp : (10:ℤ) ^ maxLen < 10 ^ (maxLen + 1) := by
    rw [pow_succ]
    have : (0:ℤ) < 10 ^ maxLen := by positivity
    linarith
  refine ⟨by omega, ?_⟩
  rw [Int.emod_eq_of_lt hx (by linarith)]
  linarith

theorem not_dvd_of_short {x : ℤ} (h0 : 0 < x) (h : x < 10 ^ (maxLen + 1)) : ¬ (10 ^ (maxLen + 1) ∣ x) :=
  fun hd => absurd (Int.le_of_dvd h0 hd) (not_le.2 h)

theorem pow_lt_succ : (10:ℤ) ^ maxLen < 10 ^ (maxLen + 1) := by
  rw [pow_succ]
  have : (0:ℤ) < 10 ^ maxLen := by positivity
  linarith

theorem big_absInc_short {x : ℤ} (h0 : 0 ≤ x) (h : x < 10 ^ maxLen) : Big.absInc (enc x) = BInt.absInc (enc x) := by
  rw [big_absInc, if_neg]
  rw [abs_of_nonneg h0]
  have := pow_lt_succ
  exact not_dvd_of_short (by omega) (by omega)

theorem big_absDec_short {x : ℤ} (h0 : 0 < x) (h : x < 10 ^ maxLen) : Big.absDec (enc x) = BInt.absDec (enc x) := by
  rw [big_absDec (by omega), if_neg]
  have := pow_lt_succ
  exact not_dvd_of_short h0 (by omega)

theorem codeMod_abs_le (x y : ℤ) : |codeMod x y| ≤ |x| := by
  unfold codeMod
  split
  · exact le_rfl
  · by_cases hy : y = 0
    · subst hy; simp
    · have hp : 0 < |y| := abs_pos.2 hy
      rw [abs_of_nonneg (Int.emod_nonneg _ hp.ne')]
      have h1 := Int.mul_ediv_add_emod |x| |y|
      have h2 : 0 ≤ |x| / |y| := Int.ediv_nonneg (abs_nonneg x) hp.le
      have h3 : 0 ≤ |y| * (|x| / |y|) := by positivity
      linarith

theorem codeMod_abs_lt (x : ℤ) {y : ℤ} (hy : y ≠ 0) : |codeMod x y| < |y| := by
  have hp : 0 < |y| := abs_pos.2 hy
  unfold codeMod
  split
  · rename_i h
    exact enc_len_lt h
  · rw [abs_of_nonneg (Int.emod_nonneg _ hp.ne')]
    exact Int.emod_lt_of_pos _ hp

/-! ## gcd, lcm -/

theorem big_gcd_short {k : ℕ} (hk : 11 ≤ k) {a b : ℤ} (h : b = 0 ∨ Short a ∧ Short b) :
    Big.gcd .lenient k (enc a) (enc b) = BInt.gcd .lenient k (enc a) (enc b) := by
  unfold Big.gcd BInt.gcd
  rw [ofInt_small (by norm_num) (by norm_num)]
  simp only [Res.ok_bind, abs_enc]
  rw [whileF_congr (cond' := fun (s : BInt × BInt) => Res.ok (!(BInt.eq s.2 (enc 0))))
    (body' := fun s => do
      let r ← BInt.mod .lenient k s.1 s.2
      pure (s.2, r))
    (fun s : BInt × BInt => ∃ x y : ℤ, s = (enc x, enc y) ∧ (y = 0 ∨ Short x ∧ Short y)) ?_ _ _ ?_]
  · rintro s ⟨x, y, rfl, hs⟩
    refine ⟨rfl, ?_⟩
    simp only [eq_enc_iff]
    intro hy
    have hy0 : y ≠ 0 := by simpa using hy
    have hs' := hs.resolve_left hy0
    refine ⟨by rw [big_mod_short .lenient (by omega) hy0 hs'.1 hs'.2], ?_⟩
    intro s' h
    rw [mod_enc hk _ hy0] at h
    simp only [Res.ok_bind, Res.pure_eq] at h
    injection h with h
    exact ⟨y, codeMod x y, h.symm, Or.inr ⟨hs'.2, short_of_abs_le hs'.1 (codeMod_abs_le x y)⟩⟩
  · refine ⟨|a|, |b|, rfl, ?_⟩
    rcases h with h | h
    · left; simp [h]
    · right
      unfold Short at *
      rw [abs_abs, abs_abs]
      exact h

theorem big_gcd_long {k : ℕ} (hk : 11 ≤ k) {a b : ℤ} (hb : b ≠ 0) (h : ¬ (Short a ∧ Short b)) :
    Big.gcd .lenient k (enc a) (enc b) = .ub .overflow := by
  unfold Big.gcd
  rw [ofInt_small (by norm_num) (by norm_num)]
  simp only [Res.ok_bind, abs_enc]
  obtain ⟨k, rfl⟩ : ∃ j, k = j + 1 := ⟨k - 1, by omega⟩
  rw [whileF]
  simp only [eq_enc_iff, Res.ok_bind]
  have hb' : |b| ≠ 0 := by simpa using hb
  rw [big_mod_long .lenient _ hb' (by
    unfold Short at *
    rwa [abs_abs, abs_abs])]
  simp [hb]

theorem lcm_sum {a b : ℤ} (ha : a ≠ 0) (hb : b ≠ 0) (h : numDigits a + numDigits b ≤ maxLen + 1) :
    Short a ∧ Short b := by
  have p1 := numDigits_pos ha
  have p2 := numDigits_pos hb
  rw [short_digits_iff, short_digits_iff]
  omega

theorem big_lcm_short {k : ℕ} (hk : 11 ≤ k) {a b : ℤ} (hr : euclid a.natAbs b.natAbs < k) (h : a = 0 ∨ b = 0 ∨ Short (a * b)) :
    Big.lcm .lenient k (enc a) (enc b) = BInt.lcm .lenient k (enc a) (enc b) := by
  unfold Big.lcm BInt.lcm
  simp only [isZero_enc, decide_eq_true_eq]
  by_cases h0 : a = 0 ∨ b = 0
  · rw [if_pos h0, if_pos h0]
  · rw [if_neg h0, if_neg h0]
    push Not at h0
    have hs : Short (a * b) := by tauto
    rw [big_mul_short hs, mul_enc]
    simp only [Res.ok_bind, abs_enc]
    have hmul := numDigits_mul h0.1 h0.2
    have hs' := hs
    rw [short_digits_iff] at hs'
    have hab := lcm_sum h0.1 h0.2 (by omega)
    rw [big_gcd_short hk (Or.inr hab), gcd_sharp hk hr]
    simp only [Res.ok_bind]
    have hg : (Int.gcd a b : ℤ) ≠ 0 := by
      have := Int.gcd_pos_of_ne_zero_left b h0.1
      omega
    refine big_div_short .lenient (by omega) hg (by unfold Short at *; rwa [abs_abs]) ?_
    refine short_of_abs_le hab.1 ?_
    rw [abs_of_nonneg (by omega)]
    exact Int.le_of_dvd (abs_pos.2 h0.1) ((dvd_abs _ _).2 (Int.gcd_dvd_left ..))

theorem big_lcm_long {k : ℕ} (hk : 11 ≤ k) {a b : ℤ} (hr : euclid a.natAbs b.natAbs < k) (h0 : a ≠ 0 ∧ b ≠ 0)
    (h : ¬ Short (a * b)) : Big.lcm .lenient k (enc a) (enc b) = .ub .overflow := by
  unfold Big.lcm
  simp only [isZero_enc, decide_eq_true_eq]
  rw [if_neg (by tauto), big_mul]
  by_cases hsum : numDigits a + numDigits b ≤ maxLen + 1
  · rw [if_pos (Or.inr (Or.inr hsum)), mul_enc]
    simp only [Res.ok_bind, abs_enc]
    have hab := lcm_sum h0.1 h0.2 hsum
    rw [big_gcd_short hk (Or.inr hab), gcd_sharp hk hr]
    simp only [Res.ok_bind]
    have hg : (Int.gcd a b : ℤ) ≠ 0 := by
      have := Int.gcd_pos_of_ne_zero_left b h0.1
      omega
    refine big_div_long .lenient _ hg ?_
    rintro ⟨h1, -⟩
    apply h
    unfold Short at *
    rwa [abs_abs] at h1
  · rw [if_neg (by tauto)]; rfl

/-! ## factorial -/

theorem big_factorial_short {k n : ℕ} (h : Short (n.factorial : ℤ)) :
    Big.factorial k (enc (n : ℤ)) = BInt.factorial k (enc (n : ℤ)) := by
  unfold Big.factorial BInt.factorial
  rw [ofInt_small (by norm_num) (by norm_num)]
  simp only [Res.ok_bind]
  have hn : ¬ (enc (n : ℤ)).sign = -1 := by rw [enc_sign, Int.sign_eq_neg_one_iff_neg]; omega
  rw [if_neg hn, if_neg hn]
  rw [whileF_congr (cond' := fun (s : BInt × BInt) => .ok (BInt.isPositive s.1))
      (body' := fun s => do
        let r ← BInt.mul s.2 s.1
        pure (← BInt.absDec s.1, r))
    (fun s : BInt × BInt => ∃ i r : ℕ, s = (enc i, enc r) ∧ r * i.factorial = n.factorial) ?_ _ _
    ⟨n, 1, by simp, by simp⟩]
  rintro s ⟨i, r, rfl, hs⟩
  refine ⟨rfl, ?_⟩
  simp only [isPositive_enc]
  intro hi
  have hi0 : 0 < i := by simpa using hi
  obtain ⟨j, rfl⟩ : ∃ j, i = j + 1 := ⟨i - 1, by omega⟩
  have hle : r * (j + 1) ≤ n.factorial := by
    rw [← hs, Nat.factorial_succ, ← mul_assoc]
    exact Nat.le_mul_of_pos_right _ (Nat.factorial_pos j)
  have hr : 0 < r := by
    rcases Nat.eq_zero_or_pos r with h | h
    · subst h
      have := Nat.factorial_pos n
      omega
    · exact h
  have hle2 : j + 1 ≤ n.factorial := le_trans (Nat.le_mul_of_pos_left _ hr) hle
  have hS : |(n.factorial : ℤ)| < 10 ^ maxLen := h
  rw [abs_of_nonneg (by omega)] at hS
  have e1 : Big.mul (enc (r : ℤ)) (enc ((j + 1 : ℕ) : ℤ)) = BInt.mul (enc (r : ℤ)) (enc ((j + 1 : ℕ) : ℤ)) := by
    refine big_mul_short (short_of_abs_le h ?_)
    rw [abs_of_nonneg (by positivity), abs_of_nonneg (by omega)]
    exact_mod_cast hle
  have e2 : Big.absDec (enc ((j + 1 : ℕ) : ℤ)) = BInt.absDec (enc ((j + 1 : ℕ) : ℤ)) := by
    refine big_absDec_short (by omega) ?_
    have : ((j + 1 : ℕ) : ℤ) ≤ (n.factorial : ℤ) := by exact_mod_cast hle2
    linarith
  refine ⟨by rw [e1, e2], ?_⟩
  intro s' hs'
  rw [mul_enc, absDec_enc (by omega), Int.sign_eq_one_of_pos (by omega)] at hs'
  simp only [Res.ok_bind, Res.pure_eq] at hs'
  injection hs' with hs'
  refine ⟨j, r * (j + 1), ?_, by rw [← hs, Nat.factorial_succ]; ring⟩
  rw [← hs']
  push_cast
  simp

theorem big_factorial_loop {n : ℕ} (h : ¬ Short (n.factorial : ℤ)) :
    ∀ (k i r : ℕ), 0 < i → i < k → r * i.factorial = n.factorial →
    whileF (fun (s : BInt × BInt) => .ok (BInt.isPositive s.1))
      (fun s => do
        let r ← Big.mul s.2 s.1
        pure (← Big.absDec s.1, r)) k (enc (i : ℤ), enc (r : ℤ)) = .ub .overflow
  | 0, i, r, _, h2, _ => by omega
  | k + 1, i, r, h1, h2, hr => by
    rw [whileF]
    have hi : decide ((0:ℤ) < i) = true := by simpa using h1
    simp only [isPositive_enc, Res.ok_bind, hi, if_true]
    rw [big_mul]
    by_cases hm : (r : ℤ) = 0 ∨ (i : ℤ) = 0 ∨ numDigits r + numDigits i ≤ maxLen + 1
    · rw [if_pos hm, mul_enc]
      simp only [Res.ok_bind]
      rw [big_absDec (by omega)]
      split
      · rfl
      · rw [absDec_enc (by omega), Int.sign_eq_one_of_pos (by omega)]
        simp only [Res.ok_bind, Res.pure_eq]
        obtain ⟨j, rfl⟩ : ∃ j, i = j + 1 := ⟨i - 1, by omega⟩
        by_cases hj : j = 0
        · exfalso
          subst hj
          have hrn : r = n.factorial := by simpa using hr
          subst hrn
          have hpos := Nat.factorial_pos n
          rcases hm with h' | h' | h'
          · omega
          · omega
          · apply h
            rw [short_digits_iff]
            have : 0 < numDigits ((0 + 1 : ℕ) : ℤ) := numDigits_pos (by norm_num)
            omega
        · have := big_factorial_loop h k j (r * (j + 1)) (by omega) (by omega) (by rw [← hr, Nat.factorial_succ]; ring)
          rw [← this]
          push_cast
          simp
    · rw [if_neg hm]; rfl

theorem big_factorial_long {k n : ℕ} (hk : n < k) (h : ¬ Short (n.factorial : ℤ)) :
    Big.factorial k (enc (n : ℤ)) = .ub .overflow := by
  unfold Big.factorial
  rw [ofInt_small (by norm_num) (by norm_num)]
  simp only [Res.ok_bind]
  have hn : ¬ (enc (n : ℤ)).sign = -1 := by rw [enc_sign, Int.sign_eq_neg_one_iff_neg]; omega
  rw [if_neg hn]
  have hn0 : 0 < n := by
    rcases Nat.eq_zero_or_pos n with h0 | h0
    · subst h0
      exact absurd (short_small (by norm_num)) h
    · exact h0
  have := big_factorial_loop h k n 1 hn0 hk (by simp)
  rw [show ((1:ℕ):ℤ) = 1 by norm_num] at this
  rw [this]; rfl

/-! ## is_prime -/

theorem half_len : ∃ h, maxLen + 1 = 2 * h ∧ 1 ≤ h := ⟨1073741824, by unfold maxLen; norm_num, by norm_num⟩

theorem root_digits {i x : ℤ} (hi : 2 ≤ i) (h : (i - 1) * (i - 1) ≤ x) (hx : x < 10 ^ maxLen) :
    numDigits i + numDigits i ≤ maxLen + 1 := by
  obtain ⟨m, hm, hm1⟩ := half_len
  suffices numDigits i ≤ m by omega
  rw [numDigits_le_iff, abs_of_pos (by omega)]
  by_contra hc
  rw [not_lt] at hc
  have h1 : (10:ℤ) ^ (maxLen + 1) = 10 ^ m * 10 ^ m := by rw [hm, two_mul, pow_add]
  have h2 : (10:ℤ) ^ (maxLen + 1) = 10 * 10 ^ maxLen := by rw [pow_succ]; ring
  have h3 : (10:ℤ) ≤ 10 ^ m := by
    have : (10:ℤ) ^ 1 ≤ 10 ^ m := pow_le_pow_right₀ (by norm_num) hm1
    simpa using this
  generalize (10:ℤ) ^ m = P at *
  generalize (10:ℤ) ^ maxLen = Q at *
  have h4 : (P - 1) * (P - 1) ≤ (i - 1) * (i - 1) := mul_self_le_mul_self (by omega) (by omega)
  nlinarith

theorem big_isPrimeLoop {k : ℕ} (hk : 11 ≤ k) {x : ℤ} (hx : x < 10 ^ maxLen) :
    ∀ (n : ℕ) (i : ℤ), 2 ≤ i → (i - 1) * (i - 1) ≤ x →
    Big.isPrimeLoop .lenient k (enc x) n (enc i) = BInt.isPrimeLoop .lenient k (enc x) n (enc i)
  | 0, _, _, _ => rfl
  | n + 1, i, hi, h => by
    unfold Big.isPrimeLoop BInt.isPrimeLoop
    have hx0 : 0 ≤ x := le_trans (mul_self_nonneg _) h
    have hs : Short x := by unfold Short; rwa [abs_of_nonneg hx0]
    rw [big_mul, if_pos (Or.inr (Or.inr (root_digits hi h hx))), mul_enc]
    simp only [Res.ok_bind]
    rw [big_le_short (Or.inr hs), le_enc]
    simp only [Res.ok_bind]
    by_cases hle : i * i ≤ x
    · have hix : i ≤ x := by nlinarith
      have hsi : Short i := short_of_abs_le hs (by rw [abs_of_pos (by omega), abs_of_nonneg hx0]; exact hix)
      rw [big_mod_short .lenient (by omega) (by omega) hs hsi, mod_enc hk _ (by omega)]
      simp only [Res.ok_bind, hle, decide_true, if_true]
      rw [big_absInc_short (by omega) (by omega), absInc_enc (by omega), Int.sign_eq_one_of_pos (by omega)]
      simp only [Res.ok_bind]
      rw [big_isPrimeLoop hk hx n (i + 1) (by omega) (by simpa using hle)]
    · simp only [hle, decide_false, Bool.false_eq_true, if_false]

theorem big_isPrime_short {k : ℕ} (hk : 11 ≤ k) {x : ℤ} (h : x < 10 ^ maxLen) :
    Big.isPrime .lenient k (enc x) = BInt.isPrime .lenient k (enc x) := by
  unfold Big.isPrime BInt.isPrime
  rw [ofInt_small (by norm_num) (by norm_num), ofInt_small (by norm_num) (by norm_num)]
  simp only [Res.ok_bind]
  rw [big_le_short (Or.inr (short_small (by norm_num))), le_enc]
  simp only [Res.ok_bind]
  by_cases h1 : x ≤ 1
  · simp only [h1, decide_true, if_true]
  · simp only [h1, decide_false, Bool.false_eq_true, if_false]
    exact big_isPrimeLoop hk h k 2 le_rfl (by omega)

theorem big_isPrime_long {k : ℕ} (hk : 11 ≤ k) {x : ℤ} (h : 10 ^ maxLen ≤ x) :
    Big.isPrime .lenient k (enc x) = .ub .overflow := by
  have ht := thousand_le
  unfold Big.isPrime
  rw [ofInt_small (by norm_num) (by norm_num), ofInt_small (by norm_num) (by norm_num)]
  simp only [Res.ok_bind]
  rw [big_le_short (Or.inr (short_small (by norm_num))), le_enc]
  have h1 : ¬ x ≤ 1 := by omega
  simp only [Res.ok_bind, h1, decide_false, Bool.false_eq_true, if_false]
  obtain ⟨k, rfl⟩ : ∃ j, k = j + 1 := ⟨k - 1, by omega⟩
  unfold Big.isPrimeLoop
  rw [big_mul_short (short_small (by norm_num)), mul_enc]
  simp only [Res.ok_bind]
  rw [big_le_short (Or.inl (short_small (by norm_num))), le_enc]
  have h2 : (2 * 2 : ℤ) ≤ x := by omega
  simp only [Res.ok_bind, h2, decide_true, if_true]
  rw [big_mod_long .lenient _ (by norm_num) (by
    rintro ⟨hs, -⟩
    unfold Short at hs
    rw [abs_of_pos (by omega)] at hs
    omega)]
  rfl

end Pyincpp
