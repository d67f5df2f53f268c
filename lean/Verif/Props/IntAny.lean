import Verif.Model.IntAny
import Verif.Spec.IntAny
import Verif.Proof.IntAnyText
import Verif.Props.IntMore

/-! # C99: integers with any number of digits

C99 says that `Int` computes with numbers of any length. It does not: the counters of its loops and the result of
`digits()` are `int`. `maxLen` is `INT_MAX`; `Short z` says that `z` has at most `INT_MAX` digits. The theorems say for every
operation and all operands whether the counters suffice; if so the result is the one of C01 to C20, and if not the behaviour
is undefined (`overflow`), except that comparison, `to_integer` and reading silently go by a part of the digits. -/

namespace Pyincpp

/-! ## Comparison -/

/-- C99 for `<=>`: right if the signs or the numbers of digits differ, or there are at most 2^31 digits. -/
theorem C99_cmp_partial (x y : ℤ) (h : x.sign ≠ y.sign ∨ numDigits x ≠ numDigits y ∨ numDigits x ≤ maxLen + 1) :
    Big.cmp (enc x) (enc y) = .ok (x - y).sign := by
  rw [← cmp_enc]
  rcases h with h | h | h
  · exact big_cmp_sign h
  · exact big_cmp_len (by rw [← numDigits_eq, ← numDigits_eq]; exact h)
  · exact big_cmp (by rw [← numDigits_eq]; exact h)

/-- C99 for `<=>`, exactly: of two numbers of the same sign and the same number of digits only the `lowDigits` lowest digits are compared. -/
theorem C99_cmp_low (x y : ℤ) (hs : x.sign = y.sign) (hd : numDigits x = numDigits y) :
    Big.cmp (enc x) (enc y) =
      .ok (x.sign * Int.sign (|x| % 10 ^ lowDigits (numDigits x) - |y| % 10 ^ lowDigits (numDigits x))) := big_cmp_low hs hd

/-- Up to 2^31 digits are all compared; with 2^31 + 1 to 2^32 digits none is. -/
theorem C99_lowDigits (d : ℕ) : (d ≤ maxLen + 1 → lowDigits d = d) ∧ (maxLen + 1 < d → d ≤ 4294967296 → lowDigits d = 0) := by
  unfold lowDigits maxLen
  constructor
  · intro h; split <;> omega
  · intro h1 h2; split <;> omega

example : lowDigits 7 = 7 ∧ lowDigits 3000000000 = 0 ∧ lowDigits 5000000000 = 705032704 := by unfold lowDigits; norm_num

/-- C99 for `<=>`: two different numbers, neither of which is less than the other. -/
theorem C99_cmp_not : ∃ x y : ℤ, x < y ∧ Big.lt (enc x) (enc y) = .ok false ∧ Big.ge (enc x) (enc y) = .ok true ∧
    BInt.eq (enc x) (enc y) = false := by
  obtain ⟨n, hn⟩ : ∃ n, n = maxLen + 1 := ⟨_, rfl⟩
  have hone : (1:ℤ) < 10 ^ n := one_lt_pow₀ (by norm_num) (by omega)
  have hx : numDigits (10 ^ n) = n + 1 := by simpa using numDigits_pow_ten n (le_refl 0) (by positivity)
  have hy : numDigits (10 ^ n + 1) = n + 1 := numDigits_pow_ten n (by norm_num) hone
  have hc := C99_cmp_low (10 ^ n) (10 ^ n + 1)
    (by rw [Int.sign_eq_one_of_pos (by positivity), Int.sign_eq_one_of_pos (by positivity)]) (by rw [hx, hy])
  have hl : lowDigits (n + 1) = 0 := (C99_lowDigits (n + 1)).2 (by omega) (by rw [hn]; unfold maxLen; norm_num)
  rw [hx, hl] at hc
  simp only [pow_zero, Int.emod_one, sub_self, Int.sign_zero, mul_zero] at hc
  refine ⟨10 ^ n, 10 ^ n + 1, by omega, ?_, ?_, ?_⟩
  · unfold Big.lt
    rw [hc]
    rfl
  · unfold Big.ge
    rw [hc]
    rfl
  · rw [eq_enc_iff]
    simp

example : (123 : ℤ).sign ≠ (-5 : ℤ).sign ∨ numDigits 123 ≠ numDigits (-5) ∨ numDigits 123 ≤ maxLen + 1 := by
  left
  rw [Int.sign_eq_one_of_pos (by norm_num), Int.sign_eq_neg_one_of_neg (by norm_num)]
  norm_num

/-! ## digits, +, -, *, ++, -- -/

open Classical in
/-- C99 for `digits()`: the number of digits, if an `int` can hold it. -/
theorem C99_digits (x : ℤ) : Big.digits (enc x) = if Short x then .ok (numDigits x : ℤ) else .ub .overflow := big_digits x

open Classical in
/-- C99 for `+` and `-`: exactly if the shorter operand has at most `INT_MAX` digits and the carry (for opposite signs the borrow) does
not pass 2^31 digits. -/
theorem C99_add (x y : ℤ) :
    (if AddFits x y then Returns (fun k => Big.add .lenient k (enc x) (enc y)) (enc (x + y))
      else HitsUB (fun k => Big.add .lenient k (enc x) (enc y)) .overflow) ∧
    (if AddFits x (-y) then Returns (fun k => Big.sub .lenient k (enc x) (enc y)) (enc (x - y))
      else HitsUB (fun k => Big.sub .lenient k (enc x) (enc y)) .overflow) := by
  constructor
  · split
    · rename_i h
      exact ⟨2, fun k hk => by beta_reduce; rw [big_add .lenient hk, if_pos h, add_enc hk]⟩
    · rename_i h
      exact ⟨2, fun k hk => by beta_reduce; rw [big_add .lenient hk, if_neg h]⟩
  · split
    · rename_i h
      exact ⟨2, fun k hk => by beta_reduce; rw [big_sub .lenient hk, if_pos h, sub_enc hk]⟩
    · rename_i h
      exact ⟨2, fun k hk => by beta_reduce; rw [big_sub .lenient hk, if_neg h]⟩

/-- Two numbers of at most `INT_MAX` digits can always be added and subtracted. -/
theorem C99_add_short (x y : ℤ) (hx : Short x) (hy : Short y) : AddFits x y ∧ AddFits x (-y) := by
  have key : ∀ a b : ℤ, Short a → Short b → AddFits a b := by
    intro a b ha hb
    unfold Short at ha hb
    have hp : (10:ℤ) ^ (maxLen + 1) = 10 * 10 ^ maxLen := by rw [pow_succ]; ring
    unfold AddFits CarryFits BorrowFits
    have ha0 := abs_nonneg a
    have hb0 := abs_nonneg b
    rw [hp]
    generalize (10:ℤ) ^ maxLen = P at *
    by_cases hs : a.sign = b.sign
    · right; right; left
      refine ⟨hs, hb, ?_⟩
      rw [Int.emod_eq_of_lt ha0 (by omega)]
      omega
    · right; right; right
      refine ⟨hs, by omega, ?_⟩
      rw [Int.emod_eq_of_lt (by omega) (by omega)]
      omega
  refine ⟨key x y hx hy, key x (-y) hx ?_⟩
  unfold Short at *
  rwa [abs_neg]

/-- C99 for `+`: twice a number of 2^31 digits is undefined, and so is adding 1 to 2^31 nines. -/
theorem C99_add_not : (∃ x : ℤ, HitsUB (fun k => Big.add .lenient k (enc x) (enc x)) .overflow) ∧
    ∃ x : ℤ, HitsUB (fun k => Big.add .lenient k (enc x) (enc 1)) .overflow := by
  classical
  obtain ⟨P, hP⟩ : ∃ P : ℤ, P = 10 ^ maxLen := ⟨_, rfl⟩
  have hpos : 1000 ≤ P := hP ▸ thousand_le
  have hp : (10:ℤ) ^ (maxLen + 1) = 10 * P := by rw [pow_succ, hP]; ring
  constructor
  · refine ⟨P, ?_⟩
    have h := (C99_add P P).1
    rwa [if_neg] at h
    unfold AddFits CarryFits
    rw [← hP, abs_of_pos (by omega)]
    rintro (h | h | ⟨-, h, -⟩ | ⟨h, -⟩)
    · omega
    · omega
    · omega
    · exact h rfl
  · refine ⟨10 * P - 1, ?_⟩
    have h := (C99_add (10 * P - 1) 1).1
    rwa [if_neg] at h
    unfold AddFits CarryFits
    rw [hp, ← hP, abs_of_pos (by omega), abs_of_pos (by omega), Int.emod_eq_of_lt (by omega) (by omega)]
    rintro (h | h | ⟨-, -, h⟩ | ⟨h, -⟩)
    · omega
    · omega
    · omega
    · rw [Int.sign_eq_one_of_pos (by omega)] at h
      exact h rfl

example : Short 123 ∧ AddFits 999 1 ∧ AddFits 5 (-7) :=
  ⟨short_small (by norm_num), (C99_add_short 999 1 (short_small (by norm_num)) (short_small (by norm_num))).1,
    (C99_add_short 5 7 (short_small (by norm_num)) (short_small (by norm_num))).2⟩

/-- C99 for `*`: exactly if the operands have at most 2^31 digits together, or one is zero. -/
theorem C99_mul (x y : ℤ) : Big.mul (enc x) (enc y) =
    if x = 0 ∨ y = 0 ∨ numDigits x + numDigits y ≤ maxLen + 1 then .ok (enc (x * y)) else .ub .overflow := by
  rw [big_mul, mul_enc]

/-- C99 for `*`: the product of two numbers of 2^30 + 1 digits is undefined although it has fewer than 2^31 + 2 digits. -/
theorem C99_mul_not : ∃ x : ℤ, numDigits x = 1073741825 ∧ Big.mul (enc x) (enc x) = .ub .overflow := by
  obtain ⟨n, hn⟩ : ∃ n, n = 1073741824 := ⟨_, rfl⟩
  have hx : numDigits (10 ^ n) = n + 1 := by simpa using numDigits_pow_ten n (le_refl 0) (by positivity)
  have h0 : (10:ℤ) ^ n ≠ 0 := by positivity
  refine ⟨10 ^ n, by rw [hx, hn], ?_⟩
  rw [C99_mul, if_neg]
  rintro (h | h | h)
  · exact h0 h
  · exact h0 h
  · rw [hx] at h
    unfold maxLen at h
    omega

/-- C99 for `++` and `--`: exactly if the carry or borrow ends within 2^31 digits. -/
theorem C99_inc (x : ℤ) :
    (Big.inc (enc x) = if x ≠ 0 ∧ 10 ^ (maxLen + 1) ∣ (if 0 < x then x + 1 else x) then .ub .overflow else .ok (enc (x + 1))) ∧
    (Big.dec (enc x) = if x ≠ 0 ∧ 10 ^ (maxLen + 1) ∣ (if 0 < x then x else x - 1) then .ub .overflow else .ok (enc (x - 1))) := by
  rw [big_inc, big_dec, inc_enc, dec_enc]
  exact ⟨rfl, rfl⟩

/-- C99 for `++`: 2^31 nines cannot be incremented. -/
theorem C99_inc_not : ∃ x : ℤ, numDigits x = maxLen + 1 ∧ Big.inc (enc x) = .ub .overflow := by
  have hpos : (0:ℤ) < 10 ^ maxLen := by positivity
  have hp : (10:ℤ) ^ (maxLen + 1) = 10 * 10 ^ maxLen := by rw [pow_succ]; ring
  refine ⟨10 ^ (maxLen + 1) - 1, ?_, ?_⟩
  · have := numDigits_pow_ten maxLen (a := 9 * 10 ^ maxLen - 1)
    have h1 : numDigits (10 ^ (maxLen + 1) - 1) ≤ maxLen + 1 := by
      rw [numDigits_le_iff, abs_of_nonneg (by omega)]; omega
    have h2 : ¬ numDigits (10 ^ (maxLen + 1) - 1) ≤ maxLen := by
      rw [numDigits_le_iff, abs_of_nonneg (by omega)]; omega
    omega
  · rw [(C99_inc _).1, if_pos]
    have h1 : (0:ℤ) < 10 ^ (maxLen + 1) - 1 := by omega
    refine ⟨by omega, ?_⟩
    rw [if_pos h1, sub_add_cancel]

/-! ## /, % -/

/-- C99 for `/` and `%`: exactly if both operands have at most `INT_MAX` digits. -/
theorem C99_div (x y : ℤ) (hy : y ≠ 0) :
    (Short x ∧ Short y → Returns (fun k => Big.div .lenient k (enc x) (enc y)) (enc (x.tdiv y)) ∧
      Returns (fun k => Big.mod .lenient k (enc x) (enc y)) (enc (if numDigits x < numDigits y then x else |x| % |y|))) ∧
    (¬ (Short x ∧ Short y) → HitsUB (fun k => Big.div .lenient k (enc x) (enc y)) .overflow ∧
      HitsUB (fun k => Big.mod .lenient k (enc x) (enc y)) .overflow) := by
  refine ⟨fun h => ⟨⟨11, fun k hk => ?_⟩, ⟨11, fun k hk => ?_⟩⟩, fun h => ⟨⟨0, fun k _ => ?_⟩, ⟨0, fun k _ => ?_⟩⟩⟩
  · beta_reduce; rw [big_div_short .lenient (by omega) hy h.1 h.2, div_enc hk _ hy]
  · beta_reduce; rw [big_mod_short .lenient (by omega) hy h.1 h.2, mod_enc hk _ hy]
    unfold codeMod
    rw [numDigits_eq, numDigits_eq]
  · exact big_div_long .lenient k hy h
  · exact big_mod_long .lenient k hy h

/-- C99 for `/`: even dividing by 1 is undefined for a number of 2^31 digits. -/
theorem C99_div_not : ∃ x : ℤ, HitsUB (fun k => Big.div .lenient k (enc x) (enc 1)) .overflow := by
  refine ⟨10 ^ maxLen, ((C99_div _ 1 (by norm_num)).2 ?_).1⟩
  rintro ⟨h, -⟩
  unfold Short at h
  rw [abs_of_pos (by positivity)] at h
  exact lt_irrefl _ h

/-! ## Number functions -/

/-- C99 for `gcd`: exactly if the second operand is zero or both have at most `INT_MAX` digits. -/
theorem C99_gcd (a b : ℤ) :
    ((b = 0 ∨ Short a ∧ Short b) → Returns (fun k => Big.gcd .lenient k (enc a) (enc b)) (enc (Int.gcd a b))) ∧
    (¬ (b = 0 ∨ Short a ∧ Short b) → HitsUB (fun k => Big.gcd .lenient k (enc a) (enc b)) .overflow) := by
  refine ⟨fun h => ⟨euclid a.natAbs b.natAbs + 12, fun k hk => ?_⟩, fun h => ⟨11, fun k hk => ?_⟩⟩
  · beta_reduce; rw [big_gcd_short (by omega) h, gcd_sharp (by omega) (by omega)]
  · exact big_gcd_long hk (fun hb => h (Or.inl hb)) (fun hs => h (Or.inr hs))

/-- C99 for `lcm`: exactly if the product of the operands has at most `INT_MAX` digits. -/
theorem C99_lcm (a b : ℤ) :
    (Short (a * b) → Returns (fun k => Big.lcm .lenient k (enc a) (enc b)) (enc (Int.lcm a b))) ∧
    (¬ Short (a * b) → HitsUB (fun k => Big.lcm .lenient k (enc a) (enc b)) .overflow) := by
  refine ⟨fun h => ⟨euclid a.natAbs b.natAbs + 12, fun k hk => ?_⟩, fun h => ⟨euclid a.natAbs b.natAbs + 12, fun k hk => ?_⟩⟩
  · beta_reduce; rw [big_lcm_short (by omega) (by omega) (Or.inr (Or.inr h)), lcm_sharp (by omega) (by omega)]
  · refine big_lcm_long (by omega) (by omega) ⟨?_, ?_⟩ h
    · rintro rfl
      exact h (by rw [zero_mul]; exact short_small (by norm_num))
    · rintro rfl
      exact h (by rw [mul_zero]; exact short_small (by norm_num))

/-- C99 for `factorial`: exactly if the result has at most `INT_MAX` digits. -/
theorem C99_factorial (n : ℕ) :
    (Short (n.factorial : ℤ) → Returns (fun k => Big.factorial k (enc n)) (enc n.factorial)) ∧
    (¬ Short (n.factorial : ℤ) → HitsUB (fun k => Big.factorial k (enc n)) .overflow) := by
  refine ⟨fun h => ⟨n + 1, fun k hk => ?_⟩, fun h => ⟨n + 1, fun k hk => big_factorial_long (by omega) h⟩⟩
  beta_reduce; rw [big_factorial_short h, factorial_enc (by omega)]

/-- C99 for `is_prime`: exactly if the number is negative or has at most `INT_MAX` digits. -/
theorem C99_isPrime (z : ℤ) :
    (z < 10 ^ maxLen → Returns (fun k => Big.isPrime .lenient k (enc z)) (decide (Nat.Prime z.toNat))) ∧
    (10 ^ maxLen ≤ z → HitsUB (fun k => Big.isPrime .lenient k (enc z)) .overflow) := by
  refine ⟨fun h => ⟨z.toNat + 11, fun k hk => ?_⟩, fun h => ⟨11, fun k hk => big_isPrime_long hk h⟩⟩
  beta_reduce; rw [big_isPrime_short (by omega) h, isPrime_sharp (by omega) (le_trans (Nat.sqrt_le_self _) (by omega))]

/-- C99 for `next_prime`: exactly if the next prime has at most `INT_MAX` digits. -/
theorem C99_nextPrime (z : ℤ) (P : ℕ) (hP : P.Prime) (hlt : z < P) (hmin : ∀ q : ℕ, z < q → q < P → ¬ q.Prime) :
    (Short (P : ℤ) → Returns (fun k => Big.nextPrime .lenient k (enc z)) (enc P)) ∧
    (¬ Short (P : ℤ) → HitsUB (fun k => Big.nextPrime .lenient k (enc z)) .overflow) := by
  unfold Short
  rw [abs_of_nonneg (by omega : (0:ℤ) ≤ (P : ℤ))]
  refine ⟨fun h => ⟨P + 11, fun k hk => ?_⟩, fun h => ⟨(10 ^ maxLen + 11 : ℤ).toNat, fun k hk => ?_⟩⟩
  · beta_reduce; rw [big_nextPrime_short hP hlt h (by omega) (le_trans (Nat.sqrt_le_self _) (by omega)), nextPrime_enc hP hlt hmin hk]
  · have ht := thousand_le
    refine big_nextPrime_none ?_ (fun q h1 h2 => hmin q h1 (by omega)) (by omega) (by omega)
    by_contra hc
    exact hmin 2 (by push_cast; omega) (by omega) Nat.prime_two

/-- C99 for `sqrt`: with at most `INT_MAX` digits it is as in C16, and beyond that it is undefined. -/
theorem C99_sqrt (n : ℕ) :
    (Short (n : ℤ) → ∀ k, 11 ≤ k → Big.sqrt .lenient k (enc n) = BInt.sqrt .lenient k (enc n)) ∧
    (¬ Short (n : ℤ) → HitsUB (fun k => Big.sqrt .lenient k (enc n)) .overflow) := by
  refine ⟨fun h k hk => big_sqrt_short hk h, fun h => ⟨11, fun k hk => big_sqrt_long hk ?_ h⟩⟩
  by_contra hc
  exact h (short_small (by rw [abs_of_nonneg (by omega)]; omega))

/-- C99 for `log`: exactly if both operands have at most `INT_MAX` digits. -/
theorem C99_log (n b : ℕ) (hn : 0 < n) (hb : 2 ≤ b) :
    (Short (n : ℤ) ∧ Short (b : ℤ) → Returns (fun k => Big.log .lenient k (enc n) (enc b)) (enc (Nat.log b n))) ∧
    (¬ (Short (n : ℤ) ∧ Short (b : ℤ)) → HitsUB (fun k => Big.log .lenient k (enc n) (enc b)) .overflow) := by
  refine ⟨fun h => ⟨Nat.log b n + 12, fun k hk => ?_⟩, fun h => ⟨0, fun k _ => big_log_long k (by omega) (by omega) h⟩⟩
  beta_reduce; rw [big_log_short (by omega) (by omega) (by omega) h.1 h.2, log_sharp hn hb (by omega) (by omega)]
  have := (short_len_iff (n : ℤ)).1 h.1
  exact this

/-- C99 for `pow` without modulus, `|b| ≥ 2`: exactly if the highest power `b^(2^i)` with `2^i ≤ e` has at most 2^30 digits. The last squaring, which is not
used, is the one that fails. -/
theorem C99_pow (b : ℤ) (e : ℕ) (hs : Short b) (hb : 2 ≤ |b|) (he : 1 ≤ e) :
    (2 * numDigits (b ^ 2 ^ Nat.log 2 e) ≤ maxLen + 1 →
      Returns (fun k => Big.pow .lenient k (enc b) (enc e) (enc 0)) (enc (b ^ e))) ∧
    (maxLen + 1 < 2 * numDigits (b ^ 2 ^ Nat.log 2 e) →
      HitsUB (fun k => Big.pow .lenient k (enc b) (enc e) (enc 0)) .overflow) := by
  classical
  have hf := powFits_plain e (by omega) b 1 hb (by rw [abs_one]; omega)
  have h1 : |b| ≠ 1 := by omega
  refine ⟨fun h => ⟨Nat.size e + 12, fun k hk => ?_⟩, fun h => ⟨Nat.size e + 12, fun k hk => ?_⟩⟩
  · beta_reduce; rw [big_pow (by omega) (by omega) hs h1, if_pos (hf.2 h), pow_sharp (by omega) (by omega)]
  · beta_reduce; rw [big_pow (by omega) (by omega) hs h1, if_neg (fun hp => absurd (hf.1 hp) (by omega))]

/-- C99 for `pow`: 10 to the power of 2^30 has 2^30 + 1 digits only, but computing it is undefined. -/
theorem C99_pow_not : numDigits (10 ^ 2 ^ 30) = 2 ^ 30 + 1 ∧
    HitsUB (fun k => Big.pow .lenient k (enc 10) (enc (2 ^ 30 : ℕ)) (enc 0)) .overflow := by
  obtain ⟨n, hn⟩ : ∃ n : ℕ, n = 2 ^ 30 := ⟨_, rfl⟩
  have hx : numDigits (10 ^ n) = n + 1 := by simpa using numDigits_pow_ten n (le_refl 0) (by positivity)
  have hlog : Nat.log 2 n = 30 := by rw [hn]; exact Nat.log_pow (by norm_num) 30
  rw [← hn]
  refine ⟨hx, (C99_pow 10 n (short_small (by norm_num)) (by norm_num) (by rw [hn]; norm_num)).2 ?_⟩
  rw [hlog, ← hn, hx, hn]
  unfold maxLen
  norm_num

/-- C99 for `pow`, the other bases: a base of more than `INT_MAX` digits is undefined; for `|b| = 1` or a negative exponent it is as in C17; for `b = 0` exactly
if the exponent has at most `INT_MAX` digits. -/
theorem C99_pow_base (b e m : ℤ) :
    (¬ Short b → ∀ k, Big.pow .lenient k (enc b) (enc e) (enc m) = .ub .overflow) ∧
    (Short b → |b| = 1 ∨ e < 0 → ∀ k, Big.pow .lenient k (enc b) (enc e) (enc m) = BInt.pow .lenient k (enc b) (enc e) (enc m)) ∧
    (∀ n : ℕ, (Short (n : ℤ) → Returns (fun k => Big.pow .lenient k (enc 0) (enc n) (enc 0)) (enc (0 ^ n))) ∧
      (¬ Short (n : ℤ) → HitsUB (fun k => Big.pow .lenient k (enc 0) (enc n) (enc 0)) .overflow)) := by
  classical
  refine ⟨fun h k => big_pow_base k h, fun h h1 k => big_pow_unit k h h1, fun n => ⟨fun h => ?_, fun h => ?_⟩⟩
  · refine ⟨Nat.size n + 12, fun k hk => ?_⟩
    beta_reduce; rw [big_pow (by omega) (by omega) (short_small (by norm_num)) (by norm_num), if_pos ((powFits_base_zero n 1).2 h),
      pow_sharp (by omega) (by omega)]
  · refine ⟨Nat.size n + 12, fun k hk => ?_⟩
    beta_reduce; rw [big_pow (by omega) (by omega) (short_small (by norm_num)) (by norm_num), if_neg (fun hp => h ((powFits_base_zero n 1).1 hp))]

/-- C99 for `pow` with a modulus: as in C18 if base and modulus have fewer than 2^30 digits and the exponent has at most `INT_MAX`. The exact condition is
that of `C99_powmod_exact`. -/
theorem C99_powmod_partial (b m : ℤ) (e : ℕ) (hm : m ≠ 0) (h1 : 2 * numDigits b ≤ maxLen) (h2 : 2 * numDigits m ≤ maxLen)
    (he : Short (e : ℤ)) (k : ℕ) (hk : Nat.size e + 11 < k) :
    Big.pow .lenient k (enc b) (enc e) (enc m) = BInt.pow .lenient k (enc b) (enc e) (enc m) := by
  classical
  have hs : Short b := by rw [short_digits_iff]; omega
  by_cases hu : |b| = 1
  · exact big_pow_unit k hs (Or.inl hu)
  · rw [big_pow (by omega) (by omega) hs hu, if_pos]
    refine powFits_mod hm h2 e b 1 he h1 ?_
    have : numDigits 1 ≤ 1 := by rw [numDigits_le_iff]; norm_num
    unfold maxLen
    omega

open Classical in
/-- C99 for `pow` with a modulus, exactly: `PowFits` goes through the remainders that come up. -/
theorem C99_powmod_exact (b m : ℤ) (e : ℕ) (hs : Short b) (hb : |b| ≠ 1) (k : ℕ) (hk : Nat.size e + 11 < k) :
    Big.pow .lenient k (enc b) (enc e) (enc m) =
      if PowFits m b 1 e then BInt.pow .lenient k (enc b) (enc e) (enc m) else .ub .overflow := big_pow (by omega) (by omega) hs hb

/-- C99 for `pow` with a modulus: a modulus of more than `INT_MAX` digits is undefined, unless `|b| = 1` or the exponent is not positive. -/
theorem C99_powmod_not (b m : ℤ) (e : ℕ) (hs : Short b) (hb : |b| ≠ 1) (he : 1 ≤ e) (h : ¬ Short m) :
    HitsUB (fun k => Big.pow .lenient k (enc b) (enc e) (enc m)) .overflow := by
  classical
  refine ⟨Nat.size e + 12, fun k hk => ?_⟩
  beta_reduce; rw [big_pow (by omega) (by omega) hs hb, if_neg]
  rw [powFits_pos _ _ _ (by omega)]
  rintro ⟨-, -, hf, -⟩
  unfold MulFits at hf
  rw [if_neg] at hf
  · exact h hf.2
  · rintro rfl
    exact h (short_small (by norm_num))

/-! ## Conversion -/

/-- C99 for `to_integer`: with at most 2^31 digits as in C20. -/
theorem C99_toInteger_partial (t : BInt.IntTy) (x : ℤ) (h : numDigits x ≤ maxLen + 1) :
    Big.toInteger t (enc x) = BInt.toInteger t (enc x) := big_toInteger_short t h

/-- C99 for `to_integer` in general: the number made of the `lowDigits` lowest digits, if the type can hold it. -/
theorem C99_toInteger_low (t : BInt.IntTy) (ht : t.Std) (x : ℤ)
    (h1 : t.fits (|x| % 10 ^ lowDigits (numDigits x))) (h2 : t.fits (x.sign * (|x| % 10 ^ lowDigits (numDigits x)))) :
    Big.toInteger t (enc x) = .ok (x.sign * (|x| % 10 ^ lowDigits (numDigits x))) := big_toInteger_low ht x h1 h2

/-- C99 for `to_integer`: a number of 2^31 + 1 digits is converted to 0. -/
theorem C99_toInteger_not : ∃ x : ℤ, x ≠ 0 ∧ Big.toInteger ⟨32, true⟩ (enc x) = .ok 0 := by
  obtain ⟨n, hn⟩ : ∃ n, n = maxLen + 1 := ⟨_, rfl⟩
  have hx : numDigits (10 ^ n) = n + 1 := by simpa using numDigits_pow_ten n (le_refl 0) (by positivity)
  have hl : lowDigits (n + 1) = 0 := (C99_lowDigits (n + 1)).2 (by omega) (by rw [hn]; unfold maxLen; norm_num)
  refine ⟨10 ^ n, by positivity, ?_⟩
  have := C99_toInteger_low ⟨32, true⟩ (by unfold BInt.IntTy.Std; simp) (10 ^ n)
  rw [hx, hl] at this
  simp only [pow_zero, Int.emod_one, mul_zero] at this
  exact this (by decide) (by decide)

/-- C99 for the constructor from a text: up to `INT_MAX` characters as in C01. -/
theorem C99_text_partial (s : List UInt8) (z : ℤ) (h : Literal s z) (hl : s.length ≤ maxLen) : Big.ofChars s = .ok (enc z) := by
  rw [big_ofChars_short hl]
  exact C01_parse_literal s z h

/-- C99 for the constructor from a text in general: the length is reduced modulo 2^32; from 2^31 on the behaviour is undefined whatever the text, below only that
many characters are looked at. -/
theorem C99_text_exact (s : List UInt8) :
    (2147483648 ≤ s.length % 4294967296 → Big.ofChars s = .ub .badRange) ∧
    (s.length % 4294967296 < 2147483648 → Big.ofChars s = BInt.ofChars (s.take (s.length % 4294967296))) :=
  ⟨big_ofChars_neg, big_ofChars_low⟩

/-- C99 for the constructor from a text: 2^32 + 2 ones give the number 11. -/
theorem C99_text_not : Big.ofChars (List.replicate 4294967298 49) = .ok (enc 11) := by
  obtain ⟨n, hn⟩ : ∃ n, n = 4294967298 := ⟨_, rfl⟩
  rw [← hn]
  rw [(C99_text_exact _).2 (by rw [List.length_replicate, hn]; norm_num)]
  rw [List.length_replicate, List.take_replicate]
  have : min (n % 4294967296) n = 2 := by omega
  rw [this]
  exact C01_parse_literal [49, 49] 11 (Literal.plain [49, 49] (by simp) (by simp [IsDigit]))

example : Literal [49, 50] 12 ∧ [(49 : UInt8), 50].length ≤ maxLen :=
  ⟨Literal.plain [49, 50] (by simp) (by simp [IsDigit]), by unfold maxLen; simp⟩

/-! ## Together -/

/-- C99 for numbers of fewer than 2^30 digits: all five operations are right. -/
theorem C99_partial (x y : ℤ) (hx : 2 * numDigits x ≤ maxLen) (hy : 2 * numDigits y ≤ maxLen) :
    Returns (fun k => Big.add .lenient k (enc x) (enc y)) (enc (x + y)) ∧
    Returns (fun k => Big.sub .lenient k (enc x) (enc y)) (enc (x - y)) ∧
    Big.mul (enc x) (enc y) = .ok (enc (x * y)) ∧
    (y ≠ 0 → Returns (fun k => Big.div .lenient k (enc x) (enc y)) (enc (x.tdiv y))) ∧
    Big.cmp (enc x) (enc y) = .ok (x - y).sign := by
  classical
  have hsx : Short x := by rw [short_digits_iff]; omega
  have hsy : Short y := by rw [short_digits_iff]; omega
  have ha := C99_add_short x y hsx hsy
  have hadd := C99_add x y
  rw [if_pos ha.1, if_pos ha.2] at hadd
  refine ⟨hadd.1, hadd.2, ?_, fun hy0 => ((C99_div x y hy0).1 ⟨hsx, hsy⟩).1, C99_cmp_partial x y (Or.inr (Or.inr (by omega)))⟩
  rw [C99_mul, if_pos (Or.inr (Or.inr (by omega)))]

example : 2 * numDigits (-987654321) ≤ maxLen ∧ Short (20 : ℤ) ∧ (2 : ℤ) ≤ |(-3 : ℤ)| := by
  refine ⟨?_, short_small (by norm_num), by norm_num⟩
  have : numDigits (-987654321) ≤ 9 := by rw [numDigits_le_iff]; norm_num
  unfold maxLen
  omega

end Pyincpp
