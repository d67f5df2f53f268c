import Verif.Proof.IntStrict
import Verif.Proof.IntRoot
import Verif.Props.IntMore
import Mathlib.Data.Nat.Factorization.Basic

/-! # Which functions of `Int` stay inside their buffers

C04 for the operations built on `-=`. By the standard most calls that divide are undefined: an exact division always is (`C04_div_dvd`), so are `gcd` and `lcm` of
any two numbers but zero, `sqrt` and `is_prime` from 4 on, and `pow` with an exponent from 2 on. -/

namespace Pyincpp

open Classical in
/-- C04, exact extent for `/` and `%`: they stay inside their buffers exactly if every subtraction of the long division is from a number with more digits
(`DivSafe`), and then they return what they do otherwise (C07, C08). -/
theorem C04_div_exact (x y : ℤ) (hy : y ≠ 0) :
    (if DivSafe x y then Returns (fun k => BInt.div .strict k (enc x) (enc y)) (enc (x.tdiv y))
      else HitsUB (fun k => BInt.div .strict k (enc x) (enc y)) .outOfBounds) ∧
    (if DivSafe x y then Returns (fun k => BInt.mod .strict k (enc x) (enc y))
        (enc (if (enc x).chunks.length < (enc y).chunks.length then x else |x| % |y|))
      else HitsUB (fun k => BInt.mod .strict k (enc x) (enc y)) .outOfBounds) := by
  by_cases h : DivSafe x y
  · simp only [if_pos h]
    exact ⟨⟨11, fun k hk => (div_strict hk x hy).trans (if_pos h)⟩, ⟨11, fun k hk => (mod_strict hk x hy).trans (if_pos h)⟩⟩
  · simp only [if_neg h]
    exact ⟨⟨11, fun k hk => (div_strict hk x hy).trans (if_neg h)⟩, ⟨11, fun k hk => (mod_strict hk x hy).trans (if_neg h)⟩⟩

theorem divSafe_of_lt {x y : ℤ} (h : |x| < |y|) : DivSafe x y := by
  intro i h1
  have : |x| < |y| * 10 ^ i := lt_of_lt_of_le h (le_mul_of_one_le_right (abs_nonneg _) (one_le_pow₀ (by norm_num)))
  rw [Int.ediv_eq_zero_of_lt (abs_nonneg _) this] at h1
  exact absurd rfl h1

/-- C04: a division by a number of `n` digits that is at most half of `10^n`, that is 1 to 5, 10 to 50, 100 to 500, … , is undefined unless the dividend is smaller. -/
theorem C04_div_low (x y : ℤ) (hy : y ≠ 0) (h : 2 * |y| ≤ 10 ^ (enc y).chunks.length) : DivSafe x y ↔ |x| < |y| := by
  refine ⟨fun hs => ?_, divSafe_of_lt⟩
  by_contra hc
  have hyp : 0 < |y| := abs_pos.mpr hy
  have hq : 1 ≤ |x| / |y| := (Int.le_ediv_iff_mul_le hyp).2 (by omega)
  obtain ⟨q, hqe⟩ : ∃ q : ℕ, |x| / |y| = q := ⟨(|x| / |y|).toNat, by omega⟩
  have hq0 : q ≠ 0 := by omega
  have h1 := Nat.pow_log_le_self 10 hq0
  have h2 := Nat.lt_pow_succ_log_self (b := 10) (by norm_num) q
  generalize Nat.log 10 q = i at h1 h2
  have hd : |x| / (|y| * 10 ^ i) = ((q / 10 ^ i : ℕ) : ℤ) := by
    rw [← Int.ediv_ediv_of_nonneg hyp.le, hqe]
    push_cast
    rfl
  have hpos : 0 < 10 ^ i := by positivity
  have h3 : 1 ≤ q / 10 ^ i := (Nat.le_div_iff_mul_le hpos).2 (by omega)
  have h4 : q / 10 ^ i < 10 := Nat.div_lt_of_lt_mul (by rw [pow_succ] at h2; omega)
  have h5 := hs i (by rw [hd]; omega)
  have ht : 0 < |y| * 10 ^ i := by positivity
  have h6 := Int.emod_lt_of_pos |x| ht
  have h7 : 2 * |y| * 10 ^ i ≤ 10 ^ (enc y).chunks.length * 10 ^ i := mul_le_mul_of_nonneg_right h (by positivity)
  rw [pow_add] at h5
  nlinarith

/-- C04: a division without remainder is undefined, unless the dividend is zero. -/
theorem C04_div_dvd (x y : ℤ) (hy : y ≠ 0) (h : y ∣ x) : DivSafe x y ↔ x = 0 := by
  constructor
  · intro hs
    by_contra hx
    obtain ⟨q, hq⟩ := (abs_dvd_abs y x).2 h
    have hyp : 0 < |y| := abs_pos.mpr hy
    have hxp : 0 < |x| := abs_pos.mpr hx
    have hqp : 0 < q := by
      by_contra hc
      nlinarith
    obtain ⟨n, rfl⟩ : ∃ n : ℕ, q = n := ⟨q.toNat, by omega⟩
    obtain ⟨e, m, hm, rfl⟩ := Nat.exists_eq_pow_mul_and_not_dvd (n := n) (by omega) 10 (by norm_num)
    have ht : 0 < |y| * 10 ^ e := by positivity
    have hx' : |x| = m * (|y| * 10 ^ e) := by rw [hq]; push_cast; ring
    have h1 := hs e (by rw [hx', Int.mul_ediv_cancel _ (by omega)]; omega)
    rw [hx', Int.mul_emod_left, pow_add] at h1
    have h2 := enc_abs_lt y
    have : |y| * 10 ^ e < 10 ^ (enc y).chunks.length * 10 ^ e := mul_lt_mul_of_pos_right h2 (by positivity)
    omega
  · rintro rfl
    exact divSafe_of_lt (by simpa using abs_pos.mpr hy)

/-- `12 / 7` and `1234 % 56` stay inside; `10 / 5` does not. -/
example : DivSafe 12 7 ∧ ¬ DivSafe 10 5 := by
  refine ⟨?_, fun h => by have := (C04_div_dvd 10 5 (by norm_num) ⟨2, by norm_num⟩).1 h; omega⟩
  intro i h
  rcases i with _ | i
  · simp [enc]
  · exfalso
    apply h
    have : (10 : ℤ) ≤ 10 ^ (i + 1) := by rw [pow_succ]; nlinarith [one_le_pow₀ (n := i) (show (1 : ℤ) ≤ 10 by norm_num)]
    rw [Int.ediv_eq_zero_of_lt (by norm_num) (by rw [abs_of_pos (by norm_num), abs_of_pos (by norm_num)]; linarith)]
    rfl
example : BInt.div .strict 11 ⟨1, [2, 1]⟩ ⟨1, [7]⟩ = .ok ⟨1, [1]⟩ := by decide +kernel
example : BInt.mod .strict 11 ⟨1, [2, 1]⟩ ⟨1, [7]⟩ = .ok ⟨1, [5]⟩ := by decide +kernel
example : BInt.div .strict 11 ⟨1, [0, 1]⟩ ⟨1, [5]⟩ = .ub .outOfBounds := by decide +kernel

/-! ## Functions that divide -/

theorem div_two_strict {k : ℕ} (hk : 11 ≤ k) {n : ℤ} (hn : 2 ≤ n) :
    BInt.div .strict k (enc n) (enc 2) = .ub .outOfBounds ∧ BInt.mod .strict k (enc n) (enc 2) = .ub .outOfBounds := by
  have h : ¬ DivSafe n 2 := by
    rw [C04_div_low n 2 (by norm_num) (by norm_num [enc]), abs_of_pos (by omega)]
    norm_num
    omega
  exact ⟨(div_strict hk n (by norm_num)).trans (if_neg h), (mod_strict hk n (by norm_num)).trans (if_neg h)⟩

/-- C04 for `is_prime`: exact for numbers below 4, undefined from 4 on. -/
theorem C04_is_prime_exact (z : ℤ) :
    (z < 4 → Returns (fun k => BInt.isPrime .strict k (enc z)) (decide (z = 2 ∨ z = 3))) ∧
    (4 ≤ z → HitsUB (fun k => BInt.isPrime .strict k (enc z)) .outOfBounds) := by
  refine ⟨fun h => ⟨11, fun k hk => ?_⟩, fun h => ⟨11, fun k hk => ?_⟩⟩
  all_goals
    obtain ⟨m, rfl⟩ : ∃ m, k = m + 1 := ⟨k - 1, by omega⟩
    unfold BInt.isPrime
    beta_reduce
    rw [ofInt_small (by norm_num) (by norm_num), ofInt_small (by norm_num) (by norm_num)]
    simp only [Res.ok_bind, le_enc]
    unfold BInt.isPrimeLoop
    simp only [mul_enc, Res.ok_bind, le_enc]
  · by_cases h1 : z ≤ 1
    · have : ¬ (z = 2 ∨ z = 3) := by omega
      simp [h1, this]
    · have h2 : z = 2 ∨ z = 3 := by omega
      have h3 : ¬ (2 * 2 ≤ z) := by omega
      simp only [h1, h2, h3, decide_true, decide_false, if_false, Bool.false_eq_true]
      rfl
  · have h1 : ¬ z ≤ 1 := by omega
    have h3 : 2 * 2 ≤ z := by omega
    simp only [h1, h3, decide_true, decide_false, if_true, Bool.false_eq_true, if_false]
    rw [(div_two_strict hk (by omega)).2]
    rfl

/-- C04 for `next_prime`: exact below 3, undefined from 3 on. -/
theorem C04_next_prime_exact (z : ℤ) :
    (z < 2 → Returns (fun k => BInt.nextPrime .strict k (enc z)) (enc 2)) ∧
    (z = 2 → Returns (fun k => BInt.nextPrime .strict k (enc z)) (enc 3)) ∧
    (3 ≤ z → HitsUB (fun k => BInt.nextPrime .strict k (enc z)) .outOfBounds) := by
  have shape : ∀ k, BInt.nextPrime .strict k (enc z) = if z < 2 then .ok (enc 2) else
      BInt.nextPrimeLoop .strict k k (enc (if z % 2 = 0 then z - 1 else z)) := by
    intro k
    unfold BInt.nextPrime
    rw [ofInt_small (by norm_num) (by norm_num)]
    simp only [Res.ok_bind, lt_enc, isEven_enc]
    by_cases h : z < 2
    · simp [h]
    · simp only [h, decide_false, if_false, Bool.false_eq_true]
      by_cases he : z % 2 = 0
      · simp only [he, decide_true, if_true]
        rw [absDec_enc (by omega), Int.sign_eq_one_of_pos (by omega)]
        rfl
      · simp only [he, decide_false, if_false, Bool.false_eq_true]
        rfl
  have step : ∀ k n (p : ℤ), 1 ≤ p → BInt.nextPrimeLoop .strict k (n + 1) (enc p) = (do
      if ← BInt.isPrime .strict k (enc (p + 2)) then pure (enc (p + 2)) else BInt.nextPrimeLoop .strict k n (enc (p + 2))) := by
    intro k n p hp
    rw [BInt.nextPrimeLoop, absInc_enc (by omega), Int.sign_eq_one_of_pos (by omega)]
    simp only [Res.ok_bind]
    rw [absInc_enc (by omega), Int.sign_eq_one_of_pos (by omega), show p + 1 + 1 = p + 2 by ring]
    rfl
  refine ⟨fun h => ⟨0, fun k _ => (shape k).trans (if_pos h)⟩, fun h => ?_, fun h => ?_⟩
  · obtain ⟨N, hN⟩ := (C04_is_prime_exact 3).1 (by norm_num)
    refine ⟨N + 1, fun k hk => ?_⟩
    obtain ⟨m, rfl⟩ : ∃ m, k = m + 1 := ⟨k - 1, by omega⟩
    subst h
    beta_reduce
    rw [shape, if_neg (by norm_num), if_pos (by norm_num), step _ _ _ (by norm_num)]
    have := hN (m + 1) (by omega)
    beta_reduce at this
    norm_num [this]
  · obtain ⟨N, hN⟩ := (C04_is_prime_exact ((if z % 2 = 0 then z - 1 else z) + 2)).2 (by split <;> omega)
    refine ⟨N + 1, fun k hk => ?_⟩
    obtain ⟨m, rfl⟩ : ∃ m, k = m + 1 := ⟨k - 1, by omega⟩
    beta_reduce
    rw [shape, if_neg (by omega), step _ _ _ (by split <;> omega), show BInt.isPrime .strict (m + 1) _ = _ from hN (m + 1) (by omega)]
    rfl

/-- C04 for `sqrt`: exact below 4 (a negative number throws, `C16_sqrt_neg`), undefined from 4 on. -/
theorem C04_sqrt_exact (n : ℕ) :
    (n < 4 → Returns (fun k => BInt.sqrt .strict k (enc n)) (enc (if n = 0 then 0 else 1))) ∧
    (4 ≤ n → HitsUB (fun k => BInt.sqrt .strict k (enc n)) .outOfBounds) := by
  refine ⟨fun h => ⟨0, fun k _ => ?_⟩, fun h => ⟨11, fun k hk => ?_⟩⟩
  all_goals
    unfold BInt.sqrt
    beta_reduce
    rw [if_neg (by rw [enc_sign, Int.sign_eq_neg_one_iff_neg]; omega), isZero_enc,
      ofInt_small (by norm_num) (by norm_num), ofInt_small (by norm_num) (by norm_num), ofInt_small (by norm_num) (by norm_num)]
    simp only [Res.ok_bind, lt_enc]
  · have h' : (n : ℤ) < 4 := by omega
    by_cases h0 : n = 0
    · simp [h0]
    · simp [h0, h']
  · have h' : ¬ ((n : ℤ) < 4) := by omega
    have h0 : ¬ ((n : ℤ) = 0) := by omega
    obtain ⟨m, rfl⟩ : ∃ m, k = m + 1 := ⟨k - 1, by omega⟩
    simp only [h', h0, decide_false, if_false, Bool.false_eq_true]
    rw [sqrt_start]
    have hc : BInt.eq (enc (sqrtStart n)) (enc 0) = false := by
      have := eq_enc_iff (sqrtStart n : ℤ) 0
      rw [this]
      have := sqrtStart_pos n
      simp
      omega
    have hs : ¬ DivSafe n (sqrtStart n) := by
      have hl : (enc (sqrtStart n : ℤ)).chunks.length = (enc (n : ℤ)).chunks.length / 2 + 1 := by
        rw [← sqrt_start]
        simp
      have hp := sqrtStart_pos n
      rw [C04_div_low _ _ (by omega)]
      · rw [not_lt, Nat.abs_cast, Nat.abs_cast]
        by_contra hcon
        have h1 : (enc (n : ℤ)).chunks.length ≤ (enc (n : ℤ)).chunks.length / 2 := by
          rw [enc_length_le_iff, Nat.abs_cast]
          unfold sqrtStart at hcon
          push_cast at hcon
          omega
        have h2 := enc_length_pos (x := n) (by omega)
        have h3 : (enc (n : ℤ)).chunks.length = 0 := by omega
        omega
      · rw [hl, Nat.abs_cast]
        unfold sqrtStart
        push_cast
        rw [pow_succ]
        nlinarith [pow_pos (show (0 : ℤ) < 10 by norm_num) ((enc (n : ℤ)).chunks.length / 2)]
    rw [whileF]
    simp only [hc, Bool.not_false, Res.ok_bind, if_true]
    rw [div_strict hk _ (by have := sqrtStart_pos n; omega), if_neg hs]
    rfl

/-- C04 for `gcd` and `lcm`: undefined for any two numbers but zero; with a zero, exact. -/
theorem C04_gcd_exact (a b : ℤ) :
    (a = 0 ∨ b = 0 → Returns (fun k => BInt.gcd .strict k (enc a) (enc b)) (enc (Int.gcd a b)) ∧
      Returns (fun k => BInt.lcm .strict k (enc a) (enc b)) (enc 0)) ∧
    (a ≠ 0 ∧ b ≠ 0 → HitsUB (fun k => BInt.gcd .strict k (enc a) (enc b)) .outOfBounds ∧
      HitsUB (fun k => BInt.lcm .strict k (enc a) (enc b)) .outOfBounds) := by
  have shape : ∀ k, BInt.gcd .strict k (enc a) (enc b) = (do
      let s ← whileF (fun (s : BInt × BInt) => Res.ok (!(BInt.eq s.2 (enc 0))))
        (fun s => do
          let r ← BInt.mod .strict k s.1 s.2
          pure (s.2, r)) k (enc |a|, enc |b|)
      pure s.1) := by
    intro k
    unfold BInt.gcd
    rw [ofInt_small (by norm_num) (by norm_num)]
    simp only [Res.ok_bind, abs_enc]
  have loop : ∀ k, 11 ≤ k → ∀ (y x m : ℕ), 0 < x → 0 < y → y < m →
      whileF (fun (s : BInt × BInt) => Res.ok (!(BInt.eq s.2 (enc 0))))
        (fun s => do
          let r ← BInt.mod .strict k s.1 s.2
          pure (s.2, r)) m (enc x, enc y) = .ub .outOfBounds := by
    intro k hk y
    induction y using Nat.strong_induction_on with
    | _ y ih =>
      intro x m hx hy hm
      obtain ⟨m, rfl⟩ : ∃ j, m = j + 1 := ⟨m - 1, by omega⟩
      have hc : BInt.eq (enc (y : ℤ)) (enc 0) = false := by
        rw [eq_enc_iff]
        simp
        omega
      rw [whileF]
      simp only [hc, Bool.not_false, Res.ok_bind, if_true]
      rw [mod_strict hk _ (by omega)]
      by_cases hs : DivSafe x y
      · have hd : ¬ ((y : ℤ) ∣ x) := fun hd => by have := (C04_div_dvd x y (by omega) hd).1 hs; omega
        have hd' : ¬ y ∣ x := fun h => hd (by exact_mod_cast h)
        rw [if_pos hs, codeMod_of_pos (by omega)]
        simp only [Res.ok_bind, Res.pure_eq]
        have hpos : 0 < x % y := Nat.pos_of_ne_zero fun e => hd' (Nat.dvd_of_mod_eq_zero e)
        have hlt := Nat.mod_lt x hy
        have := ih (x % y) hlt y m hy hpos (by omega)
        push_cast at this
        exact this
      · rw [if_neg hs]
        rfl
  constructor
  · intro h
    constructor
    · refine ⟨11, fun k hk => ?_⟩
      obtain ⟨m, rfl⟩ : ∃ j, k = j + 2 := ⟨k - 2, by omega⟩
      beta_reduce
      rw [shape]
      by_cases hb : b = 0
      · subst hb
        have hc : BInt.eq (enc |(0 : ℤ)|) (enc 0) = true := by rw [eq_enc_iff]; simp
        rw [whileF]
        simp only [hc, Bool.not_true, Res.ok_bind, Bool.false_eq_true, if_false, Res.pure_eq]
        rw [Int.gcd_zero_right, Int.natCast_natAbs]
      · have ha : a = 0 := by tauto
        subst ha
        have hc : BInt.eq (enc |b|) (enc 0) = false := by rw [eq_enc_iff]; simpa using hb
        have hm : BInt.mod .strict (m + 2) (enc |(0 : ℤ)|) (enc |b|) = .ok (enc 0) := by
          rw [mod_strict hk _ (by simpa using hb), if_pos (divSafe_of_lt (by simpa using hb))]
          rw [codeMod_of_pos (by simp)]
          simp
        have hc' : BInt.eq (enc 0) (enc 0) = true := by rw [eq_enc_iff]; simp
        rw [whileF]
        simp only [hc, hm, Bool.not_false, Res.ok_bind, if_true, Res.pure_eq]
        rw [whileF]
        simp only [hc', Bool.not_true, Res.ok_bind, Bool.false_eq_true, if_false, Res.pure_eq]
        rw [Int.gcd_zero_left, Int.natCast_natAbs]
    · refine ⟨0, fun k _ => ?_⟩
      unfold BInt.lcm
      beta_reduce
      simp only [isZero_enc, decide_eq_true_eq]
      rw [if_pos h, ofInt_small (by norm_num) (by norm_num)]
  · rintro ⟨ha, hb⟩
    have hg : ∀ k, b.natAbs + 11 ≤ k → BInt.gcd .strict k (enc a) (enc b) = .ub .outOfBounds := by
      intro k hk
      rw [shape, Int.abs_eq_natAbs, Int.abs_eq_natAbs, loop k (by omega) _ _ k (by omega) (by omega) (by omega)]
      rfl
    refine ⟨⟨_, hg⟩, ⟨b.natAbs + 11, fun k hk => ?_⟩⟩
    unfold BInt.lcm
    beta_reduce
    simp only [isZero_enc, decide_eq_true_eq]
    rw [if_neg (by tauto), mul_enc]
    simp only [Res.ok_bind]
    rw [hg k hk]
    rfl

/-- C04 for `pow`. With base ±1 or an exponent up to 0 nothing is divided. From exponent 2 on the halving of the exponent is undefined, whatever the rest. With
exponent 1 the only divisions that can be are the two reductions modulo `m`. -/
theorem C04_pow_exact (b e m : ℤ) :
    (|b| = 1 → Returns (fun k => BInt.pow .strict k (enc b) (enc e) (enc m)) (enc (if b = -1 ∧ e % 2 = 1 then -1 else 1))) ∧
    (|b| ≠ 1 → e < 0 → (b = 0 → Throws (fun k => BInt.pow .strict k (enc b) (enc e) (enc m)) "Error: Math domain error.") ∧
      (b ≠ 0 → Returns (fun k => BInt.pow .strict k (enc b) (enc e) (enc m)) (enc 0))) ∧
    (|b| ≠ 1 → e = 0 → Returns (fun k => BInt.pow .strict k (enc b) (enc e) (enc m)) (enc 1)) ∧
    (|b| ≠ 1 → e = 1 → m = 0 → Returns (fun k => BInt.pow .strict k (enc b) (enc e) (enc m)) (enc b)) ∧
    (|b| ≠ 1 → e = 1 → m ≠ 0 → DivSafe b m ∧ DivSafe (b * b) m →
      Returns (fun k => BInt.pow .strict k (enc b) (enc e) (enc m))
        (enc (if (enc b).chunks.length < (enc m).chunks.length then b else |b| % |m|))) ∧
    (|b| ≠ 1 → e = 1 → m ≠ 0 → ¬ (DivSafe b m ∧ DivSafe (b * b) m) →
      HitsUB (fun k => BInt.pow .strict k (enc b) (enc e) (enc m)) .outOfBounds) ∧
    (|b| ≠ 1 → 2 ≤ e → HitsUB (fun k => BInt.pow .strict k (enc b) (enc e) (enc m)) .outOfBounds) := by
  have half : ∀ {k : ℕ}, 11 ≤ k → BInt.divAssign .strict k (enc 1) (enc 2) = .ok (enc 0) := fun hk =>
    (div_strict hk 1 (by norm_num)).trans ((if_pos (divSafe_of_lt (by norm_num))).trans rfl)
  have half' : ∀ {k : ℕ}, 11 ≤ k → 2 ≤ e → BInt.divAssign .strict k (enc e) (enc 2) = .ub .outOfBounds := fun hk h =>
    (div_two_strict hk h).1
  have hz : BInt.isZero (enc 0) = true := by rw [isZero_enc]; rfl
  have h1 : BInt.isZero (enc 1) = false := by rw [isZero_enc]; rfl
  have o1 : BInt.isOdd (enc 1) = .ok true := by rw [isOdd_enc]; rfl
  have two : BInt.ofInt 2 = .ok (enc 2) := ofInt_small (by norm_num) (by norm_num)
  refine ⟨fun h => ⟨0, fun k _ => ?_⟩, fun h h' => ⟨fun h0 => ⟨0, fun k _ => ?_⟩, fun h0 => ⟨0, fun k _ => ?_⟩⟩, fun h h' => ⟨1, fun k hk => ?_⟩,
    fun h h' hm => ⟨11, fun k hk => ?_⟩, fun h h' hm hs => ⟨11, fun k hk => ?_⟩, fun h h' hm hs => ⟨11, fun k hk => ?_⟩, fun h h' => ⟨11, fun k hk => ?_⟩⟩
  all_goals
    beta_reduce
    rw [pow_shape]
  · rw [if_pos h]
  · rw [if_neg h, if_pos h', if_pos h0]
  · rw [if_neg h, if_pos h', if_neg h0]
  · obtain ⟨n, rfl⟩ : ∃ n, k = n + 1 := ⟨k - 1, by omega⟩
    subst h'
    rw [if_neg h, if_neg (by norm_num), whileF]
    simp only [hz, Bool.not_true, Res.ok_bind, Bool.false_eq_true, if_false]
    rfl
  · obtain ⟨n, rfl⟩ : ∃ n, k = n + 2 := ⟨k - 2, by omega⟩
    subst h' hm
    rw [if_neg h, if_neg (by norm_num), whileF]
    simp only [h1, o1, hz, two, half hk, Bool.not_false, Res.ok_bind, if_true, mul_enc, Res.pure_eq, one_mul]
    rw [whileF]
    simp only [hz, Bool.not_true, Res.ok_bind, Bool.false_eq_true, if_false, Res.pure_eq]
  · obtain ⟨n, rfl⟩ : ∃ n, k = n + 2 := ⟨k - 2, by omega⟩
    subst h'
    have hz' : BInt.isZero (enc m) = false := by rw [isZero_enc]; simpa using hm
    have m1 := (mod_strict hk b hm).trans (if_pos hs.1)
    have m2 := (mod_strict hk (b * b) hm).trans (if_pos hs.2)
    rw [if_neg h, if_neg (by norm_num), whileF]
    simp only [h1, o1, hz', two, half hk, m1, m2, Bool.not_false, Res.ok_bind, if_true, mul_enc, Res.pure_eq, one_mul, Bool.false_eq_true, if_false]
    rw [whileF]
    simp only [hz, Bool.not_true, Res.ok_bind, Bool.false_eq_true, if_false, Res.pure_eq]
    rfl
  · obtain ⟨n, rfl⟩ : ∃ n, k = n + 2 := ⟨k - 2, by omega⟩
    subst h'
    have hz' : BInt.isZero (enc m) = false := by rw [isZero_enc]; simpa using hm
    have m1 := mod_strict hk b hm
    have m2 := mod_strict hk (b * b) hm
    rw [if_neg h, if_neg (by norm_num), whileF]
    simp only [h1, o1, hz', m1, m2, Bool.not_false, Res.ok_bind, if_true, mul_enc, one_mul, Bool.false_eq_true, if_false]
    by_cases hs1 : DivSafe b m
    · rw [if_pos hs1, if_neg (fun h => hs ⟨hs1, h⟩)]
      rfl
    · rw [if_neg hs1]
      rfl
  · obtain ⟨n, rfl⟩ : ∃ n, k = n + 1 := ⟨k - 1, by omega⟩
    have he : BInt.isZero (enc e) = false := by rw [isZero_enc]; simp; omega
    rw [if_neg h, if_neg (by omega), whileF]
    simp only [he, isOdd_enc, two, half' hk h', Bool.not_false, Res.ok_bind, if_true, mul_enc, isZero_enc]
    by_cases hm : m = 0
    · simp only [hm, decide_true, if_true, Res.ok_bind]
      by_cases ho : e % 2 = 1
      · simp only [ho, decide_true, if_true, Res.ub_bind]
      · simp only [ho, decide_false, if_false, Bool.false_eq_true, Res.ok_bind, Res.pure_eq, Res.ub_bind]
    · have m1 := mod_strict hk b hm
      have m2 := mod_strict hk (b * b) hm
      simp only [hm, decide_false, if_false, Bool.false_eq_true, one_mul, m1, m2]
      by_cases ho : e % 2 = 1 <;> by_cases hs1 : DivSafe b m <;> by_cases hs2 : DivSafe (b * b) m <;>
        simp only [ho, hs1, hs2, decide_true, decide_false, if_true, if_false, Bool.false_eq_true, Res.ok_bind, Res.pure_eq, Res.ub_bind]

/-- C04 for `log`. A base of 10 is not divided by; for the others the call stays inside its buffers exactly if all the divisions `x / b`, `x / b / b`, … do. -/
theorem C04_log_exact (x b : ℤ) :
    (x ≤ 0 ∨ b < 2 → Throws (fun k => BInt.log .strict k (enc x) (enc b)) "Error: Math domain error.") ∧
    (0 < x → 2 ≤ b → (enc x).chunks.length ≤ 2147483647 → (b = 10 ∨ ∀ j : ℕ, DivSafe (x / b ^ j) b) →
      Returns (fun k => BInt.log .strict k (enc x) (enc b)) (enc (Nat.log b.toNat x.toNat))) ∧
    (0 < x → 2 ≤ b → b ≠ 10 → (∃ j : ℕ, ¬ DivSafe (x / b ^ j) b) →
      HitsUB (fun k => BInt.log .strict k (enc x) (enc b)) .outOfBounds) := by
  have loop : ∀ k, 11 ≤ k → 2 ≤ b → ∀ (m : ℕ) (v : ℤ) (r : ℤ), 0 ≤ v → v < m →
      whileF (fun (s : BInt × BInt) => Res.ok (!(BInt.isZero s.1)))
        (fun s => do
          let r ← BInt.inc s.2
          pure (← BInt.divAssign .strict k s.1 (enc b), r)) m (enc v, enc r) =
      open Classical in if ∀ j : ℕ, DivSafe (v / b ^ j) b then
        whileF (fun (s : BInt × BInt) => Res.ok (!(BInt.isZero s.1)))
        (fun s => do
          let r ← BInt.inc s.2
          pure (← BInt.divAssign .lenient k s.1 (enc b), r)) m (enc v, enc r) else .ub .outOfBounds := by
    classical
    intro k hk hb m
    induction m with
    | zero => intro v r h1 h2; simp at h2; omega
    | succ m ih =>
      intro v r h1 h2
      push_cast at h2
      rw [whileF, whileF]
      by_cases hv : v = 0
      · subst hv
        have hs : ∀ j : ℕ, DivSafe (0 / b ^ j) b := fun j => divSafe_of_lt (by simp; omega)
        rw [if_pos hs]
        have : BInt.isZero (enc 0) = true := by rw [isZero_enc]; rfl
        simp only [this, Bool.not_true, Res.ok_bind, Bool.false_eq_true, if_false]
      · have hv' : BInt.isZero (enc v) = false := by rw [isZero_enc]; simpa using hv
        have d1 : BInt.divAssign .strict k (enc v) (enc b) = _ := div_strict hk v (by omega)
        have d2 : BInt.divAssign .lenient k (enc v) (enc b) = _ := div_enc hk v (by omega)
        simp only [hv', Bool.not_false, Res.ok_bind, if_true, inc_enc, d1, d2, Res.pure_eq]
        by_cases hs0 : DivSafe v b
        · have hlt : v / b < v := Int.ediv_lt_self_of_pos_of_ne_one (by omega) (by omega)
          have hiff : (∀ j : ℕ, DivSafe (v / b ^ j) b) ↔ ∀ j : ℕ, DivSafe (v / b / b ^ j) b := by
            constructor
            · intro h j
              rw [Int.ediv_ediv_of_nonneg (by omega), ← pow_succ']
              exact h _
            · rintro h (_ | j)
              · simpa using hs0
              · rw [pow_succ', ← Int.ediv_ediv_of_nonneg (by omega)]
                exact h _
          rw [if_pos hs0]
          simp only [Res.ok_bind]
          rw [Int.tdiv_eq_ediv_of_nonneg h1]
          refine (ih (v / b) (r + 1) (Int.ediv_nonneg h1 (by omega)) (by omega)).trans ?_
          by_cases hc : ∀ j : ℕ, DivSafe (v / b / b ^ j) b
          · rw [if_pos hc, if_pos (hiff.2 hc)]
            rfl
          · rw [if_neg hc, if_neg (fun h => hc (hiff.1 h))]
        · rw [if_neg hs0, if_neg (fun h => hs0 (by simpa using h 0))]
          rfl
  classical
  have shape : ∀ k, x.toNat + 11 ≤ k → 0 < x → 2 ≤ b → BInt.log .strict k (enc x) (enc b) =
      if b = 10 ∨ ∀ j : ℕ, DivSafe (x / b ^ j) b then BInt.log .lenient k (enc x) (enc b) else .ub .outOfBounds := by
    intro k hk hx hb
    have hs : ¬ (enc x).sign ≤ 0 := by rw [enc_sign, Int.sign_eq_one_of_pos hx]; norm_num
    have hb2 : ¬ (b < 2) := by omega
    unfold BInt.log
    simp only [if_neg hs]
    rw [ofInt_small (by norm_num) (by norm_num), ofInt_small (by norm_num) (by norm_num), ofInt_small (by norm_num) (by norm_num)]
    simp only [Res.ok_bind, lt_enc, hb2, decide_false, Bool.false_eq_true, if_false, eq_enc_iff]
    by_cases h10 : b = 10
    · simp only [h10, decide_true, if_true, true_or]
    · simp only [h10, decide_false, if_false, Bool.false_eq_true, false_or]
      rw [div_strict (by omega) _ (by omega), div_enc (by omega) _ (by omega)]
      by_cases hs0 : DivSafe x b
      · have hiff : (∀ j : ℕ, DivSafe (x / b ^ j) b) ↔ ∀ j : ℕ, DivSafe (x / b / b ^ j) b := by
          constructor
          · intro h j
            rw [Int.ediv_ediv_of_nonneg (by omega), ← pow_succ']
            exact h _
          · rintro h (_ | j)
            · simpa using hs0
            · rw [pow_succ', ← Int.ediv_ediv_of_nonneg (by omega)]
              exact h _
        rw [if_pos hs0]
        simp only [Res.ok_bind]
        rw [Int.tdiv_eq_ediv_of_nonneg hx.le]
        have hle : x / b ≤ x := Int.ediv_le_self _ hx.le
        rw [loop k (by omega) hb k (x / b) 0 (Int.ediv_nonneg hx.le (by omega)) (by omega)]
        by_cases hc : ∀ j : ℕ, DivSafe (x / b / b ^ j) b
        · rw [if_pos hc, if_pos (hiff.2 hc)]
        · rw [if_neg hc, if_neg (fun h => hc (hiff.1 h))]
          rfl
      · rw [if_neg hs0, if_neg (fun h => hs0 (by simpa using h 0))]
        rfl
  refine ⟨fun h => ⟨0, fun k _ => log_domain k h⟩, fun hx hb hl hs => ⟨x.toNat + 11, fun k hk => ?_⟩, fun hx hb h10 hs => ⟨x.toNat + 11, fun k hk => ?_⟩⟩
  · refine (shape k hk hx hb).trans ((if_pos hs).trans ?_)
    obtain ⟨n, rfl⟩ : ∃ n : ℕ, x = n := ⟨x.toNat, by omega⟩
    obtain ⟨c, rfl⟩ : ∃ n : ℕ, b = n := ⟨b.toNat, by omega⟩
    exact log_enc (by omega) (by omega) (by simpa using hk) hl
  · refine (shape k hk hx hb).trans (if_neg ?_)
    rintro (h | h)
    · exact h10 h
    · obtain ⟨j, hj⟩ := hs
      exact hj (h j)

example : BInt.isPrime .strict 20 ⟨1, [7]⟩ = .ub .outOfBounds := by decide +kernel
example : BInt.sqrt .strict 20 ⟨1, [4]⟩ = .ub .outOfBounds := by decide +kernel
example : BInt.gcd .strict 20 ⟨1, [8]⟩ ⟨1, [6]⟩ = .ub .outOfBounds := by decide +kernel
example : BInt.pow .strict 20 ⟨1, [3]⟩ ⟨1, [2]⟩ ⟨0, []⟩ = .ub .outOfBounds := by decide +kernel
example : BInt.pow .strict 20 ⟨1, [2, 1]⟩ ⟨1, [1]⟩ ⟨1, [7]⟩ = .ub .outOfBounds := by decide +kernel
example : BInt.pow .strict 20 ⟨1, [2, 1]⟩ ⟨1, [1]⟩ ⟨0, []⟩ = .ok ⟨1, [2, 1]⟩ := by decide +kernel
example : BInt.log .strict 20 ⟨1, [2, 1]⟩ ⟨1, [7]⟩ = .ok ⟨1, [1]⟩ := by decide +kernel
example : BInt.log .strict 20 ⟨1, [4, 1]⟩ ⟨1, [7]⟩ = .ub .outOfBounds := by decide +kernel

end Pyincpp
