import Verif.Proof.IntSteps
import Verif.Model.Int

/-! # C82: how many rounds the loops make

The fuel `k` bounds every loop of a call: a call with fuel `k` returns only if none of its loops (the loops of the
functions it calls included) tests its condition more than `k` times. The theorems give an explicit `k` for each
function of `Int` that loops. `11` is what the quotient loop of `/` and `%` needs, which most of them use. -/

namespace Pyincpp

/-- C82: `+`, `-`, `/` and `%` need a fixed number of rounds per loop, whatever the operands. -/
theorem C82_basic (k : ℕ) (hk : 11 ≤ k) (x y : ℤ) :
    BInt.add .lenient k (enc x) (enc y) = .ok (enc (x + y)) ∧ BInt.sub .lenient k (enc x) (enc y) = .ok (enc (x - y)) ∧
    (y ≠ 0 → BInt.div .lenient k (enc x) (enc y) = .ok (enc (x.tdiv y))) ∧
    (0 < y → 0 ≤ x → BInt.mod .lenient k (enc x) (enc y) = .ok (enc (x % y))) :=
  ⟨add_enc (by omega) x y, sub_enc (by omega) x y, fun h => div_enc hk x h,
    fun h hx => by rw [mod_enc hk x (by omega), codeMod_of_pos hx]⟩

/-- C82: the Euclidean loop of `gcd` and `lcm` makes at most five rounds for each decimal digit of the second argument
(Lamé). -/
theorem C82_gcd (a b : ℤ) (d k : ℕ) (hb : |b| < 10 ^ d) (hk : 11 ≤ k) (hd : 5 * d < k) :
    BInt.gcd .lenient k (enc a) (enc b) = .ok (enc (Int.gcd a b)) ∧
    BInt.lcm .lenient k (enc a) (enc b) = .ok (enc (Int.lcm a b)) := by
  have h := euclid_lame a.natAbs b.natAbs d (by zify; exact hb)
  exact ⟨gcd_sharp hk (by omega), lcm_sharp hk (by omega)⟩

/-- C82: the bound for `gcd` has the right order: two successive Fibonacci numbers take one round more with each
step, so no fixed number of rounds is enough. -/
theorem C82_gcd_tight (n k : ℕ) (hk : 11 ≤ k) :
    BInt.gcd .lenient k (enc (Nat.fib (n + 3))) (enc (Nat.fib (n + 2))) = (if n + 1 < k then .ok (enc 1) else .fuel) := by
  have e : euclid (Nat.fib (n + 3) : ℤ).natAbs (Nat.fib (n + 2) : ℤ).natAbs = n + 1 := by
    rw [Int.natAbs_natCast, Int.natAbs_natCast, euclid_of_fib]
  split
  · rw [gcd_sharp hk (by omega)]
    congr 2
    have : Nat.gcd (Nat.fib (n + 3)) (Nat.fib (n + 2)) = 1 := by
      rw [Nat.gcd_comm]; exact Nat.fib_coprime_fib_succ (n + 2)
    rw [Int.gcd_natCast_natCast, this]; rfl
  · exact gcd_short hk (by omega)

/-- C82: `pow` makes one round for each binary digit of the exponent, with and without a modulus. -/
theorem C82_pow (b : ℤ) (e s k : ℕ) (he : e < 2 ^ s) (hk : 11 ≤ k) (hs : s < k) :
    BInt.pow .lenient k (enc b) (enc e) (enc 0) = .ok (enc (b ^ e)) :=
  pow_sharp hk (lt_of_le_of_lt (Nat.size_le.mpr he) hs)

theorem C82_pow_mod (b m : ℤ) (hm : m ≠ 0) (e s : ℕ) (he : e < 2 ^ s) :
    ∃ r : ℤ, ∀ k, 11 ≤ k → s < k → BInt.pow .lenient k (enc b) (enc e) (enc m) = .ok (enc r) := by
  by_cases h1 : |b| = 1
  · exact ⟨_, fun k _ _ => by rw [pow_shape, if_pos h1]⟩
  · refine ⟨powCode m b 1 e, fun k hk hs => ?_⟩
    obtain ⟨p, q, r, e1, -, -, -, -, hr⟩ := pow_loop_mod (k := k) (b := b) (e := e) hm hk
      (lt_of_le_of_lt (Nat.size_le.mpr he) hs)
    rw [pow_shape, if_neg h1, if_neg (by omega), e1, hr]; rfl

/-- C82: `log(n, b)` makes `⌊log_b n⌋` rounds. -/
theorem C82_log (n b l k : ℕ) (hn : 0 < n) (hb : 2 ≤ b) (hl : n < b ^ l) (hk : 11 ≤ k) (hr : l ≤ k)
    (hsize : (enc (n : ℤ)).chunks.length ≤ 2147483647) :
    BInt.log .lenient k (enc n) (enc b) = .ok (enc (Nat.log b n)) :=
  log_sharp hn hb hk (lt_of_lt_of_le (Nat.log_lt_of_lt_pow (by omega) hl) hr) hsize

/-- C82: `sqrt` of a number of `l` digits makes at most `log2 l + 5` rounds (unless the number is one less than a
square: then it never ends, C16). -/
theorem C82_sqrt (n l k : ℕ) (hn : n < 10 ^ l) (hg : ¬ ∃ m, 3 ≤ n ∧ n + 1 = m * m) (hk : 11 ≤ k)
    (hr : Nat.log 2 l + 6 ≤ k) : BInt.sqrt .lenient k (enc n) = .ok (enc (Nat.sqrt n)) := by
  rcases Nat.lt_or_ge n 4 with h4 | h4
  · exact sqrt_small h4
  · refine sqrt_sharp h4 (fun ⟨m, hm⟩ => hg ⟨m, by omega, hm⟩) hk (le_trans ?_ hr)
    refine Nat.add_le_add_right (Nat.log_mono_right ?_) 6
    simp only [enc, List.length_map, Int.natAbs_natCast]
    rw [Nat.length_digits 10 n (by norm_num) (by omega)]
    exact Nat.log_lt_of_lt_pow (by omega) hn

/-- C82: `is_prime` tries no divisor beyond the root, `factorial` makes one round per factor. -/
theorem C82_is_prime (z : ℤ) (r k : ℕ) (hz : z < (r + 1) ^ 2) (hk : 11 ≤ k) (hr : r ≤ k) :
    BInt.isPrime .lenient k (enc z) = .ok (decide (Nat.Prime z.toNat)) := by
  refine isPrime_sharp hk (le_trans (Nat.lt_succ_iff.mp ?_) hr)
  rw [Nat.succ_eq_add_one, Nat.sqrt_lt]
  have : (z.toNat : ℤ) < (r + 1) ^ 2 := by
    rcases le_or_gt 0 z with h | h
    · rwa [Int.toNat_of_nonneg h]
    · have : z.toNat = 0 := by omega
      rw [this]; positivity
  have h2 : z.toNat < (r + 1) ^ 2 := by exact_mod_cast this
  nlinarith

theorem C82_factorial (z k : ℕ) (hk : z < k) : BInt.factorial k (enc z) = .ok (enc (z.factorial)) := factorial_enc hk

/-- C82: `next_prime` makes at most `z / 2 + 1` rounds, because there is a prime between `z` and `2 z` (Bertrand). -/
theorem C82_next_prime (z : ℤ) (P k : ℕ) (hP : P.Prime) (hlt : z < P) (hmin : ∀ q : ℕ, z < q → q < P → ¬ q.Prime)
    (hk : 11 ≤ k) (hr : z < 2 * k) : BInt.nextPrime .lenient k (enc z) = .ok (enc P) :=
  nextPrime_bertrand hP hlt hmin hk hr

/-- The greatest common divisor of two 100-digit numbers takes at most 500 rounds. -/
example : BInt.gcd .lenient 501 (enc (10 ^ 99 + 7)) (enc (10 ^ 99 + 9)) = .ok (enc (Int.gcd (10 ^ 99 + 7) (10 ^ 99 + 9))) :=
  (C82_gcd _ _ 100 501 (by norm_num) (by norm_num) (by norm_num)).1

/-- The root of a number of a hundred digits takes fewer than 12 rounds. -/
example : BInt.sqrt .lenient 12 (enc ((4 * 10 ^ 98 : ℕ) : ℤ)) = .ok (enc (Nat.sqrt (4 * 10 ^ 98) : ℕ)) := by
  refine C82_sqrt _ 100 12 (by norm_num) ?_ (by norm_num) ?_
  · rintro ⟨m, -, h⟩
    have e : 4 * 10 ^ 98 = (2 * 10 ^ 49) * (2 * 10 ^ 49) := by norm_num
    have hp : 0 < 2 * 10 ^ 49 := by norm_num
    rw [e] at h
    generalize 2 * 10 ^ 49 = t at h hp
    have h1 : t < m := by
      by_contra hc
      have : m * m ≤ t * t := Nat.mul_le_mul (by omega) (by omega)
      omega
    have h2 : (t + 1) * (t + 1) ≤ m * m := Nat.mul_le_mul h1 h1
    nlinarith
  · have : Nat.log 2 100 = 6 := by
      rw [Nat.log_eq_iff (by norm_num)]; norm_num
    omega

example : BInt.nextPrime .lenient 11 (enc 20) = .ok (enc (23 : ℕ)) :=
  C82_next_prime 20 23 11 (by norm_num) (by norm_num)
    (fun q h1 h2 => by
      have h1' : 20 < q := by exact_mod_cast h1
      interval_cases q <;> norm_num) (by norm_num) (by norm_num)

example : BInt.pow .lenient 11 (enc 3) (enc (1000 : ℕ)) (enc 0) = .ok (enc (3 ^ 1000)) :=
  C82_pow 3 1000 10 11 (by norm_num) (by norm_num) (by norm_num)

end Pyincpp
