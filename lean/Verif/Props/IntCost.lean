import Verif.Proof.IntCostDiv

/-! # C100: what the operations of `Int` cost

`/repo/sources/int.hpp` claims costs in comments: the shift of the divisor is "in O(1)" (lines 483 and 527) and the
inner loop of division has "<= 9 loops" (lines 488 and 532). The functions of `Model/IntCost.lean` are the functions of
`Model/Int.lean` with a counter of rounds of loops, of elements written to fresh storage, of elements moved by
`erase(begin())`, and of the subtractions of the long division.
-/

namespace Pyincpp
open BInt Steps

/-- Counting changes nothing: without the counts these are the functions of the model. -/
theorem C100_same (mem : Mem) (k : ℕ) (x y : BInt) :
    forget (cmpS x y) = BInt.cmp x y ∧ forget (incS x) = BInt.inc x ∧ forget (decS x) = BInt.dec x ∧
    forget (addAssignS mem false k x y) = BInt.add mem k x y ∧ forget (subAssignS mem k x y) = BInt.sub mem k x y ∧
    forget (mulAssignS x y) = BInt.mul x y ∧ forget (divAssignS mem k x y) = BInt.div mem k x y ∧
    forget (modAssignS mem k x y) = BInt.mod mem k x y :=
  ⟨forget_cmpS x y, forget_incS x, forget_decS x, forget_addAssignS mem false k x y, forget_subAssignS mem k x y, forget_mulAssignS x y,
    forget_divAssignS mem k x y, forget_modAssignS mem k x y⟩

example : forget (incS ⟨1, [9, 9]⟩) = .ok ⟨1, [0, 0, 1]⟩ := by
  rw [forget_incS]; rfl

/-- A comparison looks at each pair of digits at most once and writes nothing. -/
theorem C100_cmp (x y : ℤ) : ∃ c, (cmpS (enc x) (enc y)).run = .ok (Int.sign (x - y), c) ∧ c .round ≤ min (digitCount x) (digitCount y) ∧
    c .written = 0 ∧ c .moved = 0 ∧ c .subtraction = 0 := by
  have h := run_of_forget (by rw [forget_cmpS, cmp_enc]) (post_cmpS (enc x) (enc y))
  rwa [enc_length, enc_length] at h

/-- `++` of a positive integer: with `10^i` the highest power of ten that divides `z + 1`, the two loops and the cut at the
top make `2i + 1` rounds, or `2i` when the number gets one more digit. -/
theorem C100_inc {z : ℤ} (hz : 0 < z) : ∃ i c, (incS (enc z)).run = .ok (enc (z + 1), c) ∧
    10 ^ i ∣ z.natAbs + 1 ∧ ¬ 10 ^ (i + 1) ∣ z.natAbs + 1 ∧ c .round + digitCount (z + 1) = 2 * i + (digitCount z + 1) ∧
    c .written = 1 ∧ c .moved = 0 ∧ c .subtraction = 0 := incS_pos hz

example : ∃ c, (incS (enc 1999)).run = .ok (enc 2000, c) ∧ c .round = 7 := by
  obtain ⟨i, c, h, h1, h2, h3, -⟩ := C100_inc (z := 1999) (by norm_num)
  have hi : i = 3 := by
    have a : ¬ 4 ≤ i := fun ge => by
      have := (Nat.pow_dvd_pow 10 ge).trans h1
      norm_num at this
    have b : ¬ i ≤ 2 := fun le => h2 ((Nat.pow_dvd_pow 10 (show i + 1 ≤ 3 by omega)).trans (by norm_num))
    omega
  have e1 : digitCount (1999 + 1) = 4 := by norm_num [digitCount]
  have e2 : digitCount 1999 = 4 := by norm_num [digitCount]
  exact ⟨c, by norm_num at h; exact h, by omega⟩

/-- `--` of a positive integer: with `10^i` the highest power of ten that divides `z`, `2i` rounds, and one more when the
number loses a digit. -/
theorem C100_dec {z : ℤ} (hz : 0 < z) : ∃ i c, (decS (enc z)).run = .ok (enc (z - 1), c) ∧
    10 ^ i ∣ z.natAbs ∧ ¬ 10 ^ (i + 1) ∣ z.natAbs ∧ c .round + digitCount (z - 1) = 2 * i + digitCount z ∧
    c .written = 0 ∧ c .moved = 0 ∧ c .subtraction = 0 := decS_pos hz

example : (0 : ℤ) < 2000 := by norm_num

/-- Counting from zero to `N`: the cost of all `N` increments is below `11N/9` rounds, exactly. -/
theorem C100_count_up_partial (N : ℕ) : ∃ c, (crementS (List.replicate N true) (enc 0)).run = .ok (enc N, c) ∧
    9 * c .round + 2 * digitSum N + 9 * digitCount N = 11 * N ∧ c .written = N ∧ c .moved = 0 ∧ c .subtraction = 0 := count_up N

/-- Counting from `N` down to zero. -/
theorem C100_count_down_partial (N : ℕ) : ∃ c, (crementS (List.replicate N false) (enc N)).run = .ok (enc 0, c) ∧
    9 * c .round + 2 * digitSum N = 2 * N + 9 * digitCount N ∧ c .written = 0 ∧ c .moved = 0 ∧ c .subtraction = 0 := count_down N

example : ∃ c, (crementS (List.replicate 100 true) (enc 0)).run = .ok (enc 100, c) ∧ c .round = 119 := by
  obtain ⟨c, h, h1, -⟩ := C100_count_up_partial 100
  have e1 : digitSum ((100 : ℕ) : ℤ) = 1 := by norm_num [digitSum]
  have e2 : digitCount ((100 : ℕ) : ℤ) = 3 := by norm_num [digitCount]
  exact ⟨c, h, by omega⟩

/-- Mixed increments and decrements have no constant cost per operation: a client that goes back and forth at a power of
ten pays for all digits every time. -/
theorem C100_crement_not (C : ℕ) : ∃ (ops : List Bool) (z : ℤ) (c : Count), (crementS ops (enc 0)).run = .ok (enc z, c) ∧ C * ops.length < c .round := by
  obtain ⟨c, h, -⟩ := count_up (10 ^ (C + 1))
  obtain ⟨d, h', h1⟩ := down_ups (C + 1) (by omega) (10 ^ (C + 1))
  rw [show ((10 ^ (C + 1) : ℕ) : ℤ) = 10 ^ (C + 1) by push_cast; rfl] at h
  refine ⟨_, _, _, crementS_append h h', ?_⟩
  have hl : (List.replicate (10 ^ (C + 1)) true ++ (List.replicate (10 ^ (C + 1)) [false, true]).flatten).length = 3 * 10 ^ (C + 1) := by
    simp; ring
  have hp : 0 < 10 ^ (C + 1) := by positivity
  rw [hl]
  simp only [Pi.add_apply]
  rw [h1]
  nlinarith

/-- Sums and differences are linear in the longer operand. -/
theorem C100_add {k : ℕ} (hk : 2 ≤ k) (x y : ℤ) : ∃ c, (addAssignS .lenient false k (enc x) (enc y)).run = .ok (enc (x + y), c) ∧
    c .round + digitCount (x + y) ≤ 3 * max (digitCount x) (digitCount y) + 2 ∧
    c .written ≤ 2 * max (digitCount x) (digitCount y) + 1 ∧ c .moved = 0 ∧ c .subtraction = 0 := by
  have h := run_of_forget (by rw [forget_addAssignS]; exact add_enc hk x y) (post_addAssignS hk x y)
  rwa [enc_length] at h

theorem C100_sub {k : ℕ} (hk : 2 ≤ k) (x y : ℤ) : ∃ c, (subAssignS .lenient k (enc x) (enc y)).run = .ok (enc (x - y), c) ∧
    c .round + digitCount (x - y) ≤ 3 * max (digitCount x) (digitCount y) + 2 ∧
    c .written ≤ 2 * max (digitCount x) (digitCount y) + 1 ∧ c .moved = 0 ∧ c .subtraction = 0 := by
  have h := run_of_forget (by rw [forget_subAssignS]; exact sub_enc hk x y) (post_subAssignS hk x y)
  rwa [enc_length] at h

example : (2 : ℕ) ≤ 2 := le_rfl

/-- A product of non-zero integers: exactly one round for each pair of digits, one for each digit of the left operand, and
the cut at the top. -/
theorem C100_mul {x y : ℤ} (hx : x ≠ 0) (hy : y ≠ 0) : ∃ c, (mulAssignS (enc x) (enc y)).run = .ok (enc (x * y), c) ∧
    c .round + digitCount (x * y) = digitCount x * (digitCount y + 1) + (digitCount x + digitCount y) ∧
    c .written = digitCount x + digitCount y + digitCount (x * y) ∧ c .moved = 0 ∧ c .subtraction = 0 := by
  have h := run_of_forget (by rw [forget_mulAssignS]; exact mul_enc x y)
    (post_mulAssignS (x := enc x) (y := enc y) (by rwa [Ne, enc_sign_eq_zero]) (by rwa [Ne, enc_sign_eq_zero]))
  rwa [enc_length, enc_length, enc_length] at h

example : ∃ c, (mulAssignS (enc 99) (enc 99)).run = .ok (enc 9801, c) ∧ c .round = 6 := by
  obtain ⟨c, h, h1, -⟩ := C100_mul (x := 99) (y := 99) (by norm_num) (by norm_num)
  have e1 : digitCount (99 * 99) = 4 := by norm_num [digitCount]
  have e2 : digitCount 99 = 2 := by norm_num [digitCount]
  rw [e1, e2] at h1
  exact ⟨c, by norm_num at h; exact h, by omega⟩

/-- A quotient of integers with `m ≥ n` digits: the number of subtractions is the digit sum of the quotient. The elements
moved by the shifts are `size * n + size * (size - 1) / 2` with `size = m - n + 1`. The rest is at most quadratic. -/
theorem C100_div_partial {k : ℕ} (hk : 11 ≤ k) {x y : ℤ} (hy : y ≠ 0) (hlen : digitCount y ≤ digitCount x) :
    ∃ c size, (divAssignS .lenient k (enc x) (enc y)).run = .ok (enc (x.tdiv y), c) ∧ size + digitCount y = digitCount x + 1 ∧
      c .subtraction = digitSum (|x| / |y|) ∧ 2 * c .moved + size = size * (2 * digitCount y + size) ∧
      c .round ≤ size * (digitCount x + 2) + 4 * digitCount x * digitSum (|x| / |y|) ∧
      c .written ≤ 2 * size + digitCount y + digitCount x * digitSum (|x| / |y|) + digitCount (x.tdiv y) := by
  obtain ⟨c, h, size, h1, h2, h3, h4, h5⟩ := run_of_forget (by rw [forget_divAssignS]; exact div_enc hk x hy) (post_divAssignS (by omega) hy hlen)
  rw [h2] at h4 h5
  rw [enc_length] at h5
  exact ⟨c, size, h, h1, h2, h3, h4, h5⟩

theorem C100_mod_partial {k : ℕ} (hk : 11 ≤ k) {x y : ℤ} (hy : y ≠ 0) (hlen : digitCount y ≤ digitCount x) :
    ∃ c size, (modAssignS .lenient k (enc x) (enc y)).run = .ok (enc (|x| % |y|), c) ∧ size + digitCount y = digitCount x + 1 ∧
      c .subtraction = digitSum (|x| / |y|) ∧ 2 * c .moved + size = size * (2 * digitCount y + size) ∧
      c .round ≤ size * (digitCount x + 1) + 4 * digitCount x * digitSum (|x| / |y|) ∧
      c .written ≤ size + digitCount y + digitCount x * digitSum (|x| / |y|) := by
  have hf : forget (modAssignS .lenient k (enc x) (enc y)) = .ok (enc (|x| % |y|)) := by
    rw [forget_modAssignS]
    have := mod_enc hk x hy
    rwa [codeMod, if_neg (by rw [enc_length, enc_length]; omega)] at this
  obtain ⟨c, h, size, h1, h2, h3, h4, h5⟩ := run_of_forget hf (post_modAssignS (by omega) hy hlen)
  rw [h2] at h4 h5
  exact ⟨c, size, h, h1, h2, h3, h4, h5⟩

example : ∃ c, (divAssignS .lenient 11 (enc 1999) (enc 2)).run = .ok (enc 999, c) ∧ c .subtraction = 27 ∧ c .moved = 10 := by
  have e1 : digitCount 1999 = 4 := by norm_num [digitCount]
  have e2 : digitCount 2 = 1 := by norm_num [digitCount]
  obtain ⟨c, size, h, h1, h2, h3, -⟩ := C100_div_partial (k := 11) le_rfl (x := 1999) (y := 2) (by norm_num) (by omega)
  obtain rfl : size = 4 := by omega
  have e3 : digitSum (|1999| / |2|) = 27 := by norm_num [digitSum]
  rw [e2] at h3
  exact ⟨c, h, by omega, by omega⟩

/-- The quotient is not known in advance, but its digits are at most 9: the "<= 9 loops" of the comments. -/
theorem C100_nine (z : ℤ) : digitSum z ≤ 9 * digitCount z := by
  unfold digitSum digitCount
  rw [Nat.mul_comm]
  refine (List.sum_le_card_nsmul _ 9 ?_).trans (by simp)
  intro d hd
  have := Nat.digits_lt_base (by norm_num) hd
  omega

/-- The comment "tmp = rhs * 10^i in O(1)" is wrong: no constant bounds the elements that move in one shift, not even on
the average over one division. -/
theorem C100_shift_not (C : ℕ) : ∃ (x y : ℤ) (c : Count) (size : ℕ), (divAssignS .lenient 11 (enc x) (enc y)).run = .ok (enc (x.tdiv y), c) ∧
    size + digitCount y = digitCount x + 1 ∧ C * size < c .moved := by
  have e1 : digitCount 1 = 1 := by norm_num [digitCount]
  have e2 : digitCount (10 ^ (2 * C)) = 2 * C + 1 := digitCount_pow _
  obtain ⟨c, size, h, h1, -, h3, -⟩ := C100_div_partial (k := 11) le_rfl (x := 10 ^ (2 * C)) (y := 1) (by norm_num) (by omega)
  refine ⟨_, _, c, size, h, h1, ?_⟩
  obtain rfl : size = 2 * C + 1 := by omega
  rw [e1] at h3
  nlinarith

end Pyincpp
