import Verif.Proof.IntText

/-! # C01–C09: text, arithmetic and comparison of `Int`

Every statement is about `enc z`, the unique canonical object for the integer `z` (`Verif/Spec/Int.lean`).
`Returns f v` says that the call terminates with value `v`. `.lenient` is the memory mode in which the
harmless past-the-end access of `operator-=` does nothing; C04 says what happens in `.strict` mode. -/

namespace Pyincpp

/-! ## C01 -/

/-- C01: a text of the form `[+-]?[0-9]+` is accepted and gives the integer it denotes. -/
theorem C01_parse_literal (t : List UInt8) (z : ℤ) (h : Literal t z) : BInt.ofChars t = .ok (enc z) :=
  ofChars_literal h

/-- C01: every other text throws. -/
theorem C01_parse_rejects (t : List UInt8) (h : ¬ ∃ z, Literal t z) :
    BInt.ofChars t = .throw "Error: Wrong integer literal." :=
  ofChars_not_literal h

/-- C01: printing gives the canonical numeral. -/
theorem C01_print_canonical (z : ℤ) : BInt.print (enc z) = .ok (numeral z) := print_enc z

/-- C01: the canonical numeral starts with `0` only for zero, has no `+`, and is never `-0…`. -/
theorem C01_numeral_shape (z : ℤ) :
    (∀ r, numeral z ≠ 43 :: r) ∧ (∀ r, numeral z ≠ 45 :: 48 :: r) ∧ (∀ r, numeral z = 48 :: r → z = 0 ∧ r = []) := by
  have hnz : ∀ n : ℕ, n ≠ 0 → ∀ r, natNumeral n ≠ 48 :: r := by
    intro n hn r h
    unfold natNumeral at h
    rw [if_neg hn] at h
    have hne : Nat.digits 10 n ≠ [] := by rw [Ne, Nat.digits_eq_nil_iff_eq_zero]; exact hn
    rw [List.map_reverse] at h
    have h1 : ((Nat.digits 10 n).map (fun d => (48 + d).toUInt8)).getLast (by simpa using hne) = 48 := by
      rw [List.getLast_eq_head_reverse]
      simp only [h, List.head_cons]
    rw [List.getLast_map] at h1
    have h2 := Nat.digits_lt_base (b := 10) (by norm_num) (List.getLast_mem hne)
    have h3 := Nat.getLast_digit_ne_zero 10 hn
    have h4 := toUInt8_digit h2
    rw [h1] at h4
    change 48 = _ at h4
    omega
  have hdig := natNumeral_digits z.natAbs
  refine ⟨?_, ?_, ?_⟩
  · intro r h
    unfold numeral at h
    split at h
    · cases h
    · have := hdig 43 (by rw [h]; simp)
      unfold IsDigit at this
      change 48 ≤ 43 ∧ _ at this
      omega
  · intro r h
    unfold numeral at h
    split at h
    · rename_i hz
      simp only [List.cons.injEq, true_and] at h
      exact hnz _ (by omega) r h
    · have := hdig 45 (by rw [h]; simp)
      unfold IsDigit at this
      change 48 ≤ 45 ∧ _ at this
      omega
  · intro r h
    unfold numeral at h
    split at h
    · cases h
    · by_cases hz : z.natAbs = 0
      · rw [hz] at h
        simp only [natNumeral, if_true, List.cons.injEq, true_and] at h
        exact ⟨by omega, h.symm⟩
      · exact absurd h (hnz _ hz r)

-- "-007" is a literal for -7; "", "+", "1 2" are not.
example : Literal [45, 48, 48, 55] (-7) := Literal.minus [48, 48, 55] (by simp) (by simp [IsDigit])
example : BInt.ofChars [45, 48, 48, 55] = .ok ⟨-1, [7]⟩ := by decide
example : BInt.ofChars [43] = .throw "Error: Wrong integer literal." := by decide
example : BInt.ofChars [49, 32, 50] = .throw "Error: Wrong integer literal." := by decide
example : ¬ ∃ z, Literal [43] z := by rw [← isInteger_iff]; decide
example : BInt.print ⟨-1, [7, 0, 3]⟩ = .ok [45, 51, 48, 55] := by decide

/-! ## C02 -/

/-- C02: parsing what was printed gives the same value. -/
theorem C02_print_parse (z : ℤ) : ∃ t, BInt.print (enc z) = .ok t ∧ BInt.ofChars t = .ok (enc z) :=
  ⟨numeral z, print_enc z, ofChars_literal (literal_numeral z)⟩

/-- C02: reading it back from a stream, after white space and up to white space or the end, gives the same
value and consumes exactly the numeral. -/
theorem C02_stream_round_trip (z : ℤ) (ws rest : List UInt8) (hws : ∀ c ∈ ws, IsWhite c)
    (hrest : ∀ c r, rest = c :: r → IsWhite c) :
    ∃ t, BInt.print (enc z) = .ok t ∧
      BInt.input { buf := ws ++ t ++ rest } = .ok (enc z, { buf := rest, eof := rest.isEmpty }) :=
  ⟨numeral z, print_enc z, input_literal (literal_numeral z) (fun c h => (isSpace_iff c).2 (hws c h))
    (fun c r h => (isSpace_iff c).2 (hrest c r h))⟩

-- " -12 x" meets the hypotheses
example : (∀ c ∈ [(32 : UInt8)], IsWhite c) ∧
    (∀ c r, [(32 : UInt8), 120] = c :: r → IsWhite c) := by
  constructor
  · decide
  · intro c r h; simp at h; rw [← h.1]; decide
example : BInt.input { buf := [32, 45, 49, 50, 32, 120] } = .ok (⟨-1, [2, 1]⟩, { buf := [32, 120] }) := by decide

/-! ## C03 -/

/-- C03: addition is exact, for all signs and lengths. -/
theorem C03_add (x y : ℤ) : Returns (fun k => BInt.add .lenient k (enc x) (enc y)) (enc (x + y)) :=
  ⟨2, fun _ hk => add_enc hk x y⟩

/-- C03: subtraction is exact, for all signs and lengths. -/
theorem C03_sub (x y : ℤ) : Returns (fun k => BInt.sub .lenient k (enc x) (enc y)) (enc (x - y)) :=
  ⟨2, fun _ hk => sub_enc hk x y⟩

example : BInt.add .lenient 2 ⟨1, [9, 9, 9]⟩ ⟨1, [1]⟩ = .ok ⟨1, [0, 0, 0, 1]⟩ := by decide
example : BInt.sub .lenient 2 ⟨1, [0, 0, 0, 1]⟩ ⟨1, [1]⟩ = .ok ⟨1, [9, 9, 9]⟩ := by decide
example : BInt.sub .lenient 2 ⟨1, [5, 1]⟩ ⟨1, [7, 1]⟩ = .ok ⟨-1, [2]⟩ := by decide

/-! ## C04

The property "no operation touches an element outside its digit vector" is false of the code. -/

/-- C04 is false: `10 - 10` writes one element past the end of the digit vector (int.hpp:408). -/
theorem C04_fails : HitsUB (fun k => BInt.sub .strict k (enc 10) (enc 10)) .outOfBounds := by
  refine ⟨2, fun k hk => ?_⟩
  obtain ⟨j, rfl⟩ : ∃ j, k = j + 2 := ⟨k - 2, by omega⟩
  exact subAssign_strict_ub j (by simp [SubSafe, Int.sign])

/-- C04, exact extent for `-`: subtraction leaves its buffer exactly when both operands have the same non-zero
sign and the same number of digits; otherwise it stays inside and is exact. -/
theorem C04_sub_exact (x y : ℤ) :
    if x.sign * y.sign = 1 ∧ (enc x).chunks.length = (enc y).chunks.length
    then HitsUB (fun k => BInt.sub .strict k (enc x) (enc y)) .outOfBounds
    else Returns (fun k => BInt.sub .strict k (enc x) (enc y)) (enc (x - y)) := by
  have key : ∀ k, 2 ≤ k → ∃ j, k = j + 2 := fun k hk => ⟨k - 2, by omega⟩
  split
  · rename_i h
    refine ⟨2, fun k hk => ?_⟩
    obtain ⟨j, rfl⟩ := key k hk
    exact subAssign_strict_ub j (by unfold SubSafe; simp [h.1, h.2])
  · rename_i h
    refine ⟨2, fun k hk => ?_⟩
    obtain ⟨j, rfl⟩ := key k hk
    refine subAssign_enc_aux .strict j ?_
    unfold SubSafe; tauto

/-- C04, exact extent for `+`: the same with the sign of the right operand reversed. -/
theorem C04_add_exact (x y : ℤ) :
    if x.sign * y.sign = -1 ∧ (enc x).chunks.length = (enc y).chunks.length
    then HitsUB (fun k => BInt.add .strict k (enc x) (enc y)) .outOfBounds
    else Returns (fun k => BInt.add .strict k (enc x) (enc y)) (enc (x + y)) := by
  have key : ∀ k, 2 ≤ k → ∃ j, k = j + 2 := fun k hk => ⟨k - 2, by omega⟩
  have hs : x.sign * (-y).sign = - (x.sign * y.sign) := by rw [Int.sign_neg]; ring
  have hl : (enc (-y)).chunks.length = (enc y).chunks.length := by rw [enc_neg_chunks]
  split
  · rename_i h
    refine ⟨2, fun k hk => ?_⟩
    obtain ⟨j, rfl⟩ := key k hk
    exact addAssign_strict_ub j (by unfold SubSafe; rw [hs, hl]; simp [h.1, h.2])
  · rename_i h
    refine ⟨2, fun k hk => ?_⟩
    obtain ⟨j, rfl⟩ := key k hk
    refine addAssign_enc_aux .strict j ?_
    unfold SubSafe
    rw [hs, hl]
    by_cases h1 : x.sign * y.sign = -1
    · right; right; tauto
    · right; left; omega

/-- C04 holds for multiplication, `++`, `--` and comparison, which do not depend on the memory mode, and for
addition of operands of the same sign. What is missing is exactly what `C04_sub_exact` and `C04_add_exact`
show to be false, and the operations built on them. -/
theorem C04_in_bounds_partial (x y : ℤ) :
    BInt.mul (enc x) (enc y) = .ok (enc (x * y)) ∧ BInt.inc (enc x) = .ok (enc (x + 1)) ∧
    BInt.dec (enc x) = .ok (enc (x - 1)) ∧ BInt.cmp (enc x) (enc y) = .ok (Int.sign (x - y)) ∧
    (0 ≤ x * y → Returns (fun k => BInt.add .strict k (enc x) (enc y)) (enc (x + y))) := by
  refine ⟨mul_enc x y, inc_enc x, dec_enc x, cmp_enc x y, fun h => ?_⟩
  have := C04_add_exact x y
  rw [if_neg] at this
  · exact this
  · rintro ⟨h1, -⟩
    rw [← Int.sign_mul, Int.sign_eq_neg_one_iff_neg] at h1
    omega

example : (enc 10).chunks = [0, 1] := by simp [enc]
example : BInt.sub .strict 2 ⟨1, [0, 1]⟩ ⟨1, [0, 1]⟩ = .ub .outOfBounds := by decide
example : BInt.sub .strict 2 ⟨1, [0, 1]⟩ ⟨1, [1]⟩ = .ok ⟨1, [9]⟩ := by decide

/-! ## C06 -/

/-- C06: multiplication is exact and its accumulators never overflow (an overflow would be `ub`). -/
theorem C06_mul (x y : ℤ) : BInt.mul (enc x) (enc y) = .ok (enc (x * y)) := mul_enc x y

example : BInt.mul ⟨-1, [9, 9]⟩ ⟨1, [9, 9]⟩ = .ok ⟨-1, [1, 0, 8, 9]⟩ := by decide

/-! ## C07 -/

/-- C07: division truncates toward zero. -/
theorem C07_div (x y : ℤ) (hy : y ≠ 0) : Returns (fun k => BInt.div .lenient k (enc x) (enc y)) (enc (x.tdiv y)) :=
  ⟨11, fun _ hk => div_enc hk x hy⟩

/-- C07: dividing by zero throws. -/
theorem C07_div_zero (mem : Mem) (k : ℕ) (x : ℤ) :
    BInt.div mem k (enc x) (enc 0) = .throw "Error: Divide by zero." := div_by_zero mem k x

example : BInt.div .lenient 11 ⟨-1, [9, 9]⟩ ⟨1, [2, 1]⟩ = .ok ⟨-1, [8]⟩ := by decide

/-! ## C08

`a == (a / b) * b + a % b` is false of the code for negative dividends. -/

/-- C08 is false: `-7 / 5 = -1` and `-7 % 5 = 2`, but `-1 * 5 + 2 = -3`. -/
theorem C08_fails : Returns (fun k => BInt.div .lenient k (enc (-7)) (enc 5)) (enc (-1)) ∧
    Returns (fun k => BInt.mod .lenient k (enc (-7)) (enc 5)) (enc 2) ∧ (-7 : ℤ) ≠ -1 * 5 + 2 := by
  refine ⟨C07_div (-7) 5 (by norm_num), ⟨11, fun k hk => ?_⟩, by norm_num⟩
  beta_reduce; rw [mod_enc hk _ (by norm_num)]
  simp [codeMod, enc]

/-- C08, what `%` really computes: the dividend itself if it has fewer digits than the divisor, and otherwise the
remainder of the absolute values. -/
theorem C08_mod_exact (x y : ℤ) (hy : y ≠ 0) :
    Returns (fun k => BInt.mod .lenient k (enc x) (enc y))
      (enc (if (enc x).chunks.length < (enc y).chunks.length then x else |x| % |y|)) := by
  refine ⟨11, fun k hk => ?_⟩
  beta_reduce; rw [mod_enc hk _ hy]; rfl

/-- C08: the remainder is always smaller than the divisor in absolute value. -/
theorem C08_mod_small (x y : ℤ) (hy : y ≠ 0) :
    ∃ r : ℤ, Returns (fun k => BInt.mod .lenient k (enc x) (enc y)) (enc r) ∧ |r| < |y| := by
  refine ⟨_, C08_mod_exact x y hy, ?_⟩
  split
  · rename_i h; exact enc_len_lt h
  · rw [abs_of_nonneg (Int.emod_nonneg _ (by simpa using hy))]
    exact Int.emod_lt_of_pos _ (by simpa using hy)

/-- C08 for non-negative dividends: the identity holds. For a negative dividend with at least as many digits as
the divisor it fails unless the remainder is zero (`C08_mod_exact`). -/
theorem C08_div_mod_partial (x y : ℤ) (hx : 0 ≤ x) (hy : y ≠ 0) :
    ∃ q r : ℤ, Returns (fun k => BInt.div .lenient k (enc x) (enc y)) (enc q) ∧
      Returns (fun k => BInt.mod .lenient k (enc x) (enc y)) (enc r) ∧ x = q * y + r ∧ |r| < |y| := by
  refine ⟨x.tdiv y, x.tmod y, C07_div x y hy, ⟨11, fun k hk => ?_⟩, ?_, ?_⟩
  · beta_reduce; rw [mod_enc hk _ hy, codeMod_of_nonneg hx]
  · rw [mul_comm]; exact (Int.mul_tdiv_add_tmod x y).symm
  · obtain ⟨r, hr, hlt⟩ := C08_mod_small x y hy
    have h2 : Returns (fun k => BInt.mod .lenient k (enc x) (enc y)) (enc (x.tmod y)) :=
      ⟨11, fun k hk => by beta_reduce; rw [mod_enc hk _ hy, codeMod_of_nonneg hx]⟩
    have := enc_injective (hr.unique h2)
    rw [← this]; exact hlt

/-- C08, exactly when the identity holds: `x = (x / y) * y + x % y` iff the dividend is non-negative, or shorter than
the divisor, or a multiple of it. -/
theorem C08_identity_iff (x y : ℤ) (hy : y ≠ 0) (r : ℤ)
    (hr : Returns (fun k => BInt.mod .lenient k (enc x) (enc y)) (enc r)) :
    x = x.tdiv y * y + r ↔ (0 ≤ x ∨ (enc x).chunks.length < (enc y).chunks.length ∨ y ∣ x) := by
  have hr' := enc_injective ((C08_mod_exact x y hy).unique hr)
  have hid := Int.mul_tdiv_add_tmod x y
  have hid' : x = x.tdiv y * y + r ↔ x.tmod y = r := by
    constructor <;> intro h <;> nlinarith
  rw [hid', ← hr']
  by_cases hlen : (enc x).chunks.length < (enc y).chunks.length
  · simp only [hlen, if_true, true_or, or_true, iff_true]
    have := enc_len_lt hlen
    rw [Int.tmod_eq_emod]
    split_ifs with h
    · rcases h with h | h
      · have h1 : x.emod y = x % |y| := (Int.emod_abs x y).symm
        rw [show x % y = x % |y| from h1, Int.emod_eq_of_lt h (by rwa [abs_of_nonneg h] at this)]; ring
      · have hx0 : x = 0 := by
          by_contra hne
          have := Int.le_of_dvd (abs_pos.mpr hne) ((abs_dvd_abs y x).mpr h)
          omega
        subst hx0; simp
    · push Not at h
      have h1 : 0 ≤ x % y := Int.emod_nonneg _ hy
      have h2 : x % y < |y| := Int.emod_lt_abs _ hy
      have h3 : |x| = -x := abs_of_neg h.1
      have h4 : x % y = x + |y| := by
        rw [← Int.emod_abs, ← Int.add_emod_right, Int.emod_eq_of_lt (by omega) (by omega)]
      rw [h4, Int.abs_eq_natAbs]; omega
  · simp only [hlen, if_false, false_or]
    constructor
    · intro h
      by_cases hx : 0 ≤ x
      · exact Or.inl hx
      · right
        have h1 : 0 ≤ |x| % |y| := Int.emod_nonneg _ (by simpa using hy)
        have h2 : x.tmod y ≤ 0 := by
          have := Int.tmod_nonneg (a := -x) y (by omega)
          rw [Int.neg_tmod] at this; omega
        have h3 : x.tmod y = 0 := by omega
        exact Int.dvd_of_tmod_eq_zero h3
    · rintro (h | h)
      · rw [← codeMod_of_nonneg h]; unfold codeMod; rw [if_neg hlen]
      · rw [Int.tmod_eq_zero_of_dvd h, Int.emod_eq_zero_of_dvd ((abs_dvd_abs y x).mpr h)]

/-- C08: `% 0` throws. -/
theorem C08_mod_zero (mem : Mem) (k : ℕ) (x : ℤ) :
    BInt.mod mem k (enc x) (enc 0) = .throw "Error: Divide by zero." := mod_by_zero mem k x

example : BInt.mod .lenient 11 ⟨-1, [7]⟩ ⟨1, [5]⟩ = .ok ⟨1, [2]⟩ := by decide
example : BInt.mod .lenient 11 ⟨-1, [7]⟩ ⟨1, [5, 2]⟩ = .ok ⟨-1, [7]⟩ := by decide
example : BInt.mod .lenient 11 ⟨1, [3, 2, 1]⟩ ⟨-1, [5]⟩ = .ok ⟨1, [3]⟩ := by decide

/-! ## C09 -/

/-- C09: `==` is equality of the values. -/
theorem C09_eq (x y : ℤ) : BInt.eq (enc x) (enc y) = true ↔ x = y := by rw [eq_enc_iff]; simp

/-- C09: `<=>` has the sign of the comparison, and the four relational operators agree with it. -/
theorem C09_order (x y : ℤ) :
    (∃ c, BInt.cmp (enc x) (enc y) = .ok c ∧ (c < 0 ↔ x < y) ∧ (c = 0 ↔ x = y) ∧ (0 < c ↔ y < x)) ∧
    BInt.lt (enc x) (enc y) = .ok (decide (x < y)) ∧ BInt.le (enc x) (enc y) = .ok (decide (x ≤ y)) ∧
    BInt.gt (enc x) (enc y) = .ok (decide (y < x)) ∧ BInt.ge (enc x) (enc y) = .ok (decide (y ≤ x)) := by
  refine ⟨⟨_, cmp_enc x y, ?_, ?_, ?_⟩, lt_enc x y, le_enc x y, gt_enc x y, ge_enc x y⟩
  · rw [Int.sign_neg_iff]; omega
  · rw [Int.sign_eq_zero_iff_zero]; omega
  · rw [Int.sign_pos_iff]; omega

example : BInt.cmp ⟨-1, [3, 2, 1]⟩ ⟨-1, [9, 9]⟩ = .ok (-1) := by decide

end Pyincpp
