import Verif.Proof.IntAnyPow

/-! # Counting with `int`: comparison beyond 2^31 digits, text, conversion to built-in integers -/

namespace Pyincpp

theorem downFrom_low (d : ℕ) : Big.downFrom d = lowDigits d := by
  unfold Big.downFrom lowDigits wrap32
  split <;> omega

theorem big_cmp_low {x y : ℤ} (hs : x.sign = y.sign) (hd : numDigits x = numDigits y) :
    Big.cmp (enc x) (enc y) =
      .ok (x.sign * Int.sign (|x| % 10 ^ lowDigits (numDigits x) - |y| % 10 ^ lowDigits (numDigits x))) := by
  have h := big_absCmp_low x y (enc x).sign (enc y).sign (by rw [← numDigits_eq, ← numDigits_eq]; exact hd)
  have h' : Big.absCmp (enc x) (enc y) =
      .ok (Int.sign (|x| % 10 ^ lowDigits (numDigits x) - |y| % 10 ^ lowDigits (numDigits x))) := by
    rw [← downFrom_low, numDigits_eq]
    exact h
  unfold Big.cmp
  rw [enc_sign, enc_sign, if_neg (by simpa using hs), h']
  simp only [Res.ok_bind, Res.pure_eq]
  rcases lt_trichotomy x 0 with hx | hx | hx
  · rw [Int.sign_eq_neg_one_of_neg hx, if_neg (by norm_num)]
    congr 1; ring
  · subst hx
    have hy : y = 0 := by
      rw [Int.sign_zero] at hs
      exact Int.sign_eq_zero_iff_zero.1 hs.symm
    subst hy
    simp
  · rw [Int.sign_eq_one_of_pos hx, if_pos (by norm_num), one_mul]

theorem big_cmp_sign {x y : ℤ} (h : x.sign ≠ y.sign) : Big.cmp (enc x) (enc y) = BInt.cmp (enc x) (enc y) := by
  unfold Big.cmp BInt.cmp
  rw [enc_sign, enc_sign, if_pos h, if_pos h]

theorem numDigits_pow_ten (n : ℕ) {a : ℤ} (h0 : 0 ≤ a) (h : a < 10 ^ n) : numDigits (10 ^ n + a) = n + 1 := by
  have h1 : numDigits (10 ^ n + a) ≤ n + 1 := by
    rw [numDigits_le_iff, abs_of_nonneg (by positivity), pow_succ]
    have : (0:ℤ) < 10 ^ n := by positivity
    linarith
  have h2 : ¬ numDigits (10 ^ n + a) ≤ n := by
    rw [numDigits_le_iff, abs_of_nonneg (by positivity)]
    omega
  omega

/-! ## text -/

theorem big_ofChars_short {t : List UInt8} (h : t.length ≤ maxLen) : Big.ofChars t = BInt.ofChars t := by
  unfold Big.ofChars Big.isInteger
  simp only
  rw [wrap32_count h]
  have hn : ¬ ((t.length : ℤ) < 0) := by omega
  rw [if_neg hn, if_neg hn]
  simp only [Int.toNat_natCast, List.take_length]
  split
  · rename_i hi
    unfold BInt.ofChars
    rw [if_pos hi]
  · rfl

theorem big_ofChars_neg {t : List UInt8} (h : 2147483648 ≤ t.length % 4294967296) : Big.ofChars t = .ub .badRange := by
  unfold Big.ofChars Big.isInteger
  simp only
  have hn : wrap32 (t.length : ℤ) < 0 := by unfold wrap32; omega
  rw [if_pos hn, if_pos hn]
  simp

theorem big_ofChars_low {t : List UInt8} (h : t.length % 4294967296 < 2147483648) :
    Big.ofChars t = BInt.ofChars (t.take (t.length % 4294967296)) := by
  unfold Big.ofChars Big.isInteger
  simp only
  have hw : wrap32 (t.length : ℤ) = ((t.length % 4294967296 : ℕ) : ℤ) := by unfold wrap32; omega
  rw [hw]
  have hn : ¬ (((t.length % 4294967296 : ℕ) : ℤ) < 0) := by omega
  rw [if_neg hn, if_neg hn]
  simp only [Int.toNat_natCast]
  split
  · rename_i hi
    unfold BInt.ofChars
    rw [if_pos hi]
  · rfl

/-! ## to_integer -/

theorem big_toInteger_short (t : BInt.IntTy) {x : ℤ} (h : numDigits x ≤ maxLen + 1) :
    Big.toInteger t (enc x) = BInt.toInteger t (enc x) := by
  unfold Big.toInteger BInt.toInteger
  rw [downFrom_eq (by rw [← numDigits_eq]; exact h)]

theorem big_toInteger_low {t : BInt.IntTy} (ht : t.Std) (x : ℤ)
    (h1 : t.fits (|x| % 10 ^ lowDigits (numDigits x))) (h2 : t.fits (x.sign * (|x| % 10 ^ lowDigits (numDigits x)))) :
    Big.toInteger t (enc x) = .ok (x.sign * (|x| % 10 ^ lowDigits (numDigits x))) := by
  have hval : val ((enc x).chunks.take (lowDigits (numDigits x))) = |x| % 10 ^ lowDigits (numDigits x) := by
    rw [val_take_mod (enc_digs x), enc_val]
  have hle : lowDigits (numDigits x) ≤ (enc x).chunks.length := by
    rw [← numDigits_eq, ← downFrom_low]
    exact downFrom_le _
  have hlen : ((enc x).chunks.take (lowDigits (numDigits x))).length = lowDigits (numDigits x) := by
    rw [List.length_take]; omega
  have hl := toInteger_loop ht (digs_take (enc_digs x) (lowDigits (numDigits x))) (by rw [hval]; exact h1)
  rw [hlen, hval] at hl
  unfold Big.toInteger
  rw [downFrom_low, ← numDigits_eq]
  rw [forDown_congr (body' := fun i r => do
      let p ← t.arith (r * 10)
      let s ← t.arith (p + (← vget ((enc x).chunks.take (lowDigits (numDigits x))) i))
      pure (t.conv s)) (fun _ _ => True) _ _ trivial ?_, hl]
  · simp only [Res.ok_bind]
    rw [enc_sign, mul_comm, arith_fits h2 ht]
    simp only [Res.ok_bind, Res.pure_eq]
    rw [conv_fits h2 ht]
  · intro j s hj _
    refine ⟨?_, fun _ _ => trivial⟩
    rw [vget_ok (by omega), vget_ok (by rw [hlen]; exact hj), List.getElem_take]

end Pyincpp
