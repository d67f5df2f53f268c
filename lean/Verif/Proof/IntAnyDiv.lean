import Verif.Proof.IntAnyMul
import Verif.Proof.IntDiv

/-! # Counting with `int`: `digits`, division, remainder -/

namespace Pyincpp

open Classical in
theorem big_digits (x : ℤ) :
    Big.digits (enc x) = if Short x then .ok (numDigits x : ℤ) else .ub .overflow := by
  unfold Big.digits
  rw [digits_enc]
  simp only [Res.ok_bind]
  by_cases h : Short x
  · rw [if_pos h, numDigits_eq]
    rw [short_len_iff] at h
    rw [ck_ok (by unfold IsInt INT_MIN INT_MAX; unfold maxLen at h; omega)]
  · rw [if_neg h]
    rw [short_len_iff] at h
    rw [ck_ub (by unfold IsInt INT_MIN INT_MAX; unfold maxLen at h; omega)]

theorem short_of_le {x y : ℤ} (h : Short y) (h0 : 0 ≤ x) (hxy : x ≤ |y|) : Short x := by
  unfold Short at *
  rw [abs_of_nonneg h0]
  exact lt_of_le_of_lt hxy h

theorem big_ge_short {x y : ℤ} (h : Short x) : Big.ge (enc x) (enc y) = BInt.ge (enc x) (enc y) := by
  rw [short_len_iff] at h
  unfold Big.ge BInt.ge
  rw [big_cmp (by omega)]

theorem big_lt_short {x y : ℤ} (h : Short x ∨ Short y) : Big.lt (enc x) (enc y) = BInt.lt (enc x) (enc y) := by
  rw [short_len_iff, short_len_iff] at h
  unfold Big.lt BInt.lt
  by_cases hl : (enc x).chunks.length = (enc y).chunks.length
  · rw [big_cmp (by omega)]
  · rw [big_cmp_len hl]

theorem big_le_short {x y : ℤ} (h : Short x ∨ Short y) : Big.le (enc x) (enc y) = BInt.le (enc x) (enc y) := by
  rw [short_len_iff, short_len_iff] at h
  unfold Big.le BInt.le
  by_cases hl : (enc x).chunks.length = (enc y).chunks.length
  · rw [big_cmp (by omega)]
  · rw [big_cmp_len hl]

theorem addFits_sub {z t : ℤ} (ht : 0 < t) (hz : t ≤ z) (hs : Short z) : AddFits z (-t) := by
  unfold AddFits
  unfold Short at hs
  right; right; right
  have h1 : z.sign = 1 := Int.sign_eq_one_of_pos (by omega)
  have h2 : (-t).sign = -1 := Int.sign_eq_neg_one_of_neg (by omega)
  refine ⟨by rw [h1, h2]; decide, ?_⟩
  rw [abs_neg, abs_of_pos ht, abs_of_pos (show 0 < z by omega), max_eq_left hz, min_eq_right hz]
  rw [abs_of_pos (show 0 < z by omega)] at hs
  refine ⟨by omega, ?_⟩
  rw [Int.emod_eq_of_lt (by omega) (lt_trans hs (by
    rw [pow_succ]
    have : (0:ℤ) < 10 ^ maxLen := by positivity
    omega))]
  exact hz

theorem sub_ok_any {mem : Mem} {k : ℕ} (hk : 2 ≤ k) {x y : ℤ} {r : BInt}
    (h : BInt.subAssign mem k (enc x) (enc y) = .ok r) : r = enc (x - y) := by
  obtain ⟨j, rfl⟩ : ∃ j, k = j + 2 := ⟨k - 2, by omega⟩
  by_cases hs : SubSafe mem x y
  · rw [subAssign_enc_aux mem j hs] at h
    injection h with h
    exact h.symm
  · cases mem with
    | lenient => exact absurd (Or.inl rfl) hs
    | strict =>
      rw [subAssign_strict_ub j hs] at h
      cases h

theorem big_sub_step {mem : Mem} {k : ℕ} (hk : 2 ≤ k) {z t : ℤ} (ht : 0 < t) (hz : t ≤ z) (hs : Short z) :
    Big.subAssign mem k (enc z) (enc t) = BInt.subAssign mem k (enc z) (enc t) := by
  classical
  have := big_sub mem hk z t
  rw [if_pos (addFits_sub ht hz hs)] at this
  exact this

theorem big_div_short (mem : Mem) {k : ℕ} (hk : 2 ≤ k) {x y : ℤ} (hy : y ≠ 0) (hsx : Short x) (hsy : Short y) :
    Big.div mem k (enc x) (enc y) = BInt.div mem k (enc x) (enc y) := by
  classical
  unfold Big.div BInt.div BInt.divAssign
  have hz : ((enc y).sign == 0) = false := by
    rw [beq_eq_false_iff_ne, Ne, enc_sign_eq_zero]; exact hy
  rw [hz, checkZero_false]
  simp only [Res.ok_bind, digits_enc, big_digits]
  rw [if_pos hsx, if_pos hsy]
  simp only [Res.ok_bind, numDigits_eq]
  by_cases hlen : (enc x).chunks.length < (enc y).chunks.length
  · have hl' : ((enc x).chunks.length : ℤ) < (enc y).chunks.length := by exact_mod_cast hlen
    rw [if_pos hl', if_pos hl']
  have hl' : ¬ ((enc x).chunks.length : ℤ) < (enc y).chunks.length := by exact_mod_cast hlen
  rw [if_neg hl', if_neg hl']
  have hyp : 0 < |y| := abs_pos.mpr hy
  have hx : x ≠ 0 := by
    rintro rfl
    apply hlen
    have := enc_length_pos hy
    simpa [enc_zero] using this
  rw [enc_with_sign_one hx]
  have hYc : (enc y).chunks = (enc |y|).chunks := by simp only [enc, Int.natAbs_abs]
  congr 1
  refine forDown_congr (fun i (s : BInt × List ℤ × List ℤ) => (∃ z, s.1 = enc z ∧ 0 ≤ z ∧ z ≤ |x|) ∧
    s.2.1 = List.replicate i 0 ++ (enc y).chunks) _ _ ⟨⟨|x|, rfl, abs_nonneg x, le_rfl⟩, rfl⟩ ?_
  rintro j ⟨s, tmp, r⟩ hj ⟨⟨z, hs, hz0, hzx⟩, htmp⟩
  simp only at hs htmp
  subst hs htmp
  simp only [List.replicate_succ, List.cons_append, BInt.eraseFront, Res.ok_bind]
  have ht : (⟨1, List.replicate j 0 ++ (enc y).chunks⟩ : BInt) = enc (|y| * 10 ^ j) := by
    rw [hYc]; exact enc_shift hyp j
  simp only [ht]
  have htp : 0 < |y| * 10 ^ j := by positivity
  have hin : ∀ (w : BInt × List ℤ), (∃ z, w.1 = enc z ∧ 0 ≤ z ∧ z ≤ |x|) →
      Big.ge w.1 (enc (|y| * 10 ^ j)) = BInt.ge w.1 (enc (|y| * 10 ^ j)) ∧
      (BInt.ge w.1 (enc (|y| * 10 ^ j)) = .ok true →
        (do
          let r ← vset w.2 j (← iadd (← vget w.2 j) 1)
          let x ← Big.subAssign mem k w.1 (enc (|y| * 10 ^ j))
          pure (x, r)) = (do
          let r ← vset w.2 j (← iadd (← vget w.2 j) 1)
          let x ← BInt.subAssign mem k w.1 (enc (|y| * 10 ^ j))
          pure (x, r)) ∧
        ∀ s' : BInt × List ℤ, (do
          let r ← vset w.2 j (← iadd (← vget w.2 j) 1)
          let x ← BInt.subAssign mem k w.1 (enc (|y| * 10 ^ j))
          pure (x, r)) = .ok s' → ∃ z, s'.1 = enc z ∧ 0 ≤ z ∧ z ≤ |x|) := by
    rintro ⟨w, r⟩ ⟨z, hw, h0, h1⟩
    simp only at hw
    subst hw
    have hsz := short_of_le hsx h0 h1
    refine ⟨big_ge_short hsz, ?_⟩
    simp only [ge_enc]
    intro hge
    have hge' : |y| * 10 ^ j ≤ z := by simpa using hge
    refine ⟨by rw [big_sub_step hk htp hge' hsz], ?_⟩
    intro s' h
    simp only [Res.bind_eq_ok] at h
    obtain ⟨_, -, _, -, _, -, w', h', h''⟩ := h
    injection h'' with h''
    rw [← h'', sub_ok_any hk h']
    exact ⟨z - |y| * 10 ^ j, rfl, by omega, by omega⟩
  refine ⟨?_, ?_⟩
  · rw [whileF_congr (fun w : BInt × List ℤ => ∃ z, w.1 = enc z ∧ 0 ≤ z ∧ z ≤ |x|) hin k _ ⟨z, rfl, hz0, hzx⟩]
  · intro s' h
    simp only [Res.bind_eq_ok] at h
    obtain ⟨w, h', h''⟩ := h
    injection h'' with h''
    have := whileF_ok_inv (fun w : BInt × List ℤ => ∃ z, w.1 = enc z ∧ 0 ≤ z ∧ z ≤ |x|)
      (fun s s' hs hc hb => (hin s hs).2 hc |>.2 s' hb) k _ _ ⟨z, rfl, hz0, hzx⟩ h'
    rw [← h'']
    exact ⟨this, rfl⟩

theorem big_div_long (mem : Mem) (k : ℕ) {x y : ℤ} (hy : y ≠ 0) (h : ¬ (Short x ∧ Short y)) :
    Big.div mem k (enc x) (enc y) = .ub .overflow := by
  classical
  unfold Big.div
  have hz : ((enc y).sign == 0) = false := by
    rw [beq_eq_false_iff_ne, Ne, enc_sign_eq_zero]; exact hy
  rw [hz, checkZero_false]
  simp only [Res.ok_bind, big_digits]
  by_cases hsx : Short x
  · have hsy : ¬ Short y := fun h' => h ⟨hsx, h'⟩
    rw [if_pos hsx, if_neg hsy]; rfl
  · rw [if_neg hsx]; rfl

theorem big_mod_short (mem : Mem) {k : ℕ} (hk : 2 ≤ k) {x y : ℤ} (hy : y ≠ 0) (hsx : Short x) (hsy : Short y) :
    Big.mod mem k (enc x) (enc y) = BInt.mod mem k (enc x) (enc y) := by
  classical
  unfold Big.mod BInt.mod BInt.modAssign
  have hz : ((enc y).sign == 0) = false := by
    rw [beq_eq_false_iff_ne, Ne, enc_sign_eq_zero]; exact hy
  rw [hz, checkZero_false]
  simp only [Res.ok_bind, digits_enc, big_digits]
  rw [if_pos hsx, if_pos hsy]
  simp only [Res.ok_bind, numDigits_eq]
  by_cases hlen : (enc x).chunks.length < (enc y).chunks.length
  · have hl' : ((enc x).chunks.length : ℤ) < (enc y).chunks.length := by exact_mod_cast hlen
    rw [if_pos hl', if_pos hl']
  have hl' : ¬ ((enc x).chunks.length : ℤ) < (enc y).chunks.length := by exact_mod_cast hlen
  rw [if_neg hl', if_neg hl']
  have hyp : 0 < |y| := abs_pos.mpr hy
  have hx : x ≠ 0 := by
    rintro rfl
    apply hlen
    have := enc_length_pos hy
    simpa [enc_zero] using this
  rw [enc_with_sign_one hx]
  have hYc : (enc y).chunks = (enc |y|).chunks := by simp only [enc, Int.natAbs_abs]
  congr 1
  unfold forRange
  rw [Nat.sub_zero]
  generalize (enc x).chunks.length - (enc y).chunks.length + 1 = size
  refine forUp_congr_inv (fun i (s : BInt × List ℤ) => (∃ z, s.1 = enc z ∧ 0 ≤ z ∧ z ≤ |x|) ∧
    s.2 = List.replicate (size - i) 0 ++ (enc y).chunks) _ _ _ ⟨⟨|x|, rfl, abs_nonneg x, le_rfl⟩, rfl⟩ ?_
  rintro j ⟨s, tmp⟩ _ hj ⟨⟨z, hs, hz0, hzx⟩, htmp⟩
  simp only at hs htmp
  subst hs htmp
  obtain ⟨m, hm⟩ : ∃ m, size - j = m + 1 := ⟨size - j - 1, by omega⟩
  rw [hm]
  simp only [List.replicate_succ, List.cons_append, BInt.eraseFront, Res.ok_bind]
  have ht : (⟨1, List.replicate m 0 ++ (enc y).chunks⟩ : BInt) = enc (|y| * 10 ^ m) := by
    rw [hYc]; exact enc_shift hyp m
  simp only [ht]
  have htp : 0 < |y| * 10 ^ m := by positivity
  have hin : ∀ (w : BInt), (∃ z, w = enc z ∧ 0 ≤ z ∧ z ≤ |x|) →
      Big.ge w (enc (|y| * 10 ^ m)) = BInt.ge w (enc (|y| * 10 ^ m)) ∧
      (BInt.ge w (enc (|y| * 10 ^ m)) = .ok true →
        Big.subAssign mem k w (enc (|y| * 10 ^ m)) = BInt.subAssign mem k w (enc (|y| * 10 ^ m)) ∧
        ∀ s', BInt.subAssign mem k w (enc (|y| * 10 ^ m)) = .ok s' → ∃ z, s' = enc z ∧ 0 ≤ z ∧ z ≤ |x|) := by
    rintro w ⟨z, rfl, h0, h1⟩
    have hsz := short_of_le hsx h0 h1
    refine ⟨big_ge_short hsz, ?_⟩
    simp only [ge_enc]
    intro hge
    have hge' : |y| * 10 ^ m ≤ z := by simpa using hge
    refine ⟨by rw [big_sub_step hk htp hge' hsz], ?_⟩
    intro s' h
    rw [sub_ok_any hk h]
    exact ⟨z - |y| * 10 ^ m, rfl, by omega, by omega⟩
  refine ⟨?_, ?_⟩
  · rw [whileF_congr (fun w : BInt => ∃ z, w = enc z ∧ 0 ≤ z ∧ z ≤ |x|) hin k _ ⟨z, rfl, hz0, hzx⟩]
  · intro s' h
    simp only [Res.bind_eq_ok] at h
    obtain ⟨w, h', h''⟩ := h
    injection h'' with h''
    have := whileF_ok_inv (fun w : BInt => ∃ z, w = enc z ∧ 0 ≤ z ∧ z ≤ |x|)
      (fun s s' hs hc hb => (hin s hs).2 hc |>.2 s' hb) k _ _ ⟨z, rfl, hz0, hzx⟩ h'
    rw [← h'']
    exact ⟨this, by simp only; rw [show size - (j + 1) = m by omega]⟩

theorem big_mod_long (mem : Mem) (k : ℕ) {x y : ℤ} (hy : y ≠ 0) (h : ¬ (Short x ∧ Short y)) :
    Big.mod mem k (enc x) (enc y) = .ub .overflow := by
  classical
  unfold Big.mod
  have hz : ((enc y).sign == 0) = false := by
    rw [beq_eq_false_iff_ne, Ne, enc_sign_eq_zero]; exact hy
  rw [hz, checkZero_false]
  simp only [Res.ok_bind, big_digits]
  by_cases hsx : Short x
  · have hsy : ¬ Short y := fun h' => h ⟨hsx, h'⟩
    rw [if_pos hsx, if_neg hsy]; rfl
  · rw [if_neg hsx]; rfl

end Pyincpp
