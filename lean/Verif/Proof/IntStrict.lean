import Verif.Proof.IntDiv

/-! # `/=` and `%=` when an access past the end is undefined -/

namespace Pyincpp

/-- Reading the quotient digit by digit from the top, position `i` of `|x| / |y|` is computed by subtracting `|y| * 10^i` as often as the digit says; the
last number it is subtracted from is `|x| % (|y| * 10^i) + |y| * 10^i`. All of them have more digits than `|y| * 10^i`. -/
def DivSafe (x y : ℤ) : Prop :=
  ∀ i : ℕ, |x| / (|y| * 10 ^ i) % 10 ≠ 0 → 10 ^ ((enc y).chunks.length + i) ≤ |x| % (|y| * 10 ^ i) + |y| * 10 ^ i

/-- Some position below `n` is not safe. -/
def UnsafeBelow (n : ℕ) (X Y : ℤ) : Prop :=
  ∃ i < n, X / (Y * 10 ^ i) % 10 ≠ 0 ∧ X % (Y * 10 ^ i) + Y * 10 ^ i < 10 ^ ((enc Y).chunks.length + i)

theorem step_safe {X t : ℤ} (ht : 0 < t) (h : t ≤ X) : SubSafe .strict X t ↔ 10 ^ (enc t).chunks.length ≤ X := by
  have hs : X.sign * t.sign = 1 := by rw [Int.sign_eq_one_of_pos ht, Int.sign_eq_one_of_pos (by omega)]; rfl
  have hl : (enc t).chunks.length ≤ (enc X).chunks.length := by
    by_contra hc
    have := enc_len_lt (x := X) (y := t) (by omega)
    rw [abs_of_pos ht, abs_of_pos (by omega)] at this
    omega
  have hi := enc_length_le_iff X (enc t).chunks.length
  rw [abs_of_pos (by omega)] at hi
  unfold SubSafe
  constructor
  · rintro (h | h | h)
    · cases h
    · exact absurd hs h
    · by_contra hc
      have := hi.2 (by omega)
      omega
  · intro h1
    refine .inr (.inr fun e => ?_)
    have := hi.1 (by omega)
    omega

theorem sub_strict {k : ℕ} {X t : ℤ} (ht : 0 < t) (h : t ≤ X) :
    BInt.subAssign .strict (k + 2) (enc X) (enc t) =
      if X < 10 ^ (enc t).chunks.length then .ub .outOfBounds else .ok (enc (X - t)) := by
  split
  · rename_i hc
    exact subAssign_strict_ub k (fun hs => by have := (step_safe ht h).1 hs; omega)
  · rename_i hc
    exact subAssign_enc_aux .strict k ((step_safe ht h).2 (by omega))

theorem div_pred {X t : ℤ} (ht : 0 < t) : (X - t) / t = X / t - 1 := by
  have := Int.add_mul_ediv_right X (-1) (c := t) (by omega)
  rw [show X - t = X + -1 * t by ring, this]
  ring

/-- The inner loop of `%=`. -/
theorem mod_inner_strict (k : ℕ) {t : ℤ} (ht : 0 < t) : ∀ (n : ℕ) (X : ℤ), 0 ≤ X → X / t < n →
    whileF (fun w => BInt.ge w (enc t)) (fun w => BInt.subAssign .strict (k + 2) w (enc t)) n (enc X) =
      if t ≤ X ∧ X % t + t < 10 ^ (enc t).chunks.length then .ub .outOfBounds else .ok (enc (X % t))
  | 0, X, hX, hn => absurd (Int.ediv_nonneg hX ht.le) (by push_cast at hn; omega)
  | n + 1, X, hX, hn => by
    unfold whileF
    rw [ge_enc]
    simp only [Res.ok_bind]
    by_cases h : t ≤ X
    · simp only [ge_iff_le, h, decide_true, if_true, true_and]
      rw [sub_strict ht h]
      have hm : (X - t) % t = X % t := Int.sub_emod_right X t
      have hle : X % t + t ≤ X := by
        have h1 := Int.mul_ediv_add_emod X t
        have h2 : 1 ≤ X / t := (Int.le_ediv_iff_mul_le ht).2 (by omega)
        nlinarith
      split
      · rename_i hc
        rw [if_pos (by omega)]
        rfl
      · rename_i hc
        simp only [Res.ok_bind]
        rw [mod_inner_strict k ht n (X - t) (by omega) (by rw [div_pred ht]; push_cast at hn; omega), hm]
        by_cases h2 : t ≤ X - t
        · simp only [h2, true_and]
        · have : X % t = X - t := by rw [← hm, Int.emod_eq_of_lt (by omega) (by omega)]
          rw [if_neg (by tauto), if_neg (by omega)]
    · simp only [ge_iff_le, h, decide_false, false_and, if_false, Bool.false_eq_true]
      rw [Int.emod_eq_of_lt hX (by omega)]
      rfl

/-- The inner loop of `/=`. -/
theorem div_inner_strict (k : ℕ) {t : ℤ} (ht : 0 < t) {r : List ℤ} {i : ℕ} (hi : i < r.length) : ∀ (n : ℕ) (X q : ℤ), 0 ≤ X → 0 ≤ q → q + X / t ≤ 10 → X / t < n →
    whileF (fun (w : BInt × List ℤ) => BInt.ge w.1 (enc t))
      (fun w => do
        let r ← vset w.2 i (← iadd (← vget w.2 i) 1)
        let x ← BInt.subAssign .strict (k + 2) w.1 (enc t)
        pure (x, r)) n (enc X, r.set i q) =
      if t ≤ X ∧ X % t + t < 10 ^ (enc t).chunks.length then .ub .outOfBounds else .ok (enc (X % t), r.set i (q + X / t))
  | 0, X, q, hX, hq, hb, hn => absurd (Int.ediv_nonneg hX ht.le) (by push_cast at hn; omega)
  | n + 1, X, q, hX, hq, hb, hn => by
    unfold whileF
    rw [ge_enc]
    simp only [Res.ok_bind]
    by_cases h : t ≤ X
    · simp only [ge_iff_le, h, decide_true, if_true, true_and]
      have h2 : 1 ≤ X / t := (Int.le_ediv_iff_mul_le ht).2 (by omega)
      rw [vget_ok (by simpa using hi), List.getElem_set_self]
      simp only [Res.ok_bind, iadd]
      rw [ck_ok (isInt_of_bound (by omega) (by omega))]
      simp only [Res.ok_bind]
      rw [vset_ok (by simpa using hi), List.set_set]
      simp only [Res.ok_bind]
      rw [sub_strict ht h]
      have hm : (X - t) % t = X % t := Int.sub_emod_right X t
      have hle : X % t + t ≤ X := by
        have h1 := Int.mul_ediv_add_emod X t
        nlinarith
      split
      · rename_i hc
        rw [if_pos (by omega)]
        rfl
      · rename_i hc
        simp only [Res.ok_bind, Res.pure_eq]
        have hd := div_pred (X := X) ht
        refine (div_inner_strict k ht hi n (X - t) (q + 1) (by omega) (by omega) (by rw [hd]; omega) (by rw [hd]; push_cast at hn; omega)).trans ?_
        rw [hm, hd, show q + 1 + (X / t - 1) = q + X / t by ring]
        by_cases h2 : t ≤ X - t
        · simp only [h2, true_and]
        · have : X % t = X - t := by rw [← hm, Int.emod_eq_of_lt (by omega) (by omega)]
          rw [if_neg (by tauto), if_neg (by omega)]
    · simp only [ge_iff_le, h, decide_false, false_and, if_false, Bool.false_eq_true]
      rw [Int.emod_eq_of_lt hX (by omega), Int.ediv_eq_zero_of_lt hX (by omega), add_zero]
      rfl

theorem enc_shift_length {Y : ℤ} (hY : 0 < Y) (n : ℕ) : (enc (Y * 10 ^ n)).chunks.length = (enc Y).chunks.length + n := by
  rw [← enc_shift hY]
  simp [Nat.add_comm]

/-- One position less. -/
theorem unsafeBelow_succ {n : ℕ} {X Y : ℤ} (hY : 0 < Y) (hX : 0 ≤ X) (hlt : X < Y * 10 ^ (n + 1)) :
    UnsafeBelow (n + 1) X Y ↔
      (Y * 10 ^ n ≤ X ∧ X % (Y * 10 ^ n) + Y * 10 ^ n < 10 ^ (enc (Y * 10 ^ n)).chunks.length) ∨ UnsafeBelow n (X % (Y * 10 ^ n)) Y := by
  have ht : 0 < Y * 10 ^ n := by positivity
  rw [enc_shift_length hY]
  have low : ∀ i < n, X % (Y * 10 ^ n) % (Y * 10 ^ i) = X % (Y * 10 ^ i) ∧
      X % (Y * 10 ^ n) / (Y * 10 ^ i) % 10 = X / (Y * 10 ^ i) % 10 := by
    intro i hi
    have hti : 0 < Y * 10 ^ i := by positivity
    obtain ⟨m, rfl⟩ : ∃ m, n = i + 1 + m := ⟨n - i - 1, by omega⟩
    have hd : Y * 10 ^ (i + 1 + m) = Y * 10 ^ i * (10 * 10 ^ m) := by ring
    refine ⟨Int.emod_emod_of_dvd _ ⟨_, hd⟩, ?_⟩
    have h1 := Int.mul_ediv_add_emod X (Y * 10 ^ (i + 1 + m))
    generalize X / (Y * 10 ^ (i + 1 + m)) = q at h1
    generalize X % (Y * 10 ^ (i + 1 + m)) = r at h1
    have : X = r + (q * (10 * 10 ^ m)) * (Y * 10 ^ i) := by rw [← h1, hd]; ring
    rw [this, Int.add_mul_ediv_right _ _ (by omega), show q * (10 * 10 ^ m) = (q * 10 ^ m) * 10 by ring, Int.add_mul_emod_self_right]
  have top : X / (Y * 10 ^ n) % 10 ≠ 0 ↔ Y * 10 ^ n ≤ X := by
    have h0 : 0 ≤ X / (Y * 10 ^ n) := Int.ediv_nonneg hX ht.le
    have h10 : X / (Y * 10 ^ n) < 10 := Int.ediv_lt_of_lt_mul ht (by rw [pow_succ] at hlt; linarith)
    rw [Int.emod_eq_of_lt h0 h10, ← Int.one_mul (Y * 10 ^ n), ← Int.le_ediv_iff_mul_le ht, Int.one_mul]
    omega
  constructor
  · rintro ⟨i, hi, h1, h2⟩
    rcases Nat.lt_or_ge i n with h | h
    · exact .inr ⟨i, h, by rw [(low i h).2]; exact h1, by rw [(low i h).1]; exact h2⟩
    · obtain rfl : i = n := by omega
      exact .inl ⟨top.1 h1, h2⟩
  · rintro (⟨h1, h2⟩ | ⟨i, h, h1, h2⟩)
    · exact ⟨n, by omega, top.2 h1, h2⟩
    · exact ⟨i, by omega, by rw [← (low i h).2]; exact h1, by rw [← (low i h).1]; exact h2⟩

open Classical in
theorem mod_outer_strict (k : ℕ) (hk : 9 ≤ k) {Y : ℤ} (hY : 0 < Y) : ∀ (n i₀ : ℕ) (X : ℤ), 0 ≤ X → X < Y * 10 ^ n →
    forUp (fun _ (s : BInt × List ℤ) => do
        let tmp ← BInt.eraseFront s.2
        let t : BInt := { sign := 1, chunks := tmp }
        let x ← whileF (fun w => BInt.ge w t) (fun w => BInt.subAssign .strict (k + 2) w t) (k + 2) s.1
        pure (x, tmp)) i₀ n (enc X, List.replicate n 0 ++ (enc Y).chunks) =
      if UnsafeBelow n X Y then .ub .outOfBounds else .ok (enc (X % Y), (enc Y).chunks)
  | 0, i₀, X, hX, hlt => by
    rw [if_neg (by rintro ⟨i, hi, -⟩; omega), Int.emod_eq_of_lt hX (by simpa using hlt)]
    rfl
  | n + 1, i₀, X, hX, hlt => by
    have ht : 0 < Y * 10 ^ n := by positivity
    unfold forUp
    simp only [List.replicate_succ, List.cons_append, BInt.eraseFront, Res.ok_bind]
    rw [enc_shift hY, mod_inner_strict k ht (k + 2) X hX (lt_of_lt_of_le (Int.ediv_lt_of_lt_mul (b := 10) ht (by rw [pow_succ] at hlt; linarith)) (by push_cast; omega))]
    have hu := unsafeBelow_succ hY hX hlt
    split
    · rename_i h
      rw [if_pos (hu.2 (.inl h))]
      rfl
    · rename_i h
      simp only [Res.ok_bind, Res.pure_eq]
      refine (mod_outer_strict k hk hY n (i₀ + 1) _ (Int.emod_nonneg _ (by omega)) (Int.emod_lt_of_pos _ ht)).trans ?_
      rw [Int.emod_emod_of_dvd _ (Dvd.intro _ rfl)]
      simp only [hu, h, false_or]

/-- The body of the outer loop of `/=`. -/
def divBody (mem : Mem) (k : ℕ) (i : ℕ) (s : BInt × List ℤ × List ℤ) : Res (BInt × List ℤ × List ℤ) := do
  let tmp ← BInt.eraseFront s.2.1
  let t : BInt := { sign := 1, chunks := tmp }
  let (x, r) ← whileF (fun (w : BInt × List ℤ) => BInt.ge w.1 t)
    (fun w => do
      let r ← vset w.2 i (← iadd (← vget w.2 i) 1)
      let x ← BInt.subAssign mem k w.1 t
      pure (x, r)) k (s.1, s.2.2)
  pure (x, tmp, r)

theorem divBody_step (k : ℕ) (hk : 9 ≤ k) {Y : ℤ} (hY : 0 < Y) {n : ℕ} {X : ℤ} {r : List ℤ} (hX : 0 ≤ X) (hlt : X < Y * 10 ^ (n + 1)) (hn : n < r.length)
    (hr : r[n] = 0) :
    divBody .strict (k + 2) n (enc X, List.replicate (n + 1) 0 ++ (enc Y).chunks, r) =
      (if Y * 10 ^ n ≤ X ∧ X % (Y * 10 ^ n) + Y * 10 ^ n < 10 ^ (enc (Y * 10 ^ n)).chunks.length then .ub .outOfBounds
        else .ok (enc (X % (Y * 10 ^ n)), List.replicate n 0 ++ (enc Y).chunks, r.set n (X / (Y * 10 ^ n)))) ∧
    divBody .lenient (k + 2) n (enc X, List.replicate (n + 1) 0 ++ (enc Y).chunks, r) =
      .ok (enc (X % (Y * 10 ^ n)), List.replicate n 0 ++ (enc Y).chunks, r.set n (X / (Y * 10 ^ n))) := by
  have ht : 0 < Y * 10 ^ n := by positivity
  have hlt' : X < Y * 10 ^ n * 10 := by rw [pow_succ] at hlt; linarith
  have hq : X / (Y * 10 ^ n) < 10 := Int.ediv_lt_of_lt_mul (b := 10) ht (by linarith)
  have h1 := div_inner_strict k ht (r := r) (i := n) (by omega) (k + 2) X 0 hX le_rfl (by omega) (lt_of_lt_of_le hq (by push_cast; omega))
  rw [show r.set n 0 = r by rw [← hr]; simp] at h1
  unfold divBody
  simp only [List.replicate_succ, List.cons_append, BInt.eraseFront, Res.ok_bind]
  rw [enc_shift hY, h1, div_inner (by omega) ht hX hlt' hn hr]
  refine ⟨?_, rfl⟩
  rw [zero_add]
  split <;> rfl

open Classical in
theorem div_outer_strict (k : ℕ) (hk : 9 ≤ k) {Y : ℤ} (hY : 0 < Y) (n : ℕ) : ∀ (X : ℤ) (r : List ℤ), 0 ≤ X → X < Y * 10 ^ n → n ≤ r.length →
    (∀ (j : ℕ) (h : j < r.length), j < n → r[j] = 0) →
    forDown (divBody .strict (k + 2)) n (enc X, List.replicate n 0 ++ (enc Y).chunks, r) =
      if UnsafeBelow n X Y then .ub .outOfBounds else forDown (divBody .lenient (k + 2)) n (enc X, List.replicate n 0 ++ (enc Y).chunks, r) := by
  induction n with
  | zero =>
    intro X r hX hlt hn hr
    have : ¬ UnsafeBelow 0 X Y := by rintro ⟨i, hi, -⟩; omega
    simp only [this, if_false, forDown]
  | succ n ih =>
    intro X r hX hlt hn hr
    have ht : 0 < Y * 10 ^ n := by positivity
    obtain ⟨h1, h2⟩ := divBody_step k hk hY hX hlt (by omega) (hr n (by omega) (by omega))
    rw [forDown, forDown, h1, h2]
    have hu := unsafeBelow_succ hY hX hlt
    split
    · rename_i h
      rw [if_pos (hu.2 (.inl h))]
      rfl
    · rename_i h
      simp only [Res.ok_bind]
      rw [ih _ _ (Int.emod_nonneg _ (by omega)) (Int.emod_lt_of_pos _ ht) (by simp; omega)]
      · simp only [hu, h, false_or]
      · intro j hj hjn
        rw [List.getElem_set_ne (by omega)]
        exact hr j (by simpa using hj) (by omega)

theorem not_divSafe {x y : ℤ} (hy : y ≠ 0) (hlen : (enc y).chunks.length ≤ (enc x).chunks.length) :
    ¬ DivSafe x y ↔ UnsafeBelow ((enc x).chunks.length - (enc y).chunks.length + 1) |x| |y| := by
  unfold DivSafe UnsafeBelow
  rw [← enc_chunks_pos]
  push Not
  constructor
  · rintro ⟨i, h1, h2⟩
    refine ⟨i, ?_, h1, h2⟩
    by_contra hc
    have hb := size_bound hy hlen
    have : |x| < |y| * 10 ^ i := lt_of_lt_of_le hb (mul_le_mul_of_nonneg_left (pow_le_pow_right₀ (by norm_num) (by omega)) (abs_nonneg _))
    rw [Int.ediv_eq_zero_of_lt (abs_nonneg _) this] at h1
    exact h1 rfl
  · rintro ⟨i, -, h1, h2⟩
    exact ⟨i, h1, h2⟩

theorem divSafe_short {x y : ℤ} (h : (enc x).chunks.length < (enc y).chunks.length) : DivSafe x y := by
  intro i h1
  have h2 := enc_len_lt h
  have : |x| < |y| * 10 ^ i := lt_of_lt_of_le h2 (le_mul_of_one_le_right (abs_nonneg _) (one_le_pow₀ (by norm_num)))
  rw [Int.ediv_eq_zero_of_lt (abs_nonneg _) this] at h1
  exact absurd rfl h1

open Classical in
theorem mod_strict {k : ℕ} (hk : 11 ≤ k) (x : ℤ) {y : ℤ} (hy : y ≠ 0) :
    BInt.mod .strict k (enc x) (enc y) = if DivSafe x y then .ok (enc (codeMod x y)) else .ub .outOfBounds := by
  obtain ⟨k, rfl⟩ : ∃ j, k = j + 2 := ⟨k - 2, by omega⟩
  unfold BInt.mod BInt.modAssign codeMod
  have hz : ((enc y).sign == 0) = false := by
    rw [beq_eq_false_iff_ne, Ne, enc_sign_eq_zero]; exact hy
  rw [hz, checkZero_false]
  simp only [Res.ok_bind, digits_enc]
  by_cases hlen : (enc x).chunks.length < (enc y).chunks.length
  · rw [if_pos (by exact_mod_cast hlen), if_pos hlen, if_pos (divSafe_short hlen)]
    rfl
  · rw [if_neg (by exact_mod_cast hlen), if_neg hlen]
    have hx : x ≠ 0 := by
      rintro rfl
      apply hlen
      have := enc_length_pos hy
      simpa [enc_zero] using this
    have hyp : 0 < |y| := abs_pos.mpr hy
    have hm := mod_outer_strict k (by omega) hyp ((enc x).chunks.length - (enc y).chunks.length + 1) 0 |x| (abs_nonneg x) (size_bound hy (by omega))
    rw [← enc_chunks_pos (z := y)] at hm
    rw [enc_with_sign_one hx]
    unfold forRange
    rw [Nat.sub_zero, hm]
    have hn := not_divSafe hy (x := x) (by omega)
    by_cases hs : DivSafe x y
    · rw [if_pos hs, if_neg (by tauto)]
      simp only [Res.ok_bind, Res.pure_eq]
      rw [trim_enc_nonneg (Int.emod_nonneg _ (by omega))]
    · rw [if_neg hs, if_pos (hn.1 hs)]
      rfl

open Classical in
theorem div_strict {k : ℕ} (hk : 11 ≤ k) (x : ℤ) {y : ℤ} (hy : y ≠ 0) :
    BInt.div .strict k (enc x) (enc y) = if DivSafe x y then .ok (enc (x.tdiv y)) else .ub .outOfBounds := by
  rw [← div_enc hk x hy]
  obtain ⟨k, rfl⟩ : ∃ j, k = j + 2 := ⟨k - 2, by omega⟩
  unfold BInt.div BInt.divAssign
  have hz : ((enc y).sign == 0) = false := by
    rw [beq_eq_false_iff_ne, Ne, enc_sign_eq_zero]; exact hy
  rw [hz, checkZero_false]
  simp only [Res.ok_bind, digits_enc]
  by_cases hlen : (enc x).chunks.length < (enc y).chunks.length
  · rw [if_pos (by exact_mod_cast hlen), if_pos (divSafe_short hlen), if_pos (by exact_mod_cast hlen)]
  · have hl : ¬ ((enc x).chunks.length : ℤ) < (enc y).chunks.length := by exact_mod_cast hlen
    rw [if_neg hl, if_neg hl]
    have hx : x ≠ 0 := by
      rintro rfl
      apply hlen
      have := enc_length_pos hy
      simpa [enc_zero] using this
    have hyp : 0 < |y| := abs_pos.mpr hy
    have hm := div_outer_strict k (by omega) hyp ((enc x).chunks.length - (enc y).chunks.length + 1) |x|
      (List.replicate ((enc x).chunks.length - (enc y).chunks.length + 1) 0) (abs_nonneg x) (size_bound hy (by omega)) (by simp) (by simp)
    rw [← enc_chunks_pos (z := y)] at hm
    rw [enc_with_sign_one hx]
    change (forDown (divBody .strict (k + 2)) _ _ >>= _) = ite (DivSafe x y) (forDown (divBody .lenient (k + 2)) _ _ >>= _) _
    rw [hm]
    have hn := not_divSafe hy (x := x) (by omega)
    by_cases hs : DivSafe x y
    · rw [if_pos hs, if_neg (by tauto)]
    · rw [if_neg hs, if_pos (hn.1 hs)]
      rfl

end Pyincpp
