import Verif.Proof.IntAnyRoot

/-! # Counting with `int`: powers -/

namespace Pyincpp

theorem big_isUnit {b : ℤ} (h : Short b) : Big.isUnit (enc b) = .ok (decide (|b| = 1)) := by
  classical
  rw [← pow_unit]
  unfold Big.isUnit BInt.isUnit
  rw [big_digits, if_pos h, digits_enc, numDigits_eq]

theorem big_pow_base (k : ℕ) {b e m : ℤ} (h : ¬ Short b) :
    Big.pow .lenient k (enc b) (enc e) (enc m) = .ub .overflow := by
  classical
  unfold Big.pow Big.isUnit
  rw [big_digits, if_neg h]
  rfl

def powBody (k : ℕ) (m : ℤ) : BInt × BInt × BInt → Res (BInt × BInt × BInt) := fun s => do
  let (num, n, r) := s
  let r ← if ← BInt.isOdd n then
      (if BInt.isZero (enc m) then BInt.mul r num else do BInt.mod .lenient k (← BInt.mul r num) (enc m)) else pure r
  let num ← if BInt.isZero (enc m) then BInt.mul num num else do BInt.mod .lenient k (← BInt.mul num num) (enc m)
  let n ← BInt.divAssign .lenient k n (← BInt.ofInt 2)
  pure (num, n, r)

def bigPowBody (k : ℕ) (m : ℤ) : BInt × BInt × BInt → Res (BInt × BInt × BInt) := fun s => do
  let (num, n, r) := s
  let r ← if ← BInt.isOdd n then
      (if BInt.isZero (enc m) then Big.mul r num else do Big.mod .lenient k (← Big.mul r num) (enc m)) else pure r
  let num ← if BInt.isZero (enc m) then Big.mul num num else do Big.mod .lenient k (← Big.mul num num) (enc m)
  let n ← Big.div .lenient k n (← BInt.ofInt 2)
  pure (num, n, r)

def powCond : BInt × BInt × BInt → Res Bool := fun s => .ok (!(BInt.isZero s.2.1))

theorem big_pow_shape {k : ℕ} {b e m : ℤ} (h : Short b) :
    Big.pow .lenient k (enc b) (enc e) (enc m) =
      if |b| = 1 then .ok (enc (if b = -1 ∧ e % 2 = 1 then -1 else 1))
      else if e < 0 then (if b = 0 then .throw "Error: Math domain error." else .ok (enc 0))
      else (do
        let s ← whileF powCond (bigPowBody k m) k (enc b, enc e, enc 1)
        pure s.2.2) := by
  by_cases h1 : |b| = 1
  · have e0 : BInt.pow .lenient k (enc b) (enc e) (enc m) = Big.pow .lenient k (enc b) (enc e) (enc m) := by
      unfold Big.pow BInt.pow
      rw [big_isUnit h, pow_unit b]
      simp only [Res.ok_bind, h1, decide_true, if_true]
    rw [if_pos h1, ← e0, pow_shape, if_pos h1]
  · rw [if_neg h1]
    by_cases h2 : e < 0
    · have e0 : BInt.pow .lenient k (enc b) (enc e) (enc m) = Big.pow .lenient k (enc b) (enc e) (enc m) := by
        unfold Big.pow BInt.pow
        rw [big_isUnit h, pow_unit b, isNegative_enc]
        simp only [Res.ok_bind, h1, h2, decide_true, decide_false, Bool.false_eq_true, if_true, if_false]
      rw [if_pos h2, ← e0, pow_shape, if_neg h1, if_pos h2]
    · rw [if_neg h2]
      unfold Big.pow
      rw [big_isUnit h, isNegative_enc, ofInt_small (n := 1) (by norm_num) (by norm_num)]
      simp only [Res.ok_bind, h1, h2, decide_false, Bool.false_eq_true, if_false]
      rfl

theorem powKeep_mod {m : ℤ} (hm : m ≠ 0) (x : ℤ) : powKeep m x = codeMod x m := by
  unfold powKeep codeMod
  rw [numDigits_eq, numDigits_eq]
  by_cases h : (enc x).chunks.length < (enc m).chunks.length
  · rw [if_pos (Or.inr h), if_pos h]
  · rw [if_neg (not_or.2 ⟨hm, h⟩), if_neg h]

theorem powKeep_zero (x : ℤ) : powKeep 0 x = x := if_pos (Or.inl rfl)

theorem powFits_zero (m num r : ℤ) : PowFits m num r 0 := by rw [PowFits]; simp

theorem powFits_pos (m num r : ℤ) {n : ℕ} (h : n ≠ 0) : PowFits m num r n ↔
    Short (n : ℤ) ∧ (n % 2 = 1 → MulFits m r num) ∧ MulFits m num num ∧
    PowFits m (powKeep m (num * num)) (if n % 2 = 1 then powKeep m (r * num) else r) (n / 2) := by
  rw [PowFits]; simp [h]

def mulRed (k : ℕ) (m : ℤ) (x y : BInt) : Res BInt :=
  if BInt.isZero (enc m) then BInt.mul x y else do BInt.mod .lenient k (← BInt.mul x y) (enc m)

def bigMulRed (k : ℕ) (m : ℤ) (x y : BInt) : Res BInt :=
  if BInt.isZero (enc m) then Big.mul x y else do Big.mod .lenient k (← Big.mul x y) (enc m)

theorem powBody_eq (k : ℕ) (m : ℤ) (num n r : BInt) : powBody k m (num, n, r) =
    (BInt.isOdd n >>= fun o => (if o then mulRed k m r num else pure r) >>= fun r =>
      mulRed k m num num >>= fun num => BInt.ofInt 2 >>= fun two => BInt.divAssign .lenient k n two >>= fun n =>
      pure (num, n, r)) := by
  unfold powBody mulRed
  dsimp only
  congr 1
  funext o
  cases o <;> by_cases hm : BInt.isZero (enc m) = true <;>
    simp only [hm, if_true, if_false, Bool.false_eq_true, Res.pure_eq, Res.ok_bind, bind_assoc]

theorem bigPowBody_eq (k : ℕ) (m : ℤ) (num n r : BInt) : bigPowBody k m (num, n, r) =
    (BInt.isOdd n >>= fun o => (if o then bigMulRed k m r num else pure r) >>= fun r =>
      bigMulRed k m num num >>= fun num => BInt.ofInt 2 >>= fun two => Big.div .lenient k n two >>= fun n =>
      pure (num, n, r)) := by
  unfold bigPowBody bigMulRed
  dsimp only
  congr 1
  funext o
  cases o <;> by_cases hm : BInt.isZero (enc m) = true <;>
    simp only [hm, if_true, if_false, Bool.false_eq_true, Res.pure_eq, Res.ok_bind, bind_assoc]

theorem mul_red {k : ℕ} (hk : 11 ≤ k) (m x y : ℤ) :
    mulRed k m (enc x) (enc y) = .ok (enc (powKeep m (x * y))) := by
  unfold mulRed
  rw [isZero_enc]
  by_cases hm : m = 0
  · simp only [hm, decide_true, if_true, mul_enc, powKeep_zero]
  · simp only [hm, decide_false, Bool.false_eq_true, if_false, mul_enc, Res.ok_bind, mod_enc hk _ hm, powKeep_mod hm]

open Classical in
theorem big_mul_red {k : ℕ} (hk : 11 ≤ k) (m x y : ℤ) :
    bigMulRed k m (enc x) (enc y) = if MulFits m x y then .ok (enc (powKeep m (x * y))) else .ub .overflow := by
  unfold MulFits bigMulRed
  rw [isZero_enc]
  by_cases hm : m = 0
  · simp only [hm, decide_true, if_true, powKeep_zero]
    rw [big_mul, mul_enc]
  · simp only [hm, decide_false, Bool.false_eq_true, if_false, powKeep_mod hm]
    by_cases hs : Short (x * y)
    · rw [big_mul_short hs, mul_enc]
      simp only [Res.ok_bind]
      by_cases hsm : Short m
      · rw [if_pos ⟨hs, hsm⟩, big_mod_short .lenient (by omega) hm hs hsm, mod_enc hk _ hm]
      · rw [if_neg (by tauto), big_mod_long .lenient _ hm (by tauto)]
    · rw [if_neg (by tauto), big_mul]
      split
      · rw [mul_enc]
        simp only [Res.ok_bind]
        rw [big_mod_long .lenient _ hm (by tauto)]
      · rfl

theorem powBody_enc {k : ℕ} (hk : 11 ≤ k) (m num r : ℤ) (n : ℕ) :
    powBody k m (enc num, enc n, enc r) = .ok (enc (powKeep m (num * num)), enc ((n / 2 : ℕ) : ℤ),
      enc (if n % 2 = 1 then powKeep m (r * num) else r)) := by
  rw [powBody_eq, isOdd_enc, mul_red hk, mul_red hk, ofInt_small (by norm_num) (by norm_num)]
  simp only [Res.ok_bind]
  rw [divAssign_two hk]
  by_cases ho : n % 2 = 1
  · have ho' : (n : ℤ) % 2 = 1 := by omega
    simp only [ho, ho', decide_true, if_true, Res.ok_bind, Res.pure_eq]
  · have ho' : ¬ (n : ℤ) % 2 = 1 := by omega
    simp only [ho, ho', decide_false, Bool.false_eq_true, if_false, Res.ok_bind, Res.pure_eq]

theorem big_half {k : ℕ} (hk : 11 ≤ k) (n : ℕ) (hs : Short (n : ℤ)) :
    Big.div .lenient k (enc (n : ℤ)) (enc 2) = .ok (enc ((n / 2 : ℕ) : ℤ)) := by
  rw [big_div_short .lenient (by omega) (by norm_num) hs (short_small (by norm_num)), div_enc hk _ (by norm_num),
    Int.tdiv_eq_ediv_of_nonneg (by omega), Int.natCast_ediv, Nat.cast_two]

theorem bigPowBody_ok {k : ℕ} (hk : 11 ≤ k) (m num r : ℤ) (n : ℕ)
    (h : Short (n : ℤ) ∧ (n % 2 = 1 → MulFits m r num) ∧ MulFits m num num) :
    bigPowBody k m (enc num, enc n, enc r) = powBody k m (enc num, enc n, enc r) := by
  classical
  rw [powBody_enc hk, bigPowBody_eq, isOdd_enc, big_mul_red hk, big_mul_red hk, if_pos h.2.2,
    ofInt_small (by norm_num) (by norm_num)]
  simp only [Res.ok_bind]
  rw [big_half hk n h.1]
  by_cases ho : n % 2 = 1
  · have ho' : (n : ℤ) % 2 = 1 := by omega
    simp only [ho, ho', h.2.1 ho, decide_true, if_true, Res.ok_bind, Res.pure_eq]
  · have ho' : ¬ (n : ℤ) % 2 = 1 := by omega
    simp only [ho, ho', decide_false, Bool.false_eq_true, if_false, Res.ok_bind, Res.pure_eq]

theorem bigPowBody_ub {k : ℕ} (hk : 11 ≤ k) (m num r : ℤ) (n : ℕ)
    (h : ¬ (Short (n : ℤ) ∧ (n % 2 = 1 → MulFits m r num) ∧ MulFits m num num)) :
    bigPowBody k m (enc num, enc n, enc r) = .ub .overflow := by
  classical
  rw [bigPowBody_eq, isOdd_enc, big_mul_red hk, big_mul_red hk, ofInt_small (by norm_num) (by norm_num)]
  simp only [Res.ok_bind]
  have tail : ∀ r' : BInt, ((if MulFits m num num then Res.ok (enc (powKeep m (num * num))) else .ub .overflow) >>= fun num =>
      Big.div .lenient k (enc (n : ℤ)) (enc 2) >>= fun n => pure (num, n, r')) = .ub .overflow ∨
      (Short (n : ℤ) ∧ MulFits m num num) := by
    intro r'
    by_cases hm : MulFits m num num
    · by_cases hs : Short (n : ℤ)
      · exact Or.inr ⟨hs, hm⟩
      · left
        rw [if_pos hm, big_div_long .lenient _ (by norm_num) (fun h => hs h.1)]
        simp only [Res.ok_bind, Res.ub_bind]
    · left
      rw [if_neg hm]
      simp only [Res.ub_bind]
  by_cases ho : n % 2 = 1
  · have ho' : (n : ℤ) % 2 = 1 := by omega
    simp only [ho', decide_true, if_true]
    by_cases hf : MulFits m r num
    · rw [if_pos hf]
      simp only [Res.ok_bind]
      exact (tail _).resolve_right (fun q => h ⟨q.1, fun _ => hf, q.2⟩)
    · rw [if_neg hf]
      simp only [Res.ub_bind]
  · have ho' : ¬ (n : ℤ) % 2 = 1 := by omega
    simp only [ho', decide_false, Bool.false_eq_true, if_false, Res.pure_eq, Res.ok_bind]
    exact (tail _).resolve_right (fun q => h ⟨q.1, fun h => absurd h ho, q.2⟩)

open Classical in
theorem big_pow_loop {k : ℕ} (hk : 11 ≤ k) (m : ℤ) : ∀ (j n : ℕ) (num r : ℤ), Nat.size n < j →
    whileF powCond (bigPowBody k m) j (enc num, enc n, enc r) =
      if PowFits m num r n then whileF powCond (powBody k m) j (enc num, enc n, enc r) else .ub .overflow
  | 0, _, _, _, h => by omega
  | j + 1, n, num, r, hj => by
    rw [whileF, whileF]
    have hc : powCond (enc num, enc (n : ℤ), enc r) = .ok (!decide ((n : ℤ) = 0)) := by
      unfold powCond
      dsimp only
      rw [isZero_enc]
    rw [hc]
    by_cases hn : n = 0
    · subst hn
      rw [if_pos (powFits_zero m num r)]
      simp only [Nat.cast_zero, decide_true, Bool.not_true, Res.ok_bind, Bool.false_eq_true, if_false]
    · have hz : (!decide ((n : ℤ) = 0)) = true := by simpa using hn
      rw [hz]
      simp only [Res.ok_bind, if_true]
      have hlt := size_half hn
      by_cases hb : Short (n : ℤ) ∧ (n % 2 = 1 → MulFits m r num) ∧ MulFits m num num
      · rw [bigPowBody_ok hk _ _ _ _ hb, powBody_enc hk]
        simp only [Res.ok_bind]
        rw [big_pow_loop hk m j (n / 2) _ _ (by omega)]
        have hiff := powFits_pos m num r hn
        by_cases hp : PowFits m (powKeep m (num * num)) (if n % 2 = 1 then powKeep m (r * num) else r) (n / 2)
        · rw [if_pos hp, if_pos (hiff.2 ⟨hb.1, hb.2.1, hb.2.2, hp⟩)]
        · rw [if_neg hp, if_neg (fun h => hp (hiff.1 h).2.2.2)]
      · rw [bigPowBody_ub hk _ _ _ _ hb, if_neg (fun h => hb (let q := (powFits_pos m num r hn).1 h; ⟨q.1, q.2.1, q.2.2.1⟩))]
        simp only [Res.ub_bind]

open Classical in
theorem big_pow {k : ℕ} (hk : 11 ≤ k) {b m : ℤ} {e : ℕ} (hr : Nat.size e < k) (hs : Short b) (h1 : |b| ≠ 1) :
    Big.pow .lenient k (enc b) (enc e) (enc m) =
      if PowFits m b 1 e then BInt.pow .lenient k (enc b) (enc e) (enc m) else .ub .overflow := by
  have he : ¬ (e : ℤ) < 0 := by omega
  rw [big_pow_shape hs, pow_shape, if_neg h1, if_neg h1, if_neg he, if_neg he]
  have := big_pow_loop hk m k e b 1 hr
  rw [this]
  split
  · rfl
  · simp only [Res.ub_bind]

theorem big_pow_unit (k : ℕ) {b e m : ℤ} (hs : Short b) (h : |b| = 1 ∨ e < 0) :
    Big.pow .lenient k (enc b) (enc e) (enc m) = BInt.pow .lenient k (enc b) (enc e) (enc m) := by
  rw [big_pow_shape hs, pow_shape]
  by_cases h1 : |b| = 1
  · rw [if_pos h1, if_pos h1]
  · rw [if_neg h1, if_neg h1, if_pos (h.resolve_left h1), if_pos (h.resolve_left h1)]

theorem mulFits_zero (x y : ℤ) : MulFits 0 x y ↔ (x = 0 ∨ y = 0 ∨ numDigits x + numDigits y ≤ maxLen + 1) := by
  unfold MulFits; rw [if_pos rfl]

/-- Without a modulus: the last square must fit, and then everything before it does. -/
theorem powFits_plain : ∀ (n : ℕ), n ≠ 0 → ∀ num r : ℤ, 2 ≤ |num| → |r| ≤ |num| →
    (PowFits 0 num r n ↔ 2 * numDigits (num ^ 2 ^ Nat.log 2 n) ≤ maxLen + 1) := by
  intro n
  induction n using Nat.strong_induction_on with
  | _ n ih =>
    intro hn num r h2 hr
    have hnum : num ≠ 0 := by rintro rfl; simp at h2
    have hsq : MulFits 0 num num ↔ 2 * numDigits num ≤ maxLen + 1 := by
      rw [mulFits_zero]
      constructor
      · rintro (h | h | h)
        · exact absurd h hnum
        · exact absurd h hnum
        · omega
      · intro h; right; right; omega
    have hrn : 2 * numDigits num ≤ maxLen + 1 → MulFits 0 r num := by
      intro h
      rw [mulFits_zero]
      have := numDigits_mono hr
      right; right; omega
    rw [powFits_pos _ _ _ hn]
    by_cases h1 : n = 1
    · subst h1
      simp only [Nat.log_one_right, pow_zero, pow_one]
      constructor
      · intro h; exact hsq.1 h.2.2.1
      · intro h
        exact ⟨short_small (by norm_num), fun _ => hrn h, hsq.2 h, powFits_zero _ _ _⟩
    · have hlog : Nat.log 2 n = Nat.log 2 (n / 2) + 1 := Nat.log_of_one_lt_of_le (by norm_num) (by omega)
      have hp : powKeep 0 (num * num) = num * num := powKeep_zero _
      have hq : powKeep 0 (r * num) = r * num := powKeep_zero _
      have habs : |num * num| = |num| * |num| := abs_mul _ _
      have h4 : 2 ≤ |num * num| := by rw [habs]; nlinarith
      have h5 : |if n % 2 = 1 then powKeep 0 (r * num) else r| ≤ |num * num| := by
        rw [habs]
        split
        · rw [hq, abs_mul]
          exact mul_le_mul_of_nonneg_right hr (abs_nonneg _)
        · nlinarith
      have ih' := ih (n / 2) (by omega) (by omega) (num * num) _ h4 h5
      have e1 : (num * num) ^ 2 ^ Nat.log 2 (n / 2) = num ^ 2 ^ Nat.log 2 n := by
        rw [hlog, ← pow_two, ← pow_mul, pow_succ, mul_comm]
      rw [hp, ih', e1]
      constructor
      · intro h; exact h.2.2.2
      · intro h
        have hmono : numDigits num ≤ numDigits (num ^ 2 ^ Nat.log 2 n) := by
          apply numDigits_mono
          rw [abs_pow]
          exact le_self_pow₀ (by omega) (by positivity)
        have hfit : 2 * numDigits num ≤ maxLen + 1 := by omega
        refine ⟨?_, fun _ => hrn hfit, hsq.2 hfit, h⟩
        have hlt : n < 2 ^ (Nat.log 2 n + 1) := Nat.lt_pow_succ_log_self (by norm_num) n
        have hle : 2 ^ (Nat.log 2 n + 1) ≤ 2 ^ 2 ^ Nat.log 2 n :=
          Nat.pow_le_pow_right (by norm_num) (Nat.lt_two_pow_self)
        have hge : (2:ℤ) ^ 2 ^ Nat.log 2 n ≤ |num| ^ 2 ^ Nat.log 2 n := pow_le_pow_left₀ (by norm_num) h2 _
        have hS : Short (num ^ 2 ^ Nat.log 2 n) := by
          rw [short_digits_iff]
          obtain ⟨m, hm, hm1⟩ := half_len
          omega
        refine short_of_abs_le hS ?_
        rw [abs_pow, abs_of_nonneg (by omega)]
        have : (n : ℤ) ≤ 2 ^ 2 ^ Nat.log 2 n := by exact_mod_cast (by omega : n ≤ 2 ^ 2 ^ Nat.log 2 n)
        linarith

theorem powFits_base_zero : ∀ (n : ℕ) (r : ℤ), PowFits 0 0 r n ↔ Short (n : ℤ) := by
  intro n
  induction n using Nat.strong_induction_on with
  | _ n ih =>
    intro r
    by_cases hn : n = 0
    · subst hn
      exact ⟨fun _ => short_small (by norm_num), fun _ => powFits_zero _ _ _⟩
    · rw [powFits_pos _ _ _ hn]
      have hp : powKeep 0 ((0:ℤ) * 0) = 0 := by rw [mul_zero]; exact powKeep_zero _
      rw [hp, ih (n / 2) (by omega)]
      constructor
      · intro h; exact h.1
      · intro h
        refine ⟨h, fun _ => (mulFits_zero _ _).2 (Or.inr (Or.inl rfl)), (mulFits_zero _ _).2 (Or.inl rfl), ?_⟩
        refine short_of_abs_le h ?_
        rw [abs_of_nonneg (by omega), abs_of_nonneg (by omega)]
        omega

theorem powFits_mod {m : ℤ} (hm : m ≠ 0) (hsm : 2 * numDigits m ≤ maxLen) : ∀ (n : ℕ) (num r : ℤ), Short (n : ℤ) →
    2 * numDigits num ≤ maxLen → 2 * numDigits r ≤ maxLen → PowFits m num r n := by
  have prod : ∀ x y : ℤ, 2 * numDigits x ≤ maxLen → 2 * numDigits y ≤ maxLen → MulFits m x y := by
    intro x y hx hy
    unfold MulFits
    rw [if_neg hm]
    refine ⟨?_, by rw [short_digits_iff]; omega⟩
    rw [short_digits_iff, numDigits_le_iff, abs_mul]
    have h1 := (numDigits_le_iff x _).1 le_rfl
    have h2 := (numDigits_le_iff y _).1 le_rfl
    calc |x| * |y| < 10 ^ numDigits x * 10 ^ numDigits y := mul_lt_mul'' h1 h2 (abs_nonneg _) (abs_nonneg _)
      _ = 10 ^ (numDigits x + numDigits y) := (pow_add _ _ _).symm
      _ ≤ 10 ^ maxLen := pow_le_pow_right₀ (by norm_num) (by omega)
  have red : ∀ x : ℤ, 2 * numDigits (powKeep m x) ≤ maxLen := by
    intro x
    rw [powKeep_mod hm]
    have := numDigits_mono (codeMod_abs_lt x hm).le
    omega
  intro n
  induction n using Nat.strong_induction_on with
  | _ n ih =>
    intro num r hs hnum hr
    by_cases hn : n = 0
    · subst hn; exact powFits_zero _ _ _
    · rw [powFits_pos _ _ _ hn]
      refine ⟨hs, fun _ => prod _ _ hr hnum, prod _ _ hnum hnum, ih _ (by omega) _ _ ?_ (red _) ?_⟩
      · refine short_of_abs_le hs ?_
        rw [abs_of_nonneg (by omega), abs_of_nonneg (by omega)]
        omega
      · split
        · exact red _
        · exact hr

end Pyincpp
