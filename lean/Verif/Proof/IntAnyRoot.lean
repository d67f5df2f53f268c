import Verif.Proof.IntAnyNum

/-! # Counting with `int`: square root, next prime, logarithm, power -/

namespace Pyincpp

/-! ## sqrt -/

def bigSqrtBody (k n : ℕ) : BInt × BInt → Res (BInt × BInt) := fun s => do
  let q ← Big.div .lenient k (enc n) s.1
  let t ← Big.add .lenient k s.1 q
  let h ← Big.div .lenient k t (← BInt.ofInt 2)
  pure (h, s.1)

theorem big_sqrt_unfold {k n : ℕ} (hn : 4 ≤ n) :
    Big.sqrt .lenient k (enc n) = (do
      let s ← whileF sqrtCond (bigSqrtBody k n) k (enc (sqrtStart n), enc 0)
      pure s.1) := by
  unfold Big.sqrt
  rw [if_neg (by rw [enc_sign, Int.sign_eq_neg_one_iff_neg]; omega), isZero_enc,
    if_neg (by simp; omega), ofInt_small (by norm_num) (by norm_num)]
  simp only [Res.ok_bind]
  rw [big_lt_short (Or.inr (short_small (by norm_num))), lt_enc]
  simp only [Res.ok_bind]
  have h4 : ¬ ((n:ℤ) < 4) := by omega
  simp only [h4, decide_false, Bool.false_eq_true, if_false]
  rw [sqrt_start, ofInt_small (by norm_num) (by norm_num)]
  rfl

theorem big_sqrt_small {k n : ℕ} (hn : n < 4) : Big.sqrt .lenient k (enc n) = BInt.sqrt .lenient k (enc n) := by
  unfold Big.sqrt BInt.sqrt
  rw [ofInt_small (n := 4) (by norm_num) (by norm_num)]
  simp only [Res.ok_bind]
  rw [big_lt_short (Or.inr (short_small (by norm_num))), lt_enc]
  have h4 : ((n:ℤ) < 4) := by omega
  simp only [h4, decide_true, if_true, Res.ok_bind]

theorem big_sqrt_neg {k : ℕ} {z : ℤ} (h : z < 0) :
    Big.sqrt .lenient k (enc z) = .throw "Error: Cannot compute square root of a negative integer." := by
  unfold Big.sqrt
  rw [if_pos (by rw [enc_sign, Int.sign_eq_neg_one_iff_neg]; exact h)]

def SqrtRange (n x : ℕ) : Prop := 1 ≤ x ∧ x ≤ n ∧ (n < 100 ∨ 2 ≤ x ∧ 2 * x ≤ n)

theorem sqrtRange_sum {n x : ℕ} (h : SqrtRange n x) :
    (n < 100 ∧ x + n / x ≤ n + 1) ∨ (100 ≤ n ∧ x + n / x ≤ n) := by
  obtain ⟨h1, h2, h3⟩ := h
  rcases lt_or_ge n 100 with hn | hn
  · left
    refine ⟨hn, ?_⟩
    have hq : 1 ≤ n / x := (Nat.one_le_div_iff (by omega)).2 h2
    have hm := Nat.mul_div_le n x
    nlinarith
  · right
    obtain ⟨h4, h5⟩ := h3.resolve_left (by omega)
    have : n / x ≤ n / 2 := Nat.div_le_div_left h4 (by norm_num)
    omega

theorem sqrtRange_newton {n x : ℕ} (hn : 4 ≤ n) (h : SqrtRange n x) : SqrtRange n (newton n x) := by
  have hs := sqrtRange_sum h
  obtain ⟨h1, h2, h3⟩ := h
  have hq : 1 ≤ n / x := (Nat.one_le_div_iff (by omega)).2 h2
  unfold newton
  rcases hs with ⟨h4, h5⟩ | ⟨h4, h5⟩
  · exact ⟨by omega, by omega, Or.inl h4⟩
  · refine ⟨by omega, by omega, Or.inr ⟨?_, by omega⟩⟩
    by_cases hx : 4 ≤ x
    · omega
    · have : n / 3 ≤ n / x := Nat.div_le_div_left (by omega) (by omega)
      omega

theorem sqrtRange_start {n : ℕ} (hn : 4 ≤ n) : SqrtRange n (sqrtStart n) := by
  have hp := sqrtStart_pos n
  have hl := numDigits_ge (x := (n : ℤ)) (by omega)
  have hu := (numDigits_le_iff (n : ℤ) _).1 le_rfl
  have hpos := numDigits_pos (x := (n : ℤ)) (by omega)
  unfold sqrtStart at *
  rw [← numDigits_eq] at *
  rw [abs_of_nonneg (by omega)] at hl hu
  have hl' : 10 ^ (numDigits (n : ℤ) - 1) ≤ n := by exact_mod_cast hl
  have hu' : n < 10 ^ (numDigits (n : ℤ)) := by exact_mod_cast hu
  rcases le_or_gt (numDigits (n : ℤ)) 2 with h2 | h2
  · have h3 : (10 : ℕ) ^ (numDigits (n : ℤ)) ≤ 10 ^ 2 := Nat.pow_le_pow_right (by norm_num) h2
    refine ⟨by omega, ?_, Or.inl (by omega)⟩
    rcases Nat.lt_or_ge (numDigits (n : ℤ)) 2 with h5 | h5
    · have e : numDigits (n : ℤ) / 2 = 0 := by omega
      rw [e]; omega
    · have e : numDigits (n : ℤ) / 2 = numDigits (n : ℤ) - 1 := by omega
      rw [e]; exact hl'
  · have h3 : 10 ^ (numDigits (n : ℤ) / 2 + 1) ≤ 10 ^ (numDigits (n : ℤ) - 1) := Nat.pow_le_pow_right (by norm_num) (by omega)
    rw [pow_succ] at h3
    have h4 : (10:ℕ) ^ 1 ≤ 10 ^ (numDigits (n : ℤ) / 2) := Nat.pow_le_pow_right (by norm_num) (by omega)
    exact ⟨by omega, by omega, Or.inr ⟨by omega, by omega⟩⟩

theorem big_sqrt_short {k n : ℕ} (hk : 11 ≤ k) (h : Short (n : ℤ)) :
    Big.sqrt .lenient k (enc n) = BInt.sqrt .lenient k (enc n) := by
  classical
  rcases lt_or_ge n 4 with hn | hn
  · exact big_sqrt_small hn
  rw [big_sqrt_unfold hn, sqrt_unfold hn]
  rw [whileF_congr (cond' := sqrtCond) (body' := sqrtBody k n)
    (fun s : BInt × BInt => ∃ x : ℕ, s.1 = enc x ∧ SqrtRange n x) ?_ _ _ ⟨_, rfl, sqrtRange_start hn⟩]
  rintro ⟨a, p⟩ ⟨x, hx, hr⟩
  dsimp only at hx
  subst hx
  refine ⟨rfl, fun _ => ?_⟩
  have hb := sqrtBody_enc (n := n) hk (x := x) (by have := hr.1; omega) p
  refine ⟨?_, ?_⟩
  · have hsum := sqrtRange_sum hr
    have hS : (n : ℤ) < 10 ^ maxLen := by
      have := h
      unfold Short at this
      rwa [abs_of_nonneg (by omega)] at this
    have ht := thousand_le
    have hsx : Short (x : ℤ) := by
      unfold Short
      rw [abs_of_nonneg (by omega)]
      have := hr.2.1
      omega
    have e : ((n : ℤ).tdiv (x : ℤ)) = ((n / x : ℕ) : ℤ) := by
      rw [Int.tdiv_eq_ediv_of_nonneg (by omega), Int.natCast_ediv]
    obtain ⟨q, hq⟩ : ∃ q, q = n / x := ⟨_, rfl⟩
    rw [← hq] at e hsum
    have hss : Short ((x : ℤ) + (q : ℤ)) := by
      unfold Short
      rw [abs_of_nonneg (by omega)]
      omega
    have hx0 : (x : ℤ) ≠ 0 := by have := hr.1; omega
    unfold bigSqrtBody sqrtBody
    dsimp only
    rw [big_div_short .lenient (by omega) hx0 h hsx, div_enc hk _ hx0]
    simp only [Res.ok_bind]
    rw [e, big_add .lenient (by omega), if_pos (addFits_nonneg (by omega) (by omega) hss), add_enc (by omega)]
    simp only [Res.ok_bind]
    rw [ofInt_small (by norm_num) (by norm_num)]
    simp only [Res.ok_bind]
    rw [big_div_short .lenient (by omega) (by norm_num) hss (short_small (by norm_num))]
  · intro s' hs
    rw [hb] at hs
    injection hs with hs
    exact ⟨newton n x, by rw [← hs], sqrtRange_newton hn hr⟩

theorem big_sqrt_long {k n : ℕ} (hk : 11 ≤ k) (hn : 4 ≤ n) (h : ¬ Short (n : ℤ)) :
    Big.sqrt .lenient k (enc n) = .ub .overflow := by
  rw [big_sqrt_unfold hn]
  obtain ⟨k, rfl⟩ : ∃ j, k = j + 1 := ⟨k - 1, by omega⟩
  have hp := sqrtStart_pos n
  have hc : sqrtCond (enc (sqrtStart n), enc 0) = .ok true := by
    have := sqrtCond_enc (sqrtStart n) 0
    rw [show ((0:ℕ):ℤ) = 0 by norm_num] at this
    rw [this, decide_eq_false (by omega)]
    rfl
  rw [whileF, hc]
  simp only [Res.ok_bind, if_true]
  unfold bigSqrtBody
  dsimp only
  rw [big_div_long .lenient _ (by omega) (by tauto)]
  rfl

/-! ## next_prime -/

theorem big_nextPrimeLoop {k P : ℕ} (hP : P.Prime) (hP3 : 3 ≤ P) (hS : (P : ℤ) < 10 ^ maxLen) (hk : 11 ≤ k) (hr : Nat.sqrt P ≤ k) :
    ∀ (n : ℕ) (p : ℤ), 1 ≤ p → p % 2 = 1 → p < P →
    Big.nextPrimeLoop .lenient k n (enc p) = BInt.nextPrimeLoop .lenient k n (enc p)
  | 0, _, _, _, _ => rfl
  | n + 1, p, hp1, hodd, hlt => by
    unfold Big.nextPrimeLoop BInt.nextPrimeLoop
    have hPodd : P % 2 = 1 := by
      rcases Nat.Prime.eq_two_or_odd hP with h | h
      · omega
      · exact h
    rw [big_absInc_short (by omega) (by omega), absInc_enc (by omega), Int.sign_eq_one_of_pos (by omega)]
    simp only [Res.ok_bind]
    rw [big_absInc_short (by omega) (by omega), absInc_enc (by omega), Int.sign_eq_one_of_pos (by omega)]
    simp only [Res.ok_bind]
    rw [big_isPrime_short hk (by omega)]
    have hsq : Nat.sqrt (p + 1 + 1).toNat ≤ k := le_trans (Nat.sqrt_le_sqrt (by omega)) hr
    rw [isPrime_sharp hk hsq]
    simp only [Res.ok_bind]
    by_cases hq : Nat.Prime (p + 1 + 1).toNat
    · simp only [hq, decide_true, if_true]
    · simp only [hq, decide_false, Bool.false_eq_true, if_false]
      have hne : p + 2 ≠ P := by
        intro he
        apply hq
        have : (p + 1 + 1).toNat = P := by omega
        rw [this]; exact hP
      exact big_nextPrimeLoop hP hP3 hS hk hr n (p + 1 + 1) (by omega) (by omega) (by omega)

theorem big_nextPrimeLoop_none {k : ℕ} (hk : 11 ≤ k) (hr : (10:ℤ) ^ maxLen ≤ k) :
    ∀ (n : ℕ) (p : ℤ), 1 ≤ p → 1 ≤ n → (10:ℤ) ^ maxLen ≤ p + 2 * n →
    (∀ q : ℕ, p < q → (q : ℤ) < 10 ^ maxLen → ¬ q.Prime) →
    Big.nextPrimeLoop .lenient k n (enc p) = .ub .overflow
  | 0, _, _, h, _, _ => by omega
  | n + 1, p, hp1, _, hn, hno => by
    unfold Big.nextPrimeLoop
    rw [big_absInc]
    split
    · rfl
    rw [absInc_enc (by omega), Int.sign_eq_one_of_pos (by omega)]
    simp only [Res.ok_bind]
    rw [big_absInc]
    split
    · rfl
    rw [absInc_enc (by omega), Int.sign_eq_one_of_pos (by omega)]
    simp only [Res.ok_bind]
    rcases lt_or_ge (p + 1 + 1) (10 ^ maxLen) with hs | hs
    · rw [big_isPrime_short hk hs]
      have hsq : Nat.sqrt (p + 1 + 1).toNat ≤ k := le_trans (Nat.sqrt_le_self _) (by omega)
      rw [isPrime_sharp hk hsq]
      have hq : ¬ Nat.Prime (p + 1 + 1).toNat := hno _ (by omega) (by omega)
      simp only [Res.ok_bind, hq, decide_false, Bool.false_eq_true, if_false]
      refine big_nextPrimeLoop_none hk hr n (p + 1 + 1) (by omega) ?_ (by push_cast at hn; omega)
        (fun q h1 h2 => hno q (by omega) h2)
      push_cast at hn
      omega
    · rw [big_isPrime_long hk hs]; rfl

theorem big_nextPrime_short {k : ℕ} {z : ℤ} {P : ℕ} (hP : P.Prime) (hlt : z < P) (hS : (P : ℤ) < 10 ^ maxLen)
    (hk : 11 ≤ k) (hr : Nat.sqrt P ≤ k) :
    Big.nextPrime .lenient k (enc z) = BInt.nextPrime .lenient k (enc z) := by
  unfold Big.nextPrime BInt.nextPrime
  rw [ofInt_small (by norm_num) (by norm_num)]
  simp only [Res.ok_bind]
  rw [big_lt_short (Or.inr (short_small (by norm_num))), lt_enc]
  simp only [Res.ok_bind, isEven_enc]
  by_cases h2 : z < 2
  · simp only [h2, decide_true, if_true]
  · simp only [h2, decide_false, Bool.false_eq_true, if_false]
    by_cases he : z % 2 = 0
    · simp only [he, decide_true, if_true]
      rw [big_absDec_short (by omega) (by omega), absDec_enc (by omega), Int.sign_eq_one_of_pos (by omega)]
      simp only [Res.ok_bind]
      exact big_nextPrimeLoop hP (by omega) hS hk hr k _ (by omega) (by omega) (by omega)
    · simp only [he, decide_false, Bool.false_eq_true, if_false, Res.pure_eq, Res.ok_bind]
      exact big_nextPrimeLoop hP (by omega) hS hk hr k _ (by omega) (by omega) (by omega)

theorem big_nextPrime_none {k : ℕ} {z : ℤ} (hz : 2 ≤ z)
    (hno : ∀ q : ℕ, z < q → (q : ℤ) < 10 ^ maxLen → ¬ q.Prime)
    (hk : 11 ≤ k) (hr : (10:ℤ) ^ maxLen ≤ k) :
    Big.nextPrime .lenient k (enc z) = .ub .overflow := by
  unfold Big.nextPrime
  rw [ofInt_small (by norm_num) (by norm_num)]
  simp only [Res.ok_bind]
  rw [big_lt_short (Or.inr (short_small (by norm_num))), lt_enc]
  simp only [Res.ok_bind, isEven_enc]
  have h2 : ¬ z < 2 := by omega
  simp only [h2, decide_false, Bool.false_eq_true, if_false]
  by_cases he : z % 2 = 0
  · simp only [he, decide_true, if_true]
    rw [big_absDec (by omega)]
    split
    · rfl
    rw [absDec_enc (by omega), Int.sign_eq_one_of_pos (by omega)]
    simp only [Res.ok_bind]
    have hge : z ≠ 2 := by
      rintro rfl
      have ht := thousand_le
      exact hno 3 (by norm_num) (by push_cast; omega) Nat.prime_three
    refine big_nextPrimeLoop_none hk hr k _ (by omega) (by omega) (by omega) (fun q h1 h2 hq => ?_)
    rcases eq_or_ne (q : ℤ) z with h | h
    · rcases Nat.Prime.eq_two_or_odd hq with h' | h' <;> omega
    · exact hno q (by omega) h2 hq
  · simp only [he, decide_false, Bool.false_eq_true, if_false, Res.pure_eq, Res.ok_bind]
    exact big_nextPrimeLoop_none hk hr k _ (by omega) (by omega) (by omega) hno

/-! ## log -/

theorem big_log_domain (k : ℕ) {n b : ℤ} (h : n ≤ 0 ∨ b < 2) :
    Big.log .lenient k (enc n) (enc b) = .throw "Error: Math domain error." := by
  unfold Big.log
  by_cases hn : n ≤ 0
  · have hs : (enc n).sign ≤ 0 := by
      rw [enc_sign, Int.sign_nonpos_iff]; exact hn
    simp [if_pos hs]
  · have hs : ¬ (enc n).sign ≤ 0 := by
      rw [enc_sign, Int.sign_nonpos_iff]; exact hn
    have hb : b < 2 := by tauto
    rw [if_neg hs, ofInt_small (by norm_num) (by norm_num)]
    simp only [Res.ok_bind]
    rw [big_lt_short (Or.inr (short_small (by norm_num)))]
    simp only [Res.ok_bind, lt_enc, hb, decide_true, if_true]

theorem big_log_short {k : ℕ} (hk : 11 ≤ k) {n b : ℤ} (hn : 0 < n) (hb : 2 ≤ b) (hsn : Short n) (hsb : Short b) :
    Big.log .lenient k (enc n) (enc b) = BInt.log .lenient k (enc n) (enc b) := by
  classical
  unfold Big.log BInt.log
  have hs : ¬ (enc n).sign ≤ 0 := by
    rw [enc_sign, Int.sign_nonpos_iff]; omega
  simp only [if_neg hs]
  rw [ofInt_small (n := 2) (by norm_num) (by norm_num), ofInt_small (n := 10) (by norm_num) (by norm_num),
    ofInt_small (n := 0) (by norm_num) (by norm_num)]
  simp only [Res.ok_bind]
  rw [big_lt_short (Or.inr (short_small (by norm_num))), lt_enc]
  have hb2 : ¬ (b < 2) := by omega
  simp only [Res.ok_bind, hb2, decide_false, Bool.false_eq_true, if_false, eq_enc_iff]
  by_cases h10 : b = 10
  · simp only [h10, decide_true, if_true]
    rw [big_digits, if_pos hsn, digits_enc, numDigits_eq]
  · simp only [h10, decide_false, Bool.false_eq_true, if_false]
    rw [big_div_short .lenient (by omega) (by omega) hsn hsb, div_enc hk _ (by omega)]
    simp only [Res.ok_bind]
    have hS : n < 10 ^ maxLen := by
      have := hsn
      unfold Short at this
      rwa [abs_of_pos hn] at this
    have step : ∀ v : ℤ, 0 < v → 0 ≤ v.tdiv b ∧ v.tdiv b + 1 ≤ v := by
      intro v hv
      rw [Int.tdiv_eq_ediv_of_nonneg hv.le]
      refine ⟨Int.ediv_nonneg hv.le (by omega), ?_⟩
      have := Int.ediv_lt_self_of_pos_of_ne_one hv (by omega : b ≠ 1)
      omega
    rw [whileF_congr (cond' := fun (s : BInt × BInt) => .ok (!(BInt.isZero s.1)))
      (body' := fun s => do
        let r ← BInt.inc s.2
        pure (← BInt.div .lenient k s.1 (enc b), r))
      (fun s : BInt × BInt => ∃ v r : ℤ, s = (enc v, enc r) ∧ 0 ≤ v ∧ 0 ≤ r ∧ v + r < n) ?_ _ _
      ⟨n.tdiv b, 0, rfl, (step n hn).1, le_rfl, by have := (step n hn).2; omega⟩]
    · rfl
    rintro s ⟨v, r, rfl, hv, hr, hvr⟩
    refine ⟨rfl, ?_⟩
    simp only [isZero_enc]
    intro hc
    have hv0 : 0 < v := by
      have : v ≠ 0 := by simpa using hc
      omega
    have e1 : Big.inc (enc r) = BInt.inc (enc r) := by
      rw [big_inc, if_neg]
      rintro ⟨h0, hd⟩
      rw [if_pos (by omega)] at hd
      have := pow_lt_succ
      exact not_dvd_of_short (by omega) (by omega) hd
    have hsv : Short v := short_of_le hsn hv (by rw [abs_of_pos hn]; omega)
    refine ⟨by rw [e1, big_div_short .lenient (by omega) (by omega) hsv hsb], ?_⟩
    intro s' hs'
    rw [inc_enc, div_enc hk _ (by omega)] at hs'
    simp only [Res.ok_bind, Res.pure_eq] at hs'
    injection hs' with hs'
    exact ⟨v.tdiv b, r + 1, hs'.symm, (step v hv0).1, by omega, by have := (step v hv0).2; omega⟩

theorem big_log_long (k : ℕ) {n b : ℤ} (hn : 0 < n) (hb : 2 ≤ b) (h : ¬ (Short n ∧ Short b)) :
    Big.log .lenient k (enc n) (enc b) = .ub .overflow := by
  classical
  unfold Big.log
  have hs : ¬ (enc n).sign ≤ 0 := by
    rw [enc_sign, Int.sign_nonpos_iff]; omega
  simp only [if_neg hs]
  rw [ofInt_small (n := 2) (by norm_num) (by norm_num), ofInt_small (n := 10) (by norm_num) (by norm_num),
    ofInt_small (n := 0) (by norm_num) (by norm_num)]
  simp only [Res.ok_bind]
  rw [big_lt_short (Or.inr (short_small (by norm_num))), lt_enc]
  have hb2 : ¬ (b < 2) := by omega
  simp only [Res.ok_bind, hb2, decide_false, Bool.false_eq_true, if_false, eq_enc_iff]
  by_cases h10 : b = 10
  · simp only [h10, decide_true, if_true]
    have hn : ¬ Short n := by
      intro hsn
      exact h ⟨hsn, by rw [h10]; exact short_small (by norm_num)⟩
    rw [big_digits, if_neg hn]
    rfl
  · simp only [h10, decide_false, Bool.false_eq_true, if_false]
    rw [big_div_long .lenient _ (by omega) h]
    rfl

end Pyincpp
