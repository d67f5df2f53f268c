import Verif.Proof.IntNum
import Mathlib.Data.Nat.Sqrt
import Mathlib.Data.Nat.Size

/-! # `sqrt`, `pow`, `to_integer`, `random` -/

namespace Pyincpp

/-! ## Newton's iteration -/

/-- One step of the loop. -/
def newton (n x : ℕ) : ℕ := (x + n / x) / 2

theorem newton_ge_sqrt {n x : ℕ} (hx : 0 < x) : Nat.sqrt n ≤ newton n x := by
  unfold newton
  set s := Nat.sqrt n with hs
  have h1 : s * s ≤ n := Nat.sqrt_le n
  rw [Nat.le_div_iff_mul_le (by norm_num)]
  by_contra hcon
  have hlt : x + n / x < s * 2 := by omega
  have h2 : n < x * (n / x + 1) := by
    have := Nat.lt_mul_div_succ n hx
    simpa [Nat.succ_eq_add_one] using this
  obtain ⟨q, hq⟩ : ∃ q, q = n / x := ⟨_, rfl⟩
  rw [← hq] at h2 hlt
  -- x * (q + 1) ≤ s * s since x + (q + 1) ≤ 2 s
  have h3 : x + (q + 1) ≤ 2 * s := by omega
  have h4 : x * (q + 1) ≤ s * s := by
    zify at h3 ⊢
    nlinarith [sq_nonneg ((x : ℤ) - (q + 1))]
  omega

theorem newton_lt {n x : ℕ} (hx : Nat.sqrt n < x) : newton n x < x := by
  unfold newton
  have h1 : n < x * x := Nat.sqrt_lt.mp hx
  have h2 : n / x < x := Nat.div_lt_of_lt_mul h1
  omega

/-- `n + 1` is a perfect square and `n ≥ 3`. -/
def BadSqrt (n : ℕ) : Prop := ∃ m, n + 1 = m * m

theorem newton_sqrt_of_bad {n : ℕ} (hn : 0 < n) (h : BadSqrt n) : newton n (Nat.sqrt n) = Nat.sqrt n + 1 := by
  obtain ⟨m, hm⟩ := h
  have hm2 : 2 ≤ m := by
    rcases m with _ | _ | m
    · omega
    · omega
    · omega
  obtain ⟨s, rfl⟩ : ∃ s, m = s + 1 := ⟨m - 1, by omega⟩
  have hs : Nat.sqrt n = s := by
    symm
    rw [Nat.eq_sqrt]
    constructor <;> nlinarith
  unfold newton
  rw [hs]
  have hns : n = s * (s + 2) := by nlinarith
  have : n / s = s + 2 := by
    rw [hns]; exact Nat.mul_div_cancel_left _ (by omega)
  omega

theorem newton_sqrt_of_good {n : ℕ} (hn : 0 < n) (h : ¬ BadSqrt n) : newton n (Nat.sqrt n) = Nat.sqrt n := by
  set s := Nat.sqrt n with hs
  have hs0 : 0 < s := by rw [hs]; exact Nat.sqrt_pos.mpr hn
  have h1 : s * s ≤ n := Nat.sqrt_le n
  have h2 : n < (s + 1) * (s + 1) := Nat.lt_succ_sqrt n
  have h3 : n ≠ s * s + 2 * s := by
    intro he
    exact h ⟨s + 1, by rw [he]; ring⟩
  have h4 : s ≤ n / s := by
    rw [Nat.le_div_iff_mul_le hs0]; exact h1
  have h5 : n / s < s + 2 := by
    rw [Nat.div_lt_iff_lt_mul hs0]
    have : n ≤ s * s + 2 * s := by nlinarith
    have : n < s * s + 2 * s := by omega
    nlinarith
  unfold newton
  omega

theorem newton_fixed {n x : ℕ} (hx : 0 < x) (h : newton n x = x) : x = Nat.sqrt n := by
  have h1 := newton_ge_sqrt (n := n) hx
  rcases Nat.lt_or_ge (Nat.sqrt n) x with h2 | h2
  · have := newton_lt h2; omega
  · omega

theorem newton_pos {n x : ℕ} (hn : 0 < n) (hx : 0 < x) : 0 < newton n x := by
  have h1 := newton_ge_sqrt (n := n) hx
  have h2 := Nat.sqrt_pos.mpr hn
  omega

/-- The loop body. -/
theorem sqrt_body {k : ℕ} (hk : 11 ≤ k) {n x : ℕ} (hx : 0 < x) (p : BInt) :
    (do
        let q ← BInt.div .lenient k (enc n) (enc x)
        let t ← BInt.add .lenient k (enc x) q
        let h ← BInt.div .lenient k t (← BInt.ofInt 2)
        pure (h, p)) = Res.ok (enc (newton n x), p) := by
  rw [div_enc hk _ (by omega)]
  simp only [Res.ok_bind]
  rw [add_enc (by omega)]
  simp only [Res.ok_bind]
  rw [ofInt_small (by norm_num) (by norm_num)]
  simp only [Res.ok_bind]
  rw [div_enc hk _ (by norm_num)]
  simp only [Res.ok_bind, Res.pure_eq]
  congr 3

/-- The condition and the body of the loop. -/
def sqrtCond : BInt × BInt → Res Bool := fun s => .ok (!(BInt.eq s.1 s.2))
def sqrtBody (k n : ℕ) : BInt × BInt → Res (BInt × BInt) := fun s => do
  let q ← BInt.div .lenient k (enc n) s.1
  let t ← BInt.add .lenient k s.1 q
  let h ← BInt.div .lenient k t (← BInt.ofInt 2)
  pure (h, s.1)

def sqrtStart (n : ℕ) : ℕ := 10 ^ ((enc (n : ℤ)).chunks.length / 2)

theorem sqrtStart_pos (n : ℕ) : 0 < sqrtStart n := by unfold sqrtStart; positivity

theorem sqrt_start (n : ℕ) :
    (⟨1, List.replicate ((enc (n : ℤ)).chunks.length / 2) 0 ++ [1]⟩ : BInt) = enc (sqrtStart n) := by
  have h := enc_shift (y := 1) (by norm_num) ((enc (n : ℤ)).chunks.length / 2)
  have e : (enc 1).chunks = [1] := by simp [enc]
  rw [e] at h
  rw [h]; unfold sqrtStart; push_cast; simp

theorem sqrt_unfold {k n : ℕ} (hn : 4 ≤ n) :
    BInt.sqrt .lenient k (enc n) = (do
      let s ← whileF sqrtCond (sqrtBody k n) k (enc (sqrtStart n), enc 0)
      pure s.1) := by
  unfold BInt.sqrt
  rw [if_neg (by rw [enc_sign, Int.sign_eq_neg_one_iff_neg]; omega), isZero_enc,
    if_neg (by simp; omega), ofInt_small (by norm_num) (by norm_num)]
  simp only [Res.ok_bind, lt_enc]
  have h4 : ¬ ((n:ℤ) < 4) := by omega
  simp only [h4, decide_false, Bool.false_eq_true, if_false]
  rw [sqrt_start, ofInt_small (by norm_num) (by norm_num)]
  rfl

theorem sqrtBody_enc {k n x : ℕ} (hk : 11 ≤ k) (hx : 0 < x) (p : BInt) :
    sqrtBody k n (enc x, p) = .ok (enc (newton n x), enc x) := sqrt_body hk hx _

theorem sqrtCond_enc (x p : ℕ) : sqrtCond (enc x, enc p) = .ok (!decide (x = p)) := by
  unfold sqrtCond
  simp only [eq_enc_iff]
  congr 2
  rw [decide_eq_decide]
  exact_mod_cast Iff.rfl

theorem sqrt_loop_good {n : ℕ} (hn : 4 ≤ n) (hg : ¬ BadSqrt n) {k : ℕ} (hk : 11 ≤ k) {m : ℕ}
    (hm : newton n (sqrtStart n) + 3 ≤ m) :
    ∃ p, whileF sqrtCond (sqrtBody k n) m (enc (sqrtStart n), enc 0) = .ok (enc (Nat.sqrt n), p) := by
  obtain ⟨m, rfl⟩ : ∃ j, m = j + 1 := ⟨m - 1, by omega⟩
  have hc := sqrtStart_pos n
  generalize hcd : sqrtStart n = c at *
  unfold whileF
  have e0 := sqrtCond_enc c 0
  rw [decide_eq_false (by omega)] at e0
  rw [show enc (0:ℤ) = enc ((0:ℕ):ℤ) by rfl, e0]
  simp only [Bool.not_false, Res.ok_bind, if_true]
  rw [sqrtBody_enc hk hc]
  simp only [Res.ok_bind]
  obtain ⟨s, e, ⟨x, p, hx, hxp, hp, rfl⟩, hcnd⟩ := whileF_inv (cond := sqrtCond) (body := sqrtBody k n)
    (fun s => ∃ (x p : ℕ), Nat.sqrt n ≤ x ∧ x = newton n p ∧ 0 < p ∧ s = (enc x, enc p))
    (fun s => if s.1 = s.2 then 0 else (val s.1.chunks).toNat - Nat.sqrt n + 1)
    (by
      rintro s ⟨x, p, hx, hxp, hp, rfl⟩
      have hx0 : 0 < x := by rw [hxp]; exact newton_pos (by omega) hp
      rw [sqrtCond_enc]
      by_cases hE : x = p
      · left; simp [hE]
      · right
        refine ⟨by simp [hE], (enc (newton n x), enc x), sqrtBody_enc hk hx0 _,
          ⟨newton n x, x, newton_ge_sqrt hx0, rfl, hx0, rfl⟩, ?_⟩
        have hne : enc (x:ℤ) ≠ enc (p:ℤ) := by
          intro h; apply hE; exact_mod_cast enc_injective h
        simp only [hne, if_false, enc_val]
        rw [abs_of_nonneg (by omega), abs_of_nonneg (by omega)]
        by_cases hxs : x = Nat.sqrt n
        · have := newton_sqrt_of_good (by omega) hg
          rw [← hxs] at this
          rw [this]; simp
        · have h1 := newton_lt (n := n) (x := x) (by omega)
          have h2 := newton_ge_sqrt (n := n) hx0
          split <;> omega)
    m (enc (newton n c), enc c) ⟨newton n c, c, newton_ge_sqrt hc, rfl, hc, rfl⟩
    (by
      simp only [enc_val]
      rw [abs_of_nonneg (by omega)]
      split <;> omega)
  refine ⟨enc p, ?_⟩
  rw [sqrtCond_enc] at hcnd
  have hE : x = p := by simpa using hcnd
  rw [e]
  have := newton_fixed hp (by rw [← hxp, hE])
  rw [hE, this]

theorem sqrt_good {n : ℕ} (hn : 4 ≤ n) (hg : ¬ BadSqrt n) :
    ∃ N, ∀ k, N ≤ k → BInt.sqrt .lenient k (enc n) = .ok (enc (Nat.sqrt n)) := by
  refine ⟨newton n (sqrtStart n) + 14, fun k hk => ?_⟩
  rw [sqrt_unfold hn]
  obtain ⟨p, e⟩ := sqrt_loop_good hn hg (k := k) (m := k) (by omega) (by omega)
  rw [e]
  rfl

theorem sqrt_bad {n : ℕ} (hn : 4 ≤ n) (hb : BadSqrt n) {k : ℕ} (hk : 11 ≤ k) :
    BInt.sqrt .lenient k (enc n) = .fuel := by
  rw [sqrt_unfold hn]
  have hc := sqrtStart_pos n
  rw [whileF_diverges (cond := sqrtCond) (body := sqrtBody k n)
    (fun s => ∃ (x p : ℕ), 0 < x ∧ x ≠ p ∧ s = (enc x, enc p))
    (by
      rintro s ⟨x, p, hx, hxp, rfl⟩
      refine ⟨by rw [sqrtCond_enc]; simp [hxp], Or.inl ⟨_, sqrtBody_enc hk hx _, newton n x, x, newton_pos (by omega) hx, ?_, rfl⟩⟩
      intro hfix
      have h1 := newton_fixed hx hfix
      have h2 := newton_sqrt_of_bad (by omega) hb
      rw [h1] at hfix
      omega)
    k (enc (sqrtStart n), enc 0) ⟨sqrtStart n, 0, hc, by omega, rfl⟩]
  rfl

theorem sqrt_small {k n : ℕ} (hn : n < 4) :
    BInt.sqrt .lenient k (enc n) = .ok (enc (Nat.sqrt n)) := by
  unfold BInt.sqrt
  rw [if_neg (by rw [enc_sign, Int.sign_eq_neg_one_iff_neg]; omega), isZero_enc]
  rw [ofInt_small (by norm_num) (by norm_num), ofInt_small (by norm_num) (by norm_num), ofInt_small (by norm_num) (by norm_num)]
  simp only [Res.ok_bind, lt_enc]
  interval_cases n
  · simp
  · simp
  all_goals
    have : ∀ m : ℕ, 1 ≤ m → m < 4 → Nat.sqrt m = 1 := by
      intro m h1 h2
      symm; rw [Nat.eq_sqrt]; omega
    rw [this _ (by norm_num) (by norm_num)]
    simp

theorem sqrt_neg {mem : Mem} {k : ℕ} {z : ℤ} (h : z < 0) :
    BInt.sqrt mem k (enc z) = .throw "Error: Cannot compute square root of a negative integer." := by
  unfold BInt.sqrt
  rw [if_pos (by rw [enc_sign, Int.sign_eq_neg_one_iff_neg]; exact h)]

/-! ## pow -/

/-- `digits(base) == 1 && base.chunks_[0] == 1` says that `|base| = 1`. -/
theorem pow_unit (b : ℤ) :
    BInt.isUnit (enc b) = Res.ok (decide (|b| = 1)) := by
  unfold BInt.isUnit
  simp only [digits_enc, Res.ok_bind]
  by_cases hl : ((enc b).chunks.length : ℤ) = 1
  · rw [if_pos hl]
    have hl' : (enc b).chunks.length = 1 := by exact_mod_cast hl
    rw [vget_ok (by omega)]
    simp only [Res.ok_bind, Res.pure_eq]
    obtain ⟨d, hd⟩ := List.length_eq_one_iff.mp hl'
    have hv := enc_val b
    rw [hd] at hv
    simp at hv
    have : (enc b).chunks[0]'(by omega) = d := by simp [hd]
    rw [this, hv]
    congr 1
  · rw [if_neg hl]
    simp only [Res.pure_eq, Res.ok_bind]
    congr 1
    symm
    rw [decide_eq_false_iff_not]
    intro h1
    apply hl
    have : (enc b).chunks = (enc 1).chunks := by rw [enc_chunks_pos, h1]
    rw [this]; simp [enc]

theorem pow_shape {mem : Mem} {k : ℕ} {b e m : ℤ} :
    BInt.pow mem k (enc b) (enc e) (enc m) =
      if |b| = 1 then .ok (enc (if b = -1 ∧ e % 2 = 1 then -1 else 1))
      else if e < 0 then (if b = 0 then .throw "Error: Math domain error." else .ok (enc 0))
      else (do
        let s ← whileF (fun (s : BInt × BInt × BInt) => .ok (!(BInt.isZero s.2.1)))
          (fun s => do
            let (num, n, r) := s
            let r ← if ← BInt.isOdd n then
                (if BInt.isZero (enc m) then BInt.mul r num else do BInt.mod mem k (← BInt.mul r num) (enc m)) else pure r
            let num ← if BInt.isZero (enc m) then BInt.mul num num else do BInt.mod mem k (← BInt.mul num num) (enc m)
            let n ← BInt.divAssign mem k n (← BInt.ofInt 2)
            pure (num, n, r)) k (enc b, enc e, enc 1)
        pure s.2.2) := by
  unfold BInt.pow
  rw [pow_unit b]
  simp only [Res.ok_bind]
  by_cases h1 : |b| = 1
  · simp only [h1, decide_true, if_true, enc_sign]
    by_cases hb : b = -1
    · subst hb
      simp only [isOdd_enc]
      by_cases ho : e % 2 = 1
      · simp [ho, ofInt_small]
      · simp [ho, ofInt_small]
    · have hb1 : b = 1 := by
        rcases abs_choice b with h | h <;> omega
      subst hb1
      simp [ofInt_small]
  · simp only [h1, decide_false, Bool.false_eq_true, if_false, isNegative_enc, isZero_enc]
    by_cases he : e < 0
    · simp only [he, decide_true, if_true]
      by_cases hb : b = 0
      · simp [hb]
      · simp [hb, ofInt_small]
    · simp only [he, decide_false, Bool.false_eq_true, if_false]
      simp only [ofInt_small (n := 1) (by norm_num) (by norm_num), Res.ok_bind]

theorem divAssign_two {k : ℕ} (hk : 11 ≤ k) (n : ℕ) :
    BInt.divAssign .lenient k (enc n) (enc 2) = .ok (enc ((n / 2 : ℕ) : ℤ)) := by
  have := div_enc hk (n : ℤ) (y := 2) (by norm_num)
  unfold BInt.div at this
  rw [this, Int.tdiv_eq_ediv_of_nonneg (by omega)]
  norm_cast

theorem size_half {n : ℕ} (h : n ≠ 0) : Nat.size (n / 2) < Nat.size n := by
  have h1 : Nat.size n ≠ 0 := by rw [Ne, Nat.size_eq_zero]; exact h
  have h2 := Nat.lt_size_self n
  have h3 : Nat.size (n / 2) ≤ Nat.size n - 1 := by
    rw [Nat.size_le]
    obtain ⟨j, hj⟩ : ∃ j, Nat.size n = j + 1 := ⟨Nat.size n - 1, by omega⟩
    rw [hj] at h2 ⊢
    rw [pow_succ] at h2
    simp only [Nat.add_sub_cancel]
    omega
  omega

theorem size_le_self (n : ℕ) : Nat.size n ≤ n := by
  rw [Nat.size_le]; exact Nat.lt_two_pow_self

/-- The loop without modulus. -/
theorem pow_loop_plain {k : ℕ} {b : ℤ} {e : ℕ} (hk : 11 ≤ k) (hr : Nat.size e < k) :
    ∃ p q, whileF (fun (s : BInt × BInt × BInt) => .ok (!(BInt.isZero s.2.1)))
          (fun s => do
            let (num, n, r) := s
            let r ← if ← BInt.isOdd n then
                (if BInt.isZero (enc 0) then BInt.mul r num else do BInt.mod .lenient k (← BInt.mul r num) (enc 0)) else pure r
            let num ← if BInt.isZero (enc 0) then BInt.mul num num else do BInt.mod .lenient k (← BInt.mul num num) (enc 0)
            let n ← BInt.divAssign .lenient k n (← BInt.ofInt 2)
            pure (num, n, r)) k (enc b, enc e, enc 1) = .ok (p, q, enc (b ^ e)) := by
  obtain ⟨s, he, ⟨num, n, r, hI, rfl⟩, hc⟩ := whileF_inv
    (cond := fun (s : BInt × BInt × BInt) => .ok (!(BInt.isZero s.2.1)))
    (body := fun s => do
            let (num, n, r) := s
            let r ← if ← BInt.isOdd n then
                (if BInt.isZero (enc 0) then BInt.mul r num else do BInt.mod .lenient k (← BInt.mul r num) (enc 0)) else pure r
            let num ← if BInt.isZero (enc 0) then BInt.mul num num else do BInt.mod .lenient k (← BInt.mul num num) (enc 0)
            let n ← BInt.divAssign .lenient k n (← BInt.ofInt 2)
            pure (num, n, r))
    (fun s => ∃ (num : ℤ) (n : ℕ) (r : ℤ), r * num ^ n = b ^ e ∧ s = (enc num, enc n, enc r))
    (fun s => Nat.size (val s.2.1.chunks).toNat)
    (by
      rintro s ⟨num, n, r, hI, rfl⟩
      simp only [isZero_enc]
      by_cases hn : n = 0
      · left; subst hn; simp
      · right
        have hz : decide ((0:ℤ) = 0) = true := by simp
        refine ⟨by simp [hn], (enc (num * num), enc ((n / 2 : ℕ) : ℤ), enc (if n % 2 = 1 then r * num else r)), ?_,
          ⟨num * num, n / 2, _, ?_, rfl⟩, ?_⟩
        · simp only [isOdd_enc, Res.ok_bind, hz, if_true, mul_enc, ofInt_small (n := 2) (by norm_num) (by norm_num),
            divAssign_two (by omega : 11 ≤ k)]
          by_cases ho : n % 2 = 1
          · have : ((n : ℤ) % 2 = 1) := by omega
            simp [ho, this]
          · have : ¬ ((n : ℤ) % 2 = 1) := by omega
            simp [ho, this]
        · rw [← hI]
          have hpow : num ^ n = (num * num) ^ (n / 2) * num ^ (n % 2) := by
            rw [← pow_two, ← pow_mul, ← pow_add, Nat.div_add_mod]
          rw [hpow]
          rcases Nat.mod_two_eq_zero_or_one n with h | h <;> rw [h] <;> simp <;> ring
        · simp only [enc_val, Nat.abs_cast, Int.toNat_natCast]
          exact size_half hn)
    k (enc b, enc e, enc 1) ⟨b, e, 1, by ring, rfl⟩
    (by simp only [enc_val, Nat.abs_cast, Int.toNat_natCast]; exact hr)
  rw [he]
  simp only [isZero_enc] at hc
  have : n = 0 := by simpa using hc
  subst this
  simp at hI
  exact ⟨_, _, by rw [hI]⟩

theorem pow_sharp {k : ℕ} {b : ℤ} {e : ℕ} (hk : 11 ≤ k) (hr : Nat.size e < k) :
    BInt.pow .lenient k (enc b) (enc e) (enc 0) = .ok (enc (b ^ e)) := by
  rw [pow_shape]
  by_cases h1 : |b| = 1
  · rw [if_pos h1]
    congr 2
    rcases abs_choice b with h | h
    · have : b = 1 := by omega
      subst this; simp
    · have : b = -1 := by omega
      subst this
      rcases Nat.even_or_odd e with he | he
      · have h0 : e % 2 = 0 := Nat.even_iff.mp he
        rw [if_neg (by omega), he.neg_one_pow]
      · have h0 : e % 2 = 1 := Nat.odd_iff.mp he
        rw [if_pos (by omega), he.neg_one_pow]
  · rw [if_neg h1, if_neg (by omega)]
    obtain ⟨p, q, he⟩ := pow_loop_plain (b := b) hk hr
    rw [he]
    rfl

theorem pow_plain {k : ℕ} {b : ℤ} {e : ℕ} (hk : e + 11 ≤ k) :
    BInt.pow .lenient k (enc b) (enc e) (enc 0) = .ok (enc (b ^ e)) :=
  pow_sharp (by omega) (by have := size_le_self e; omega)

/-- What the loop of the modular `pow` computes, on integers. -/
def powCode (m : ℤ) (num r : ℤ) (n : ℕ) : ℤ :=
  if h : n = 0 then r
  else powCode m (codeMod (num * num) m) (if n % 2 = 1 then codeMod (r * num) m else r) (n / 2)
termination_by n
decreasing_by omega

theorem powCode_zero (m num r : ℤ) : powCode m num r 0 = r := by rw [powCode]; simp

theorem powCode_pos (m num r : ℤ) {n : ℕ} (h : n ≠ 0) : powCode m num r n =
    powCode m (codeMod (num * num) m) (if n % 2 = 1 then codeMod (r * num) m else r) (n / 2) := by
  rw [powCode]; simp [h]

/-- The loop with a modulus: the absolute values are right modulo `|m|`; for a non-negative base everything is
non-negative and exact. -/
theorem pow_loop_mod {k : ℕ} {b m : ℤ} (hm : m ≠ 0) {e : ℕ} (hk : 11 ≤ k) (hr : Nat.size e < k) :
    ∃ p q, ∃ r : ℤ, whileF (fun (s : BInt × BInt × BInt) => .ok (!(BInt.isZero s.2.1)))
          (fun s => do
            let (num, n, r) := s
            let r ← if ← BInt.isOdd n then
                (if BInt.isZero (enc m) then BInt.mul r num else do BInt.mod .lenient k (← BInt.mul r num) (enc m)) else pure r
            let num ← if BInt.isZero (enc m) then BInt.mul num num else do BInt.mod .lenient k (← BInt.mul num num) (enc m)
            let n ← BInt.divAssign .lenient k n (← BInt.ofInt 2)
            pure (num, n, r)) k (enc b, enc e, enc 1) = .ok (p, q, enc r) ∧
      |r| % |m| = |b| ^ e % |m| ∧ (0 < e → |r| < |m|) ∧ (0 ≤ b → 0 ≤ r) ∧ (e = 0 → r = 1) ∧ r = powCode m b 1 e := by
  have cm : ∀ x : ℤ, |codeMod x m| = |x| % |m| := by
    intro x
    unfold codeMod
    split
    · rename_i h
      rw [Int.emod_eq_of_lt (abs_nonneg x) (enc_len_lt h)]
    · rw [abs_of_nonneg (Int.emod_nonneg _ (by simpa using hm))]
  have cmn : ∀ x : ℤ, 0 ≤ x → 0 ≤ codeMod x m := by
    intro x hx
    unfold codeMod
    split
    · exact hx
    · exact Int.emod_nonneg _ (by simpa using hm)
  have hz : decide (m = 0) = false := by simp [hm]
  have hmp : 0 < |m| := abs_pos.mpr hm
  obtain ⟨s, he, ⟨num, n, r, hI, hlt, hnn, he0, hpc, rfl⟩, hc⟩ := whileF_inv
    (cond := fun (s : BInt × BInt × BInt) => .ok (!(BInt.isZero s.2.1)))
    (body := fun s => do
            let (num, n, r) := s
            let r ← if ← BInt.isOdd n then
                (if BInt.isZero (enc m) then BInt.mul r num else do BInt.mod .lenient k (← BInt.mul r num) (enc m)) else pure r
            let num ← if BInt.isZero (enc m) then BInt.mul num num else do BInt.mod .lenient k (← BInt.mul num num) (enc m)
            let n ← BInt.divAssign .lenient k n (← BInt.ofInt 2)
            pure (num, n, r))
    (fun s => ∃ (num : ℤ) (n : ℕ) (r : ℤ), (|r| * |num| ^ n) % |m| = |b| ^ e % |m| ∧ (n = 0 → 0 < e → |r| < |m|) ∧
      (0 ≤ b → 0 ≤ r ∧ 0 ≤ num) ∧ (e = 0 → r = 1 ∧ n = 0) ∧
      powCode m num r n = powCode m b 1 e ∧ s = (enc num, enc n, enc r))
    (fun s => Nat.size (val s.2.1.chunks).toNat)
    (by
      rintro s ⟨num, n, r, hI, hlt, hnn, he0, hpc, rfl⟩
      simp only [isZero_enc]
      by_cases hn : n = 0
      · left; subst hn; simp
      · right
        refine ⟨by simp [hn], (enc (codeMod (num * num) m), enc ((n / 2 : ℕ) : ℤ),
          enc (if n % 2 = 1 then codeMod (r * num) m else r)), ?_,
          ⟨codeMod (num * num) m, n / 2, _, ?_, ?_, ?_, ?_, by rw [← hpc, powCode_pos m num r hn], rfl⟩, ?_⟩
        · simp only [isOdd_enc, Res.ok_bind, hz, Bool.false_eq_true, if_false, mul_enc,
            ofInt_small (n := 2) (by norm_num) (by norm_num),
            divAssign_two (by omega : 11 ≤ k), mod_enc (by omega : 11 ≤ k) _ hm]
          by_cases ho : n % 2 = 1
          · have : ((n : ℤ) % 2 = 1) := by omega
            simp [ho, this]
          · have : ¬ ((n : ℤ) % 2 = 1) := by omega
            simp [ho, this]
        · rw [← hI]
          have hpow : |num| ^ n = (|num| * |num|) ^ (n / 2) * |num| ^ (n % 2) := by
            rw [← pow_two, ← pow_mul, ← pow_add, Nat.div_add_mod]
          rw [hpow, cm, abs_mul]
          have h1 : ((|num| * |num|) % |m|) ^ (n / 2) ≡ (|num| * |num|) ^ (n / 2) [ZMOD |m|] :=
            (Int.mod_modEq _ _).pow _
          rcases Nat.mod_two_eq_zero_or_one n with h | h
          · rw [h]
            simp only [pow_zero, mul_one]
            rw [if_neg (by norm_num)]
            exact Int.ModEq.mul rfl h1
          · rw [h, if_pos rfl, cm, abs_mul, pow_one]
            have h2 : (|r| * |num|) % |m| ≡ |r| * |num| [ZMOD |m|] := Int.mod_modEq _ _
            have := Int.ModEq.mul h2 h1
            refine this.trans ?_
            rw [show |r| * |num| * (|num| * |num|) ^ (n / 2) = |r| * ((|num| * |num|) ^ (n / 2) * |num|) by ring]
        · intro hn2 _
          have : n % 2 = 1 := by omega
          rw [if_pos this, cm]
          exact Int.emod_lt_of_pos _ hmp
        · intro hb
          obtain ⟨h1, h2⟩ := hnn hb
          refine ⟨?_, cmn _ (mul_self_nonneg num)⟩
          split
          · exact cmn _ (mul_nonneg h1 h2)
          · exact h1
        · intro h
          exact absurd (he0 h).2 hn
        · simp only [enc_val, Nat.abs_cast, Int.toNat_natCast]
          exact size_half hn)
    k (enc b, enc e, enc 1) ⟨b, e, 1, by simp, by intro h h'; omega, fun h => ⟨by norm_num, h⟩, fun h => ⟨rfl, h⟩, rfl, rfl⟩
    (by simp only [enc_val, Nat.abs_cast, Int.toNat_natCast]; exact hr)
  simp only [isZero_enc] at hc
  have hn0 : n = 0 := by simpa using hc
  subst hn0
  refine ⟨_, _, r, he, ?_, fun h => hlt rfl h, fun hb => (hnn hb).1, fun h => (he0 h).1, by rw [← hpc, powCode_zero]⟩
  simpa using hI

/-! ## to_integer -/

theorem val_drop_succ {v : List ℤ} {i : ℕ} (h : i < v.length) : val (v.drop i) = v[i] + 10 * val (v.drop (i + 1)) := by
  rw [List.drop_eq_getElem_cons h]; rfl

theorem val_drop_le {v : List ℤ} (hd : Digs v) (i : ℕ) : 0 ≤ val (v.drop i) ∧ val (v.drop i) ≤ val v := by
  have hdd : Digs (v.drop i) := by
    rw [digs_iff_mem] at *
    intro d h
    exact hd d (List.mem_of_mem_drop h)
  have h0 := val_nonneg hdd
  refine ⟨h0, ?_⟩
  have h1 := val_append (v.take i) (v.drop i)
  rw [List.take_append_drop] at h1
  have h2 := val_nonneg (digs_take hd i)
  have h3 : (1:ℤ) ≤ 10 ^ (v.take i).length := by
    have : (0:ℤ) < 10 ^ (v.take i).length := by positivity
    omega
  nlinarith

/-- `T` is one of the built-in integer types (8, 16, 32 or 64 bits). -/
def BInt.IntTy.Std (t : BInt.IntTy) : Prop := t.bits = 8 ∨ t.bits = 16 ∨ t.bits = 32 ∨ t.bits = 64

theorem conv_fits {t : BInt.IntTy} {x : ℤ} (h : t.fits x) (ht : t.Std) : t.conv x = x := by
  unfold BInt.IntTy.fits at h
  unfold BInt.IntTy.conv
  obtain ⟨bits, signed⟩ := t
  unfold BInt.IntTy.Std at ht
  simp only at *
  cases signed <;> simp only [Bool.false_eq_true, if_false, if_true] at h ⊢ <;>
    rcases ht with rfl | rfl | rfl | rfl <;> norm_num at h ⊢ <;> omega

theorem fits_mono {t : BInt.IntTy} {x y : ℤ} (ht : t.Std) (h : t.fits x) (h0 : 0 ≤ y) (h1 : y ≤ x) : t.fits y := by
  unfold BInt.IntTy.fits at *
  obtain ⟨bits, signed⟩ := t
  unfold BInt.IntTy.Std at ht
  simp only at *
  cases signed <;> simp only [Bool.false_eq_true, if_false, if_true] at h ⊢ <;>
    rcases ht with rfl | rfl | rfl | rfl <;> norm_num at h ⊢ <;> omega

theorem arith_fits {t : BInt.IntTy} {x : ℤ} (h : t.fits x) (ht : t.Std) : t.arith x = .ok x := by
  have hc := conv_fits h ht
  unfold BInt.IntTy.arith
  by_cases hb : t.bits < 32
  · rw [if_pos hb, ck_ok]
    rw [isInt_bounds]
    unfold BInt.IntTy.fits at h
    obtain ⟨bits, signed⟩ := t
    unfold BInt.IntTy.Std at ht
    simp only at *
    cases signed <;> simp only [Bool.false_eq_true, if_false, if_true] at h <;>
      rcases ht with rfl | rfl | rfl | rfl <;> norm_num at h hb <;> norm_num [h] <;> omega
  · rw [if_neg hb]
    by_cases hs : t.signed = true
    · rw [if_pos hs, if_pos h]
    · rw [if_neg hs, hc]

/-- Evaluation of the digits as long as the absolute value fits. -/
theorem toInteger_loop {t : BInt.IntTy} (ht : t.Std) {v : List ℤ} (hd : Digs v) (hf : t.fits (val v)) :
    forDown (fun i r => do
      let p ← t.arith (r * 10)
      let s ← t.arith (p + (← vget v i))
      pure (t.conv s)) v.length 0 = .ok (val v) := by
  obtain ⟨r, e, hr⟩ := forDown_inv
    (body := fun i r => do
      let p ← t.arith (r * 10)
      let s ← t.arith (p + (← vget v i))
      pure (t.conv s))
    (fun i r => r = val (v.drop i)) v.length 0 (by simp)
    (by
      rintro i r hi rfl
      refine ⟨_, ?_, rfl⟩
      have h1 := val_drop_succ hi
      have h2 := val_drop_le hd i
      have h3 := val_drop_le hd (i + 1)
      have h4 := hd i hi
      have f1 : t.fits (val (v.drop (i + 1)) * 10) := fits_mono ht hf (by omega) (by omega)
      have f2 : t.fits (val (v.drop (i + 1)) * 10 + v[i]) := fits_mono ht hf (by omega) (by omega)
      simp only [arith_fits f1 ht, Res.ok_bind, vget_ok hi, arith_fits f2 ht, conv_fits f2 ht, Res.pure_eq]
      congr 1; omega)
  rw [e, hr]; simp

end Pyincpp
