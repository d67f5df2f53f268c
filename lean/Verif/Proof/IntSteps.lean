import Verif.Proof.IntRoot
import Mathlib.Data.Nat.Fib.Basic
import Mathlib.NumberTheory.Bertrand
import Mathlib.Analysis.Real.Sqrt

/-! # How many rounds the loops of `Int` make -/

namespace Pyincpp

/-! ## Lamé's bound for `gcd` -/

/-- A pair needs at least `n + 1` rounds only if its members are at least two successive Fibonacci numbers. -/
theorem euclid_fib : ∀ (n a b : ℕ), b < a → (a < Nat.fib (n + 3) ∨ b < Nat.fib (n + 2)) → euclid a b ≤ n
  | 0, a, b, hba, h => by
    have : b = 0 := by
      rcases h with h | h
      · have : Nat.fib (0 + 3) = 2 := rfl
        omega
      · have : Nat.fib (0 + 2) = 1 := rfl
        omega
    subst this
    rw [euclid_zero]
  | n + 1, a, b, hba, h => by
    by_cases hb : b = 0
    · subst hb; rw [euclid_zero]; omega
    · rw [euclid_pos a hb]
      have hm := Nat.mod_lt a (Nat.pos_of_ne_zero hb)
      have hle : a % b + b ≤ a := by
        have h1 := Nat.div_add_mod a b
        have h2 : 1 ≤ a / b := Nat.div_pos hba.le (Nat.pos_of_ne_zero hb)
        nlinarith
      have := euclid_fib n b (a % b) hm (by
        have hf : Nat.fib (n + 1 + 3) = Nat.fib (n + 2) + Nat.fib (n + 3) := Nat.fib_add_two
        have e1 : n + 1 + 2 = n + 3 := by omega
        rw [e1] at h
        rcases h with h | h
        · by_cases hc : b < Nat.fib (n + 3)
          · exact Or.inl hc
          · right; omega
        · exact Or.inl h)
      omega

theorem fib_pow (d : ℕ) : 10 ^ d < Nat.fib (5 * d + 2) ∨ d = 0 := by
  rcases Nat.eq_zero_or_pos d with h | h
  · exact Or.inr h
  · left
    induction d with
    | zero => omega
    | succ d ih =>
      rcases Nat.eq_zero_or_pos d with h0 | h0
      · subst h0; decide
      · have := ih h0
        have e0 : Nat.fib (5 * d + 3) = Nat.fib (5 * d + 1) + Nat.fib (5 * d + 2) := Nat.fib_add_two
        have e1 : Nat.fib (5 * d + 4) = Nat.fib (5 * d + 2) + Nat.fib (5 * d + 3) := Nat.fib_add_two
        have e2 : Nat.fib (5 * d + 5) = Nat.fib (5 * d + 3) + Nat.fib (5 * d + 4) := Nat.fib_add_two
        have e3 : Nat.fib (5 * d + 6) = Nat.fib (5 * d + 4) + Nat.fib (5 * d + 5) := Nat.fib_add_two
        have e4 : Nat.fib (5 * d + 7) = Nat.fib (5 * d + 5) + Nat.fib (5 * d + 6) := Nat.fib_add_two
        have e5 : Nat.fib (5 * d + 2) = Nat.fib (5 * d) + Nat.fib (5 * d + 1) := Nat.fib_add_two
        have hmono : Nat.fib (5 * d) ≤ Nat.fib (5 * d + 1) := Nat.fib_mono (by omega)
        rw [show 5 * (d + 1) + 2 = 5 * d + 7 by ring, pow_succ]
        omega

/-- Lamé: at most five rounds for each decimal digit of the second argument. -/
theorem euclid_lame (a b d : ℕ) (h : b < 10 ^ d) : euclid a b ≤ 5 * d := by
  by_cases hb : b = 0
  · subst hb; rw [euclid_zero]; omega
  · have hd : d ≠ 0 := by rintro rfl; simp at h; exact hb h
    rw [euclid_pos a hb]
    have hm := Nat.mod_lt a (Nat.pos_of_ne_zero hb)
    have hf := (fib_pow d).resolve_right hd
    obtain ⟨n, hn⟩ : ∃ n, 5 * d = n + 1 := ⟨5 * d - 1, by omega⟩
    rw [hn] at hf ⊢
    have := euclid_fib n b (a % b) hm (Or.inl (by
      rw [show n + 3 = n + 1 + 2 by omega]; omega))
    omega

/-- Two successive Fibonacci numbers take as many rounds as the bound allows. -/
theorem euclid_of_fib : ∀ n, euclid (Nat.fib (n + 3)) (Nat.fib (n + 2)) = n + 1
  | 0 => by rw [euclid_pos _ (by decide)]; simp [euclid_zero, Nat.fib_add_two]
  | n + 1 => by
    have hp : Nat.fib (n + 3) ≠ 0 := (Nat.fib_pos.mpr (by omega)).ne'
    rw [show n + 1 + 3 = n + 4 by omega, show n + 1 + 2 = n + 3 by omega, euclid_pos _ hp]
    have e : Nat.fib (n + 4) = Nat.fib (n + 2) + Nat.fib (n + 3) := Nat.fib_add_two
    have e3 : Nat.fib (n + 3) = Nat.fib (n + 1) + Nat.fib (n + 2) := Nat.fib_add_two
    have h1 : 0 < Nat.fib (n + 1) := Nat.fib_pos.mpr (by omega)
    rw [e, Nat.add_mod_right, Nat.mod_eq_of_lt (by omega), euclid_of_fib n]

/-! ## A loop that has not enough fuel -/

theorem whileF_short {σ : Type} {cond : σ → Res Bool} {body : σ → Res σ} (Inv : σ → Prop) (μ : σ → Nat)
    (hstep : ∀ s, Inv s → 0 < μ s → cond s = .ok true ∧ ∃ s', body s = .ok s' ∧ Inv s' ∧ μ s ≤ μ s' + 1) :
    ∀ (k : Nat) (s : σ), Inv s → k ≤ μ s → whileF cond body k s = .fuel
  | 0, _, _, _ => rfl
  | k + 1, s, h, hk => by
    obtain ⟨hc, s', e, h', hμ⟩ := hstep s h (by omega)
    simp [whileF, hc, e, whileF_short Inv μ hstep k s' h' (by omega)]

theorem gcd_short {k : ℕ} {a b : ℤ} (hk : 11 ≤ k) (hr : k ≤ euclid a.natAbs b.natAbs) :
    BInt.gcd .lenient k (enc a) (enc b) = .fuel := by
  unfold BInt.gcd
  rw [ofInt_small (by norm_num) (by norm_num)]
  simp only [Res.ok_bind, abs_enc]
  rw [whileF_short
    (cond := fun (s : BInt × BInt) => Res.ok (!(BInt.eq s.2 (enc 0))))
    (body := fun s => do
      let r ← BInt.mod .lenient k s.1 s.2
      pure (s.2, r))
    (fun s => ∃ (x y : ℕ), s = (enc x, enc y))
    (fun s => euclid (val s.1.chunks).toNat (val s.2.chunks).toNat)
    (by
      rintro s ⟨x, y, rfl⟩ hpos
      simp only [enc_val, Nat.abs_cast, Int.toNat_natCast] at hpos
      have hy : y ≠ 0 := by rintro rfl; rw [euclid_zero] at hpos; omega
      simp only [eq_enc_iff]
      refine ⟨by simp [hy], (enc (y : ℤ), enc ((x % y : ℕ) : ℤ)), ?_, ⟨y, x % y, rfl⟩, ?_⟩
      · rw [mod_enc (by omega) _ (by exact_mod_cast hy), codeMod_of_pos (by omega)]
        simp
      · simp only [enc_val, Nat.abs_cast, Int.toNat_natCast]
        rw [euclid_pos x hy])
    k (enc |a|, enc |b|) ⟨a.natAbs, b.natAbs, by simp⟩
    (by simp only [enc_val, Int.abs_eq_natAbs, Int.toNat_natCast]; exact hr)]
  rfl

/-! ## Newton's method -/

section
variable {n : ℕ}

/-- `x` exceeds the root of `n` by at most `2·√n / 2^(2^i)`. -/
def Near (n i x : ℕ) : Prop := (x : ℝ) - √(n : ℝ) ≤ 2 * √(n : ℝ) / 2 ^ (2 ^ i)

theorem newton_le_real (x : ℕ) : (newton n x : ℝ) ≤ ((x : ℝ) + n / x) / 2 := by
  unfold newton
  have h1 : (((x + n / x) / 2 : ℕ) : ℝ) ≤ ((x + n / x : ℕ) : ℝ) / 2 := by
    have := @Nat.cast_div_le ℝ _ _ _ (x + n / x) 2
    simpa using this
  have h2 : ((n / x : ℕ) : ℝ) ≤ (n : ℝ) / x := Nat.cast_div_le
  refine h1.trans ?_
  push_cast
  linarith

theorem near_step (hn : 0 < n) (hg : ¬ BadSqrt n) {i x : ℕ} (hx : Nat.sqrt n ≤ x) (h : Near n i x) :
    Near n (i + 1) (newton n x) := by
  have hs0 : 0 < Nat.sqrt n := Nat.sqrt_pos.mpr hn
  have hx0 : 0 < x := by omega
  have hn' : (0:ℝ) < n := by exact_mod_cast hn
  set s := √(n : ℝ) with hs
  have hsp : 0 < s := Real.sqrt_pos.mpr hn'
  have hss : s * s = n := Real.mul_self_sqrt hn'.le
  have hxr : (0:ℝ) < x := by exact_mod_cast hx0
  unfold Near at h ⊢
  rw [← hs] at h ⊢
  rcases lt_or_ge (x : ℝ) s with hlt | hge
  · have hxs : x = Nat.sqrt n := by
      refine le_antisymm ?_ hx
      rw [Nat.le_sqrt]
      have : (x : ℝ) * x ≤ n := by rw [← hss]; nlinarith
      exact_mod_cast this
    have e := newton_sqrt_of_good hn hg
    rw [← hxs] at e
    rw [e]
    have : 0 ≤ 2 * s / 2 ^ (2 ^ (i + 1)) := by positivity
    linarith
  · have h1 := newton_le_real (n := n) x
    have h2 : ((x : ℝ) + n / x) / 2 - s = (x - s) ^ 2 / (2 * x) := by
      field_simp
      rw [← hss]; ring
    have h3 : (x - s) ^ 2 / (2 * x) ≤ (x - s) ^ 2 / (2 * s) :=
      div_le_div_of_nonneg_left (sq_nonneg _) (by linarith) (by linarith)
    have h4 : ((x : ℝ) - s) ^ 2 ≤ (2 * s / 2 ^ (2 ^ i)) ^ 2 := pow_le_pow_left₀ (by linarith) h 2
    have h5 : (2 * s / 2 ^ (2 ^ i)) ^ 2 / (2 * s) = 2 * s / 2 ^ (2 ^ (i + 1)) := by
      have e : (2:ℝ) ^ (2 ^ (i + 1)) = 2 ^ (2 ^ i) * 2 ^ (2 ^ i) := by
        rw [← pow_add, pow_succ]; congr 1; omega
      rw [e]
      field_simp
    have h6 : (x - s) ^ 2 / (2 * s) ≤ (2 * s / 2 ^ (2 ^ i)) ^ 2 / (2 * s) :=
      div_le_div_of_nonneg_right h4 (by linarith)
    linarith

theorem near_start (hn : 0 < n) {x : ℕ} (hx : 0 < x) (h1 : n ≤ 10 * (x * x)) (h2 : x * x ≤ 10 * n) :
    Near n 0 (newton n x) := by
  have hn' : (0:ℝ) < n := by exact_mod_cast hn
  have hxr : (0:ℝ) < x := by exact_mod_cast hx
  unfold Near
  set s := √(n : ℝ) with hs
  have hsp : 0 < s := Real.sqrt_pos.mpr hn'
  have hss : s * s = n := Real.mul_self_sqrt hn'.le
  have h1' : s * s ≤ 10 * ((x : ℝ) * x) := by rw [hss]; exact_mod_cast h1
  have h2' : (x : ℝ) * x ≤ 10 * (s * s) := by rw [hss]; exact_mod_cast h2
  have h3 := newton_le_real (n := n) x
  have a1 : s ≤ 3.5 * x := by nlinarith
  have a2 : x ≤ 3.5 * s := by nlinarith
  have h4 : ((x : ℝ) + n / x) / 2 ≤ 2 * s := by
    rw [div_le_iff₀ (by norm_num), ← hss, ← sub_nonneg]
    have : 2 * s * 2 - (x + s * s / x) = (4 * s * x - x * x - s * s) / x := by
      field_simp
      ring
    rw [this]
    apply div_nonneg _ hxr.le
    nlinarith [mul_nonneg (sub_nonneg.mpr a1) (sub_nonneg.mpr a2)]
  simp only [pow_zero, pow_one]
  linarith

theorem near_end (hn : 0 < n) {i x : ℕ} (h : Near n i x) (hi : 4 * n < 2 ^ (2 ^ (i + 1))) : x ≤ Nat.sqrt n + 1 := by
  have hn' : (0:ℝ) < n := by exact_mod_cast hn
  unfold Near at h
  set s := √(n : ℝ) with hs
  have hsp : 0 < s := Real.sqrt_pos.mpr hn'
  have hss : s * s = n := Real.mul_self_sqrt hn'.le
  have hpow : (0:ℝ) < 2 ^ (2 ^ i) := by positivity
  have h1 : 2 * s < 2 ^ (2 ^ i) := by
    have e : (2:ℝ) ^ (2 ^ (i + 1)) = 2 ^ (2 ^ i) * 2 ^ (2 ^ i) := by
      rw [← pow_add, pow_succ]; congr 1; omega
    have : (4:ℝ) * n < 2 ^ (2 ^ (i + 1)) := by exact_mod_cast hi
    rw [e, ← hss] at this
    nlinarith
  have h2 : 2 * s / 2 ^ (2 ^ i) < 1 := by rw [div_lt_one hpow]; exact h1
  have h3 : (x : ℝ) < s + 1 := by linarith
  by_contra hc
  obtain ⟨y, rfl⟩ : ∃ y, x = y + 1 := ⟨x - 1, by omega⟩
  have h4 : Nat.sqrt n < y := by omega
  have h5 : n < y * y := Nat.sqrt_lt.mp h4
  have h6 : (n : ℝ) < y * y := by exact_mod_cast h5
  push_cast at h3
  have h7 : (y : ℝ) < s := by linarith
  have : (0:ℝ) ≤ y := Nat.cast_nonneg _
  nlinarith

theorem whileF_step {σ : Type} {cond : σ → Res Bool} {body : σ → Res σ} {s s' : σ} (hc : cond s = .ok true)
    (hb : body s = .ok s') (m : ℕ) : whileF cond body (m + 1) s = whileF cond body m s' := by
  simp [whileF, hc, hb]

theorem whileF_stop {σ : Type} {cond : σ → Res Bool} {body : σ → Res σ} {s : σ} (hc : cond s = .ok false) (m : ℕ) :
    whileF cond body (m + 1) s = .ok s := by
  simp [whileF, hc]

/-- From `Near n i x` on, `j` more rounds reach `√n + 1` and two further rounds end the loop. -/
theorem sqrt_loop_near (hn : 4 ≤ n) (hg : ¬ BadSqrt n) {k : ℕ} (hk : 11 ≤ k) :
    ∀ (j i x p m : ℕ), x = newton n p → 0 < p → Near n i x → 4 * n < 2 ^ (2 ^ (i + j + 1)) → j + 3 ≤ m →
    ∃ q, whileF sqrtCond (sqrtBody k n) m (enc x, enc p) = .ok (enc (Nat.sqrt n), q)
  | 0, i, x, p, m, hx, hp, hnear, hi, hm => by
    have hs0 : 0 < Nat.sqrt n := Nat.sqrt_pos.mpr (by omega)
    have hge : Nat.sqrt n ≤ x := by rw [hx]; exact newton_ge_sqrt hp
    have hle := near_end (by omega) hnear hi
    have hfix := newton_sqrt_of_good (by omega) hg
    obtain ⟨m, rfl⟩ : ∃ j, m = j + 3 := ⟨m - 3, by omega⟩
    have stop : ∀ y : ℕ, sqrtCond (enc (y : ℤ), enc (y : ℤ)) = .ok false := fun y => by rw [sqrtCond_enc]; simp
    have go : ∀ y z : ℕ, y ≠ z → sqrtCond (enc (y : ℤ), enc (z : ℤ)) = .ok true := fun y z h => by
      rw [sqrtCond_enc]; simp [h]
    have fin : ∀ y : ℕ, y = Nat.sqrt n → ∀ q m, ∃ r, whileF sqrtCond (sqrtBody k n) (m + 2) (enc (y : ℤ), enc (q : ℕ)) =
        .ok (enc (Nat.sqrt n), r) := by
      rintro y rfl q m
      by_cases hE : Nat.sqrt n = q
      · rw [← hE, whileF_stop (stop _)]; exact ⟨_, rfl⟩
      · rw [whileF_step (go _ _ hE) (sqrtBody_enc hk hs0 _), hfix, whileF_stop (stop _)]
        exact ⟨_, rfl⟩
    rcases Nat.lt_or_ge (Nat.sqrt n) x with hlt | hle'
    · by_cases hE : x = p
      · exfalso
        have := newton_fixed hp (by rw [← hx, hE])
        omega
      · rw [whileF_step (go _ _ hE) (sqrtBody_enc hk (by omega) _)]
        have h1 := newton_lt hlt
        have h2 := newton_ge_sqrt (n := n) (x := x) (by omega)
        exact fin _ (by omega) _ m
    · exact fin _ (by omega) _ (m + 1)
  | j + 1, i, x, p, m, hx, hp, hnear, hi, hm => by
    obtain ⟨m, rfl⟩ : ∃ j, m = j + 1 := ⟨m - 1, by omega⟩
    have hs0 : 0 < Nat.sqrt n := Nat.sqrt_pos.mpr (by omega)
    have hge : Nat.sqrt n ≤ x := by rw [hx]; exact newton_ge_sqrt hp
    by_cases hE : x = p
    · rw [whileF_stop (by rw [sqrtCond_enc]; simp [hE])]
      have := newton_fixed hp (by rw [← hx, hE])
      exact ⟨_, by rw [hE, this]⟩
    · rw [whileF_step (by rw [sqrtCond_enc]; simp [hE]) (sqrtBody_enc hk (by omega) _)]
      exact sqrt_loop_near hn hg hk j (i + 1) _ x m rfl (by omega) (near_step (by omega) hg hge hnear)
        (by rw [show i + 1 + j + 1 = i + (j + 1) + 1 by omega]; exact hi) (by omega)

/-- The start value is within a factor `√10` of the root. -/
theorem sqrtStart_near (hn : 0 < n) : n ≤ 10 * (sqrtStart n * sqrtStart n) ∧ sqrtStart n * sqrtStart n ≤ 10 * n := by
  have hl : (enc (n : ℤ)).chunks.length = Nat.log 10 n + 1 := by
    simp only [enc, List.length_map, Int.natAbs_natCast]
    rw [Nat.length_digits 10 n (by norm_num) (by omega)]
  unfold sqrtStart
  rw [hl]
  have h1 : 10 ^ Nat.log 10 n ≤ n := Nat.pow_log_le_self 10 (by omega)
  have h2 : n < 10 ^ (Nat.log 10 n + 1) := Nat.lt_pow_succ_log_self (by norm_num) n
  generalize Nat.log 10 n = l at *
  rw [← pow_add]
  rcases Nat.even_or_odd' l with ⟨t, rfl | rfl⟩
  · rw [show (2 * t + 1) / 2 + (2 * t + 1) / 2 = 2 * t by omega]
    rw [pow_succ] at h2
    omega
  · rw [show (2 * t + 1 + 1) / 2 + (2 * t + 1 + 1) / 2 = 2 * t + 1 + 1 by omega]
    rw [pow_succ 10 (2 * t + 1)] at h2 ⊢
    omega

theorem ten_pow_bound (l : ℕ) : 4 * 10 ^ l < 2 ^ (2 ^ (Nat.log 2 l + 2 + 1)) := by
  have h1 : l < 2 ^ (Nat.log 2 l + 1) := Nat.lt_pow_succ_log_self (by norm_num) l
  have h2 : 4 * l + 4 ≤ 2 ^ (Nat.log 2 l + 2 + 1) := by
    rw [show Nat.log 2 l + 2 + 1 = Nat.log 2 l + 1 + 2 by omega, pow_add]
    omega
  have h3 : 2 ^ (4 * l + 4) ≤ 2 ^ (2 ^ (Nat.log 2 l + 2 + 1)) := Nat.pow_le_pow_right (by norm_num) h2
  have h4 : 4 * 10 ^ l < 2 ^ (4 * l + 4) := by
    rw [pow_add, pow_mul]
    have : 10 ^ l ≤ (2 ^ 4) ^ l := Nat.pow_le_pow_left (by norm_num) l
    have : 0 < 10 ^ l := by positivity
    omega
  omega

/-- `sqrt` of a number of `l` digits tests its loop condition at most `log2 l + 6` times. -/
theorem sqrt_sharp (hn : 4 ≤ n) (hg : ¬ BadSqrt n) {k : ℕ} (hk : 11 ≤ k)
    (hr : Nat.log 2 (enc (n : ℤ)).chunks.length + 6 ≤ k) : BInt.sqrt .lenient k (enc n) = .ok (enc (Nat.sqrt n)) := by
  rw [sqrt_unfold hn]
  have hc := sqrtStart_pos n
  obtain ⟨h1, h2⟩ := sqrtStart_near (n := n) (by omega)
  have hs := near_start (by omega) hc h1 h2
  have hl : (enc (n : ℤ)).chunks.length = Nat.log 10 n + 1 := by
    simp only [enc, List.length_map, Int.natAbs_natCast]
    rw [Nat.length_digits 10 n (by norm_num) (by omega)]
  have hb := ten_pow_bound (enc (n : ℤ)).chunks.length
  have hlt : n < 10 ^ (enc (n : ℤ)).chunks.length := by rw [hl]; exact Nat.lt_pow_succ_log_self (by norm_num) n
  obtain ⟨m, rfl⟩ : ∃ j, k = j + 1 := ⟨k - 1, by omega⟩
  obtain ⟨q, e⟩ := sqrt_loop_near hn hg hk (Nat.log 2 (enc (n : ℤ)).chunks.length + 2) 0 _ (sqrtStart n) m rfl hc hs
    (by rw [Nat.zero_add]; exact lt_of_le_of_lt (by omega) hb) (by omega)
  have hc0 : sqrtCond (enc (sqrtStart n : ℤ), enc ((0:ℕ) : ℤ)) = .ok true := by
    rw [sqrtCond_enc]; simp; omega
  rw [show enc (0:ℤ) = enc ((0:ℕ):ℤ) by rfl, whileF_step hc0 (sqrtBody_enc hk hc _), e]
  rfl

end

/-! ## Bertrand's postulate for `next_prime` -/

theorem nextPrime_bertrand {k : ℕ} {z : ℤ} {P : ℕ} (hP : P.Prime) (hlt : z < P)
    (hmin : ∀ q : ℕ, z < q → q < P → ¬ q.Prime) (hk : 11 ≤ k) (hr : z < 2 * k) :
    BInt.nextPrime .lenient k (enc z) = .ok (enc P) := by
  by_cases hz : z ≤ 0
  · have : P = 2 := by
      by_contra hne
      have := hP.two_le
      exact hmin 2 (by omega) (by omega) Nat.prime_two
    subst this
    exact nextPrime_sharp hP hlt hmin hk (by have : Nat.sqrt 2 ≤ 2 := Nat.sqrt_le_self 2; omega) (by omega)
  · obtain ⟨p, hp, h1, h2⟩ := Nat.exists_prime_lt_and_le_two_mul z.toNat (by omega)
    have hle : P ≤ p := by
      by_contra hc
      exact hmin p (by omega) (by omega) hp
    refine nextPrime_sharp hP hlt hmin hk ?_ (by omega)
    have : Nat.sqrt P < k + 1 := by
      rw [Nat.sqrt_lt]
      have : P < 4 * k := by omega
      nlinarith
    omega

end Pyincpp
