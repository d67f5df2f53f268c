import Verif.Proof.DoubleText
import Verif.Proof.ComplexRounding
import Verif.Props.ComplexStream

/-! # C76: the printed text of a number -/

namespace Pyincpp
open Dbl

/-- The number that the text of a finite `double` denotes. -/
def Dbl.shown (q : ℚ) : ℚ := if q = 0 then 0 else if q < 0 then -round6 (-q) else round6 q

theorem shown_neg (q : ℚ) : shown (-q) = -shown q := by
  unfold shown
  rcases lt_trichotomy q 0 with h | rfl | h
  · rw [if_neg (by linarith), if_neg (by linarith), if_neg h.ne, if_pos h, neg_neg]
  · simp
  · rw [if_neg (by linarith), if_pos (by linarith), if_neg h.ne', if_neg (by linarith), neg_neg]

theorem shown_pos {q : ℚ} (h : 0 < q) : shown q = round6 q := by
  unfold shown
  rw [if_neg h.ne', if_neg (by linarith)]

theorem sig6_neg {d : ℚ} (h : Sig6 d) : Sig6 (-d) := by
  obtain ⟨m, e, hm, rfl⟩ := h
  exact ⟨-m, e, by rwa [abs_neg], by push_cast; ring⟩

theorem sig6_zero : Sig6 0 := ⟨0, 0, by norm_num, by norm_num⟩

theorem nearest6_neg {q d : ℚ} (h : Nearest6 q d) : Nearest6 (-q) (-d) := by
  refine ⟨sig6_neg h.1, fun p hp => ?_⟩
  have := h.2 (-p) (sig6_neg hp)
  rwa [show -d - -q = -(d - q) by ring, abs_neg, ← abs_neg (p - -q), show -(p - -q) = -p - q by ring]

theorem shown_nearest (q : ℚ) : Nearest6 q (shown q) := by
  have pos : ∀ q : ℚ, 0 < q → Nearest6 q (shown q) := fun q h => by rw [shown_pos h]; exact round6_nearest h
  rcases lt_trichotomy q 0 with h | rfl | h
  · have := nearest6_neg (pos (-q) (by linarith))
    rwa [shown_neg, neg_neg, neg_neg] at this
  · refine ⟨by simpa [shown] using sig6_zero, fun p _ => ?_⟩
    simp [shown]
  · exact pos q h

theorem shown_err (q : ℚ) : |shown q - q| ≤ |q| / 200000 := by
  have pos : ∀ q : ℚ, 0 < q → |shown q - q| ≤ |q| / 200000 := fun q h => by
    rw [shown_pos h, abs_of_pos h]; exact round6_err h
  rcases lt_trichotomy q 0 with h | rfl | h
  · have := pos (-q) (by linarith)
    rwa [shown_neg, abs_neg, show -shown q - -q = -(shown q - q) by ring, abs_neg] at this
  · simp [shown]
  · exact pos q h

theorem text_fin (q : ℚ) : text (.fin q) = if q = 0 then [48] else if q < 0 then 45 :: textPos (-q) else textPos q := rfl

theorem text_unsigned {q : ℚ} (h : 0 ≤ q) : CxUnsigned (text (.fin q)) (shown q) := by
  rcases h.eq_or_lt with rfl | h
  · have : CxUnsigned [48] ((denoteNat [48] : ℕ) : ℚ) :=
      .plain _ _ (.int [48] (by simp) (by intro c hc; rw [List.mem_singleton] at hc; subst hc; decide))
    simpa [text, shown, denoteNat] using this
  · rw [text_fin, if_neg h.ne', if_neg (by linarith), shown_pos h]
    exact textPos_unsigned h

theorem text_decimal (q : ℚ) : CxDecimal (text (.fin q)) (shown q) := by
  rcases lt_or_ge q 0 with h | h
  · have := CxDecimal.minus _ _ (text_unsigned (q := -q) (by linarith))
    rw [shown_neg, neg_neg] at this
    have e : text (.fin q) = 45 :: text (.fin (-q)) := by
      rw [text_fin, text_fin, if_neg h.ne, if_pos h, if_neg (by linarith), if_neg (by linarith)]
    rw [e]; exact this
  · exact .plain _ _ (text_unsigned h)

/-- C76: the text of a number denotes a nearest decimal number with six significant digits; it is off by at most 5 units of
the seventh digit. -/
theorem C76_text (q : ℚ) : ∃ d, CxDecimal (text (.fin q)) d ∧ Nearest6 q d ∧ |d - q| ≤ |q| / 200000 :=
  ⟨shown q, text_decimal q, shown_nearest q, shown_err q⟩

theorem sixDigits_no_e (m : ℕ) : (101 : UInt8) ∉ sixDigits m := fun h => absurd (sixDigits_digit m _ h) (by decide)

theorem withPoint_no_e {ip l : List UInt8} (h1 : ∀ c ∈ ip, IsDigit c) (h2 : ∀ c ∈ l, IsDigit c) :
    (101 : UInt8) ∉ withPoint ip (stripZeros l) := by
  unfold withPoint
  intro h
  rw [List.mem_append] at h
  rcases h with h | h
  · exact absurd (h1 _ h) (by decide)
  · split at h
    · exact absurd h List.not_mem_nil
    · rw [List.mem_cons] at h
      rcases h with h | h
      · exact absurd h (by decide)
      · exact absurd (stripZeros_digit h2 _ h) (by decide)

theorem textPos_notation {q : ℚ} (hq : 0 < q) : 101 ∈ textPos q ↔ round6 q < 1 / 10000 ∨ 1000000 ≤ round6 q := by
  obtain ⟨hl, hm, -⟩ := significant_spec hq
  unfold textPos round6
  generalize significant q = p at *
  obtain ⟨m, e⟩ := p
  simp only at hl hm ⊢
  have hd := sixDigits_digit m
  have hl' : (100000 : ℚ) ≤ m := by exact_mod_cast hl
  have hm' : (m : ℚ) < 1000000 := by exact_mod_cast hm
  have hp : (0 : ℚ) < 10 ^ (e - 5) := zpow_pos (by norm_num) _
  have lo : (10 : ℚ) ^ e ≤ m * 10 ^ (e - 5) := by
    rw [show (10 : ℚ) ^ e = 100000 * 10 ^ (e - 5) by
      rw [show (100000 : ℚ) = 10 ^ (5 : ℤ) by norm_num, ← zpow_add₀ (by norm_num)]; congr 1; ring]
    exact mul_le_mul_of_nonneg_right hl' hp.le
  have hi : (m : ℚ) * 10 ^ (e - 5) < 10 ^ (e + 1) := by
    rw [show (10 : ℚ) ^ (e + 1) = 1000000 * 10 ^ (e - 5) by
      rw [show (1000000 : ℚ) = 10 ^ (6 : ℤ) by norm_num, ← zpow_add₀ (by norm_num)]; congr 1; ring]
    exact mul_lt_mul_of_pos_right hm' hp
  have k1 : (1 / 10000 : ℚ) = 10 ^ (-4 : ℤ) := by norm_num
  have k2 : (1000000 : ℚ) = 10 ^ (6 : ℤ) := by norm_num
  split
  · next he =>
    refine iff_of_false ?_ ?_
    · split
      · exact withPoint_no_e (fun c hc => hd c (List.mem_of_mem_take hc)) (fun c hc => hd c (List.mem_of_mem_drop hc))
      · refine withPoint_no_e (by intro c hc; rw [List.mem_singleton] at hc; subst hc; decide) ?_
        intro c hc
        rw [List.mem_append] at hc
        rcases hc with hc | hc
        · rw [List.eq_of_mem_replicate hc]; decide
        · exact hd c hc
    · rw [not_or, not_lt, not_le, k1, k2]
      exact ⟨le_trans (zpow_le_zpow_right₀ (by norm_num) he.1) lo,
        hi.trans_le (zpow_le_zpow_right₀ (by norm_num) (by omega))⟩
  · next he =>
    refine iff_of_true (by simp) ?_
    rw [k1, k2]
    by_cases h : e < -4
    · exact .inl (hi.trans_le (zpow_le_zpow_right₀ (by norm_num) (by omega)))
    · exact .inr (le_trans (zpow_le_zpow_right₀ (by norm_num) (by omega)) lo)

/-- C76: the text has an exponent exactly when the printed number is not zero and below 0.0001 or from a million on. -/
theorem C76_notation (q : ℚ) : ∃ d, CxDecimal (text (.fin q)) d ∧ Nearest6 q d ∧
    (101 ∈ text (.fin q) ↔ q ≠ 0 ∧ (|d| < 1 / 10000 ∨ 1000000 ≤ |d|)) := by
  refine ⟨shown q, text_decimal q, shown_nearest q, ?_⟩
  have pos : ∀ q : ℚ, 0 < q → 0 ≤ round6 q := fun q h => by
    unfold round6
    exact mul_nonneg (Nat.cast_nonneg _) (zpow_nonneg (by norm_num) _)
  rw [text_fin]
  rcases lt_trichotomy q 0 with h | rfl | h
  · have h' : 0 < -q := by linarith
    have e : |shown q| = round6 (-q) := by
      rw [← neg_neg q, shown_neg, neg_neg, shown_pos h', abs_neg, abs_of_nonneg (pos _ h')]
    rw [if_neg h.ne, if_pos h, e, List.mem_cons, textPos_notation h']
    simp [h.ne]
  · simp
  · rw [if_neg h.ne', if_neg (by linarith), shown_pos h, abs_of_nonneg (pos _ h), textPos_notation h]
    simp [h.ne']

example : 101 ∈ text (.fin 999999.5) ∧ 101 ∉ text (.fin 999999) ∧ 101 ∉ text (.fin (1 / 10000)) ∧
    101 ∈ text (.fin (1 / 100000)) := ⟨by decide +kernel, by decide +kernel, by decide +kernel, by decide +kernel⟩

/-- C76: a number with at most six significant digits is printed exactly. -/
theorem C76_exact (q : ℚ) (h : Sig6 q) : CxDecimal (text (.fin q)) q := by
  have := (shown_nearest q).2 q h
  rw [sub_self, abs_zero] at this
  have e : shown q = q := by
    have := abs_nonpos_iff.1 this
    linarith
  have := text_decimal q
  rwa [e] at this

example : text (.fin (1 / 8)) = [48, 46, 49, 50, 53] ∧ Sig6 (1 / 8) ∧
    text (.fin (-1234567)) = [45, 49, 46, 50, 51, 52, 53, 55, 101, 43, 48, 54] ∧
    text (.fin (1 / 3)) = [48, 46, 51, 51, 51, 51, 51, 51] :=
  ⟨by decide +kernel, ⟨125, -3, by norm_num, by norm_num⟩, by decide +kernel, by decide +kernel⟩

/-- C76: printing keeps the order. -/
theorem C76_order (p q dp dq : ℚ) (h : p < q) (hp : Nearest6 p dp) (hq : Nearest6 q dq) : dp ≤ dq := by
  by_contra hc
  push Not at hc
  have h1 := hp.2 dq hq.1
  have h2 := hq.2 dp hp.1
  have a1 : dp - p ≤ |dq - p| := (le_abs_self _).trans h1
  have a2 : -(dq - q) ≤ |dp - q| := (neg_le_abs _).trans h2
  have a3 : -(dp - p) ≤ |dq - p| := (neg_le_abs _).trans h1
  have a4 : dq - q ≤ |dp - q| := (le_abs_self _).trans h2
  rcases le_total 0 (dq - p) with c1 | c1 <;> rcases le_total 0 (dp - q) with c2 | c2
  · rw [abs_of_nonneg c1] at a1 a3
    linarith
  · rw [abs_of_nonneg c1] at a1 a3
    linarith
  · rw [abs_of_nonpos c1] at a1 a3
    rw [abs_of_nonneg c2] at a2 a4
    linarith
  · rw [abs_of_nonpos c1] at a1 a3
    rw [abs_of_nonpos c2] at a2 a4
    linarith

/-- The sign printed before the imaginary part. -/
def imagSign (b : ℚ) : UInt8 := if Dbl.lt (.fin b) (.fin 0) then 45 else 43

theorem complex_text (b : ℚ) : (imagSign b = 43 ∨ imagSign b = 45) ∧ CxDecimal (imagSign b :: text (.fin |b|)) (shown b) := by
  unfold imagSign
  constructor
  · split
    · exact .inr rfl
    · exact .inl rfl
  · have hlt : Dbl.lt (.fin b) (.fin 0) = decide (b < 0) := rfl
    rw [hlt]
    by_cases h : b < 0
    · rw [decide_eq_true h, abs_of_neg h]
      have := CxDecimal.minus _ _ (text_unsigned (q := -b) (by linarith))
      rwa [shown_neg, neg_neg] at this
    · rw [decide_eq_false h, abs_of_nonneg (not_lt.1 h)]
      exact .plus _ _ (text_unsigned (not_lt.1 h))

/-- C76: `operator<<` of a complex number prints, between parentheses and before a `j`, a text for the real part and a signed
text for the imaginary part, each denoting a nearest decimal number with six significant digits. -/
theorem C76_complex (a b : ℚ) : ∃ t s t' d d', Cx.print text ⟨.fin a, .fin b⟩ = 40 :: (t ++ s :: (t' ++ [106, 41])) ∧
    (s = 43 ∨ s = 45) ∧ CxDecimal t d ∧ Nearest6 a d ∧ CxDecimal (s :: t') d' ∧ Nearest6 b d' := by
  obtain ⟨h1, h2⟩ := complex_text b
  exact ⟨text (.fin a), imagSign b, text (.fin |b|), shown a, shown b, C62_print _ _, h1, text_decimal a, shown_nearest a, h2,
    shown_nearest b⟩

/-! ## Reading the text back -/

theorem round6_lt {q : ℚ} (hq : 0 < q) (hm : q < 2 ^ 1024) : round6 q < 2 ^ 1024 - 2 ^ 970 := by
  obtain ⟨h1, h2, h3⟩ := significant_spec hq
  set e := Int.log 10 q with he
  have hlow : (10 : ℚ) ^ e ≤ q := by
    have := Int.zpow_log_le_self (b := 10) (by norm_num) hq
    exact_mod_cast this
  have hS : (0 : ℚ) < 10 ^ (e - 5) := zpow_pos (by norm_num) _
  have c1 : (2 ^ 1024 : ℚ) < (359539 / 2) * 10 ^ 303 := by decide +kernel
  have c2 : (1797690 : ℚ) * 10 ^ 302 < 2 ^ 1024 - 2 ^ 970 := by decide +kernel
  have c3 : (1000000 : ℚ) * 10 ^ 302 < 2 ^ 1024 - 2 ^ 970 := by decide +kernel
  have c4 : (359539 / 2 : ℚ) * 10 ^ 303 < 10 ^ 309 := by decide +kernel
  have hlt : (10 : ℚ) ^ e < 10 ^ (309 : ℤ) := by
    have : (10 : ℚ) ^ (309 : ℤ) = 10 ^ 309 := zpow_natCast (10 : ℚ) 309
    rw [this]
    exact lt_of_le_of_lt hlow (hm.trans (c1.trans c4))
  have he309 : e < 309 := (zpow_lt_zpow_iff_right₀ (by norm_num)).1 hlt
  by_cases h308 : e = 308
  · rw [h3, h308]
    have e303 : (10 : ℚ) ^ ((308 : ℤ) - 5) = 10 ^ 303 := zpow_natCast (10 : ℚ) 303
    rw [e303]
    have hr : roundEven (q / 10 ^ 303) < 179770 := by
      apply roundEven_lt
      have hx := hm.trans c1
      have hp : (0 : ℚ) < 10 ^ 303 := by positivity
      generalize (10 : ℚ) ^ 303 = T at hx hp
      rw [div_lt_iff₀ hp]
      push_cast
      linarith
    have hr' : (roundEven (q / 10 ^ 303) : ℚ) ≤ 179769 := by
      have : roundEven (q / 10 ^ 303) ≤ 179769 := by omega
      exact_mod_cast this
    have hp : (0 : ℚ) ≤ 10 ^ 303 := by positivity
    refine lt_of_le_of_lt (mul_le_mul_of_nonneg_right hr' hp) (lt_of_eq_of_lt ?_ c2)
    rw [pow_succ (10 : ℚ) 302]
    ring
  · have hhi : q < (10 : ℚ) ^ (e + 1) := by
      have := Int.lt_zpow_succ_log_self (b := 10) (by norm_num) q
      exact_mod_cast this
    have hr : roundEven (q / (10 : ℚ) ^ (e - 5)) ≤ 1000000 := by
      apply roundEven_le
      push_cast
      rw [div_le_iff₀ hS]
      refine hhi.le.trans (le_of_eq ?_)
      rw [show e + 1 = (e - 5) + 6 by ring, zpow_add₀ (by norm_num)]
      norm_num
      ring
    have hr' : (roundEven (q / (10 : ℚ) ^ (e - 5)) : ℚ) ≤ 1000000 := by exact_mod_cast hr
    have hS' : (10 : ℚ) ^ (e - 5) ≤ 10 ^ (302 : ℤ) := zpow_le_zpow_right₀ (by norm_num) (by omega)
    have e302 : (10 : ℚ) ^ (302 : ℤ) = 10 ^ 302 := zpow_natCast (10 : ℚ) 302
    rw [e302] at hS'
    rw [h3]
    refine lt_of_le_of_lt (mul_le_mul_of_nonneg_right hr' hS.le) (lt_of_le_of_lt ?_ c3)
    exact mul_le_mul_of_nonneg_left hS' (by norm_num)

theorem shown_finite {q : ℚ} (h : IsFinite q) : |rnd (shown q)| < 2 ^ 1024 := by
  by_contra hc
  rw [not_lt, big_iff] at hc
  have pos : ∀ q : ℚ, 0 < q → q < 2 ^ 1024 → |shown q| < 2 ^ 1024 - 2 ^ 970 := fun q h hm => by
    rw [shown_pos h, abs_of_nonneg]
    · exact round6_lt h hm
    · unfold round6; exact mul_nonneg (Nat.cast_nonneg _) (zpow_pos (by norm_num) _).le
  have hm := h.2
  rcases lt_trichotomy q 0 with h0 | rfl | h0
  · have := pos (-q) (by linarith) (by rwa [abs_of_neg h0] at hm)
    rw [shown_neg, abs_neg] at this
    exact absurd hc (not_le.2 this)
  · rw [show shown 0 = 0 by simp [shown], abs_zero] at hc
    exact absurd hc (by decide +kernel)
  · exact absurd hc (not_le.2 (pos q h0 (by rwa [abs_of_pos h0] at hm)))

/-- C76: the text of a complex number without its parentheses can be read, and gives the doubles nearest to the two decimal
numbers printed. -/
theorem C76_reread_partial (a b : ℚ) (ha : IsFinite a) (hb : IsFinite b) (rest : List UInt8) (hr : Stops rest) (x : Cx Dbl) (k : ℕ)
    (hk : 0 < k) :
    ∃ t d d', Cx.print text ⟨.fin a, .fin b⟩ = 40 :: t ++ [41] ∧ Nearest6 a d ∧ Nearest6 b d' ∧
      Cx.input k (x, ⟨t ++ rest, false, false⟩) = (.ok (), (⟨.fin (rnd d), .fin (rnd d')⟩, ⟨rest, rest.isEmpty, false⟩)) := by
  obtain ⟨h1, h2⟩ := complex_text b
  refine ⟨text (.fin a) ++ (imagSign b :: text (.fin |b|)) ++ [106], shown a, shown b, ?_, shown_nearest a, shown_nearest b, ?_⟩
  · rw [C62_print]; unfold imagSign; simp [Dbl.abs]
  · have := C62_read_pair [] (text (.fin a)) (text (.fin |b|)) rest _ _ (imagSign b) h1 (by simp) (text_decimal a) (shown_finite ha) h2
      (shown_finite hb) hr x k (by simpa using hk)
    rw [← this]
    simp

/-! ## When reading gives the number back -/

/-- Different numbers of six digits are far apart. -/
theorem sig6_apart {a b : ℚ} (ha : Sig6 a) (hb : Sig6 b) (h0 : 0 < a) (h : a < b) : a / 1000000 ≤ b - a := by
  have main : ∀ (m n : ℤ) (e : ℤ), (m : ℚ) * 10 ^ e < n * 10 ^ e → (10 : ℚ) ^ e ≤ n * 10 ^ e - m * 10 ^ e := by
    intro m n e h
    have hp : (0 : ℚ) < 10 ^ e := zpow_pos (by norm_num) _
    have h1 : (m : ℚ) < n := lt_of_mul_lt_mul_right h hp.le
    have h2 : (m : ℚ) + 1 ≤ n := by exact_mod_cast (by exact_mod_cast h1 : m < n)
    nlinarith
  have lift : ∀ (m : ℤ) {e f : ℤ}, f ≤ e → (m : ℚ) * 10 ^ e = ((m * 10 ^ (e - f).toNat : ℤ) : ℚ) * 10 ^ f := by
    intro m e f hf
    push_cast
    rw [← zpow_natCast, mul_assoc, ← zpow_add₀ (by norm_num), show ((e - f).toNat : ℤ) + f = e by omega]
  have small : ∀ (m : ℤ) (e : ℤ), |m| < 1000000 → (m : ℚ) * 10 ^ e ≤ 1000000 * 10 ^ e := by
    intro m e hm
    have a1 : (m : ℚ) ≤ 1000000 := by exact_mod_cast (abs_lt.1 hm).2.le
    exact mul_le_mul_of_nonneg_right a1 (zpow_pos (by norm_num) _).le
  obtain ⟨m, e, hm, rfl⟩ := ha
  obtain ⟨n, f, hn, rfl⟩ := hb
  rcases le_total e f with hef | hef
  · have h1 := small m e hm
    have e1 := lift n hef
    rw [e1] at h ⊢
    have := main _ _ _ h
    linarith
  · have h1 := small n f hn
    have e1 := lift m hef
    have h2 := h
    rw [e1] at h
    have := main _ _ _ h
    rw [← e1] at this
    linarith

theorem ulp_tiny {x : ℚ} (h0 : x ≠ 0) (h : |x| < 2 ^ (-1021 : ℤ)) : ulp x = 2 ^ (-1074 : ℤ) := by
  unfold ulp
  have := log_lt h0 h
  rw [max_eq_right (by omega), show (-1022 - 52 : ℤ) = -1074 by norm_num]

/-- Rounding to an integer, seen from the integer. -/
theorem roundEven_iff (x : ℚ) (n : ℤ) : roundEven x = n ↔ |x - n| < 1 / 2 ∨ |x - n| = 1 / 2 ∧ n % 2 = 0 := by
  have h0 := Int.floor_le x
  have h1 := Int.lt_floor_add_one x
  unfold roundEven
  set f := ⌊x⌋ with hf
  dsimp only
  constructor
  · intro h
    split at h
    · subst h; left; rw [abs_of_nonneg (by linarith)]; linarith
    · split at h
      · subst h; left; push_cast; rw [abs_of_nonpos (by linarith)]; linarith
      · have e : x - f = 1 / 2 := by linarith
        right
        split at h
        · next hm => subst h; exact ⟨by rw [e]; norm_num, hm⟩
        · subst h
          refine ⟨?_, by omega⟩
          push_cast
          rw [show x - (f + 1) = -(1 / 2) by linarith]
          norm_num
  · intro h
    have hn : n = f ∨ n = f + 1 := by
      have h2 : |x - n| ≤ 1 / 2 := by
        rcases h with h | h
        · exact h.le
        · exact h.1.le
      rw [abs_le] at h2
      have a1 : (f : ℚ) - 1 < n := by linarith
      have a2 : (n : ℚ) < f + 2 := by linarith
      have a3 : f - 1 < n := by exact_mod_cast a1
      have a4 : n < f + 2 := by exact_mod_cast a2
      omega
    rcases hn with rfl | rfl
    · rw [abs_of_nonneg (by linarith)] at h
      rcases h with h | ⟨h, h'⟩
      · rw [if_pos h]
      · rw [if_neg (by linarith), if_neg (by linarith), if_pos h']
    · push_cast at h
      rw [abs_of_nonpos (by linarith)] at h
      rcases h with h | ⟨h, h'⟩
      · rw [if_neg (by linarith), if_pos (by linarith)]
      · rw [if_neg (by linarith), if_neg (by linarith), if_neg (by omega)]

/-- A number as near to a small double `q` as one that is rounded to `q`. -/
theorem tiny_back {q p d : ℚ} (hs : |q| < 2 ^ (-1021 : ℤ)) (hpq : rnd p = q) (hle : |d - q| ≤ |p - q|) : rnd d = q := by
  set U : ℚ := 2 ^ (-1074 : ℤ) with hU
  have hU0 : 0 < U := zpow_pos (by norm_num) _
  have hB : (2 : ℚ) ^ (-1021 : ℤ) = 2 ^ 53 * U := by
    rw [hU, ← zpow_natCast, ← zpow_add₀ (by norm_num)]; norm_num
  by_cases hp0 : p = 0
  · subst hp0
    rw [rnd_zero] at hpq
    subst hpq
    rw [sub_zero, sub_zero, abs_zero] at hle
    rw [abs_nonpos_iff.1 hle, rnd_zero]
  have hp1 : |p| < 2 ^ (-1021 : ℤ) := by
    by_contra hc
    have := rnd_ge_pow (q := |p|) (k := -1021) (by norm_num) (not_lt.1 hc)
    rw [← rnd_abs, hpq] at this
    exact absurd hs (not_lt.2 this)
  have hup := ulp_tiny hp0 hp1
  set n := roundEven (p / U) with hn
  have hqn : q = n * U := by rw [← hpq]; unfold rnd; rw [hup]
  have hk : |n| ≤ 2 ^ 53 - 1 := by
    rw [hqn, abs_mul, abs_of_pos hU0, hB] at hs
    have := lt_of_mul_lt_mul_right hs hU0.le
    have h2 : |n| < 2 ^ 53 := by exact_mod_cast this
    omega
  have sc : ∀ x : ℚ, |x - q| = |x / U - n| * U := by
    intro x
    rw [hqn]
    nth_rewrite 3 [← abs_of_pos hU0]
    rw [← abs_mul, sub_mul, div_mul_cancel₀ _ hU0.ne']
  rw [sc, sc] at hle
  have hle' := le_of_mul_le_mul_right hle hU0
  have hrp := (roundEven_iff _ _).1 hn.symm
  have hrd : roundEven (d / U) = n := by
    rw [roundEven_iff]
    rcases hrp with h | h
    · exact .inl (lt_of_le_of_lt hle' h)
    · rcases hle'.lt_or_eq with h' | h'
      · exact .inl (by rw [← h.1]; exact h')
      · exact .inr ⟨by rw [h', h.1], h.2⟩
  by_cases hd0 : d = 0
  · subst hd0
    rw [zero_div] at hrd
    have : n = 0 := by rw [← hrd]; exact_mod_cast roundEven_int 0
    rw [hqn, this, rnd_zero]; simp
  have hd1 : |d| < 2 ^ (-1021 : ℤ) := by
    have h1 := roundEven_err (d / U)
    rw [hrd] at h1
    have h2 : |d / U| ≤ |(n : ℚ)| + 1 / 2 := by
      have := abs_sub_abs_le_abs_sub (d / U) (n : ℚ)
      rw [abs_sub_comm] at h1
      linarith
    have h3 : |(n : ℚ)| ≤ 2 ^ 53 - 1 := by
      have : ((|n| : ℤ) : ℚ) ≤ ((2 ^ 53 - 1 : ℤ) : ℚ) := by exact_mod_cast hk
      push_cast at this
      linarith
    have h4 : |d / U| < 2 ^ 53 := by linarith
    rw [abs_div, abs_of_pos hU0, div_lt_iff₀ hU0, ← hB] at h4
    exact h4
  unfold rnd
  rw [ulp_tiny hd0 hd1, hrd, hqn]

theorem large_back {q p d : ℚ} (hs : 2 ^ (-1021 : ℤ) ≤ q) (hpq : rnd p = q) (hp : Sig6 p) (hd : Sig6 d)
    (hle : |d - q| ≤ |p - q|) : d = p := by
  have hU0 : (0 : ℚ) < 2 ^ (-1074 : ℤ) := zpow_pos (by norm_num) _
  have hB : (2 : ℚ) ^ (-1021 : ℤ) = 2 ^ 53 * 2 ^ (-1074 : ℤ) := by
    rw [← zpow_natCast, ← zpow_add₀ (by norm_num)]; norm_num
  have hC : (2 : ℚ) ^ (-1022 : ℤ) = 2 ^ 52 * 2 ^ (-1074 : ℤ) := by
    rw [← zpow_natCast, ← zpow_add₀ (by norm_num)]; norm_num
  have hp1 : (2 : ℚ) ^ (-1022 : ℤ) ≤ |p| := by
    by_contra hc
    rw [not_le] at hc
    by_cases hp0 : p = 0
    · subst hp0
      rw [rnd_zero] at hpq
      rw [← hpq, hB] at hs
      linarith
    · have h1 := rnd_err p
      have hp2 : |p| < 2 ^ (-1021 : ℤ) := hc.trans (by rw [hB, hC]; linarith)
      rw [ulp_tiny hp0 hp2, hpq] at h1
      have h2 := abs_sub_abs_le_abs_sub q p
      have h3 := le_abs_self q
      rw [hB] at hs
      rw [hC] at hc
      linarith
  have h1 := rnd_rel hp1
  rw [hpq] at h1
  have hq0 : 0 < q := lt_of_lt_of_le (zpow_pos (by norm_num) _) hs
  have hp0 : 0 < p := by
    by_contra hc
    rw [not_lt] at hc
    rw [abs_of_nonpos hc, abs_of_nonneg (by linarith)] at h1
    linarith
  rw [abs_of_pos hp0] at h1
  rw [abs_sub_comm p q] at hle
  have h2 : |d - p| ≤ 2 * (p / 2 ^ 53) := by
    calc |d - p| = |(d - q) + (q - p)| := by ring_nf
      _ ≤ |d - q| + |q - p| := abs_add_le _ _
      _ ≤ _ := by linarith
  rw [abs_le] at h2
  rcases lt_trichotomy d p with h | h | h
  · have hd0 : 0 < d := by linarith
    have := sig6_apart hd hp hd0 h
    linarith
  · exact h
  · have := sig6_apart hp hd hp0 h
    linarith

/-- C76: the text of a component gives the number back exactly when the number is the `double` nearest to some decimal number
with six significant digits. -/
theorem C76_reread_iff (q d : ℚ) (hd : Nearest6 q d) : rnd d = q ↔ ∃ p, Sig6 p ∧ rnd p = q := by
  refine ⟨fun h => ⟨d, hd.1, h⟩, ?_⟩
  rintro ⟨p, hp, hpq⟩
  have hle := hd.2 p hp
  by_cases hs : |q| < 2 ^ (-1021 : ℤ)
  · exact tiny_back hs hpq hle
  · rw [not_lt] at hs
    rcases le_total 0 q with h0 | h0
    · rw [abs_of_nonneg h0] at hs
      rw [large_back hs hpq hp hd.1 hle, hpq]
    · rw [abs_of_nonpos h0] at hs
      have := large_back (q := -q) (p := -p) (d := -d) hs (by rw [rnd_neg, hpq]) (sig6_neg hp) (sig6_neg hd.1)
        (by rw [show -d - -q = -(d - q) by ring, show -p - -q = -(p - q) by ring, abs_neg, abs_neg]; exact hle)
      rw [neg_inj.1 this, hpq]

/-- C76 fails: different numbers are printed alike, so that the text does not determine the number: 1 and the next double. -/
theorem C76_not : IsFinite 1 ∧ IsFinite (1 + 1 / 2 ^ 52) ∧ text (.fin 1) = text (.fin (1 + 1 / 2 ^ 52)) ∧
    text (.fin 1) = [49] := by
  unfold IsFinite
  decide +kernel

example : IsFinite (1 / 8) ∧ Cx.print text ⟨.fin (1 / 8), .fin (-3)⟩ = [40, 48, 46, 49, 50, 53, 45, 51, 106, 41] ∧
    Cx.input 1 (⟨.nan, .nan⟩, ⟨[48, 46, 49, 50, 53, 45, 51, 106], false, false⟩) =
      (.ok (), (⟨.fin (1 / 8), .fin (-3)⟩, ⟨[], true, false⟩)) := by
  unfold IsFinite
  decide +kernel

end Pyincpp
