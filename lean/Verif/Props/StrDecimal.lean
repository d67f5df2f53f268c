import Verif.Proof.Decimal
import Verif.Props.StrNum

/-! # C73: `to_decimal` and the double nearest to the number written

Over IEEE 754 doubles, with `std::pow(10, ·)` either exact for the powers that are doubles or nearest. The property "the result
is the double nearest to the number written" holds when few digits and no exponent are written; it fails in general, and what
holds then is a bound for the relative error. -/

namespace Pyincpp

open Dbl

/-- C73: what is called nearest is nearest. -/
theorem C73_meaning (v : ℚ) : NearestDouble v (ofRat v) := nearest_ofRat v

theorem decText_parts {s : List UInt8} {σ : Int} {ds fs : List UInt8} {τ : Int} {es : List UInt8} (h : DecText s σ ds fs τ es) :
    (σ = 1 ∨ σ = -1) ∧ (τ = 1 ∨ τ = -1) ∧ (∀ c ∈ ds ++ fs, IsDigitIn 10 c) := by
  obtain ⟨ws, sg, m, x, ws', _, _, _, _, _, -, hs, hm, hx, -⟩ := h
  refine ⟨?_, ?_, ?_⟩
  · cases hs <;> simp
  · cases hx with
    | none => simp
    | some e sg es σ _ h _ _ => cases h <;> simp
  · cases hm with
    | int ds _ h => simpa using h
    | full ds fs _ h1 h2 =>
      intro c hc
      rcases List.mem_append.1 hc with hc | hc
      · exact h1 c hc
      · exact h2 c hc
    | frac fs _ h => simpa using h

namespace Decimal

theorem ofInt_nat {n : ℕ} (hn : n < 2 ^ 53) : ofInt (n : ℤ) = fin n := by
  rw [ofInt_eq (by rw [Nat.abs_cast]; exact_mod_cast hn)]; simp

/-- The last multiplication, by the sign. -/
theorem mul_sign {σ : Int} (hσ : σ = 1 ∨ σ = -1) {x : ℚ} (hx : rnd x = x) (hb : |x| < 2 ^ 1024) :
    Dbl.mul (Dbl.ofInt σ) (fin x) = fin (σ * x) := by
  rcases hσ with rfl | rfl
  · rw [ofInt_eq (by norm_num)]
    simp only [Dbl.mul, Int.cast_one, one_mul]
    rw [ofRat_small (by rw [hx]; exact hb), hx]
  · rw [ofInt_eq (by norm_num)]
    simp only [Dbl.mul]
    push_cast
    rw [neg_one_mul, ofRat_small (by rw [rnd_neg, abs_neg, hx]; exact hb), rnd_neg, hx]

theorem rnd_sign {σ : Int} (hσ : σ = 1 ∨ σ = -1) (v : ℚ) : rnd (σ * v) = σ * rnd v := by
  rcases hσ with rfl | rfl
  · simp
  · push_cast; rw [neg_one_mul, neg_one_mul, rnd_neg]

theorem abs_sign {σ : Int} (hσ : σ = 1 ∨ σ = -1) (v : ℚ) : |(σ : ℚ) * v| = |v| := by
  rcases hσ with rfl | rfl <;> simp

theorem exp_arg {τ : Int} (hτ : τ = 1 ∨ τ = -1) {n : ℕ} (hn : n < 2 ^ 53) :
    Dbl.mul (Dbl.ofInt τ) (Dbl.ofInt (n : ℤ)) = fin ((τ * n : ℤ) : ℚ) := by
  have h1 : rnd ((n : ℤ) : ℚ) = ((n : ℤ) : ℚ) := rnd_int (by rw [Nat.abs_cast]; exact_mod_cast hn)
  have h2 : |((n : ℤ) : ℚ)| < 2 ^ 1024 := by
    have e1 : |((n : ℤ) : ℚ)| < 2 ^ 53 := by
      rw [Int.cast_natCast, Nat.abs_cast]; exact_mod_cast hn
    exact e1.trans_le (pow_le_pow_right₀ (by norm_num) (by norm_num))
  rw [ofInt_nat hn]
  have := mul_sign hτ h1 h2
  push_cast at this ⊢
  exact this

end Decimal

open Decimal

/-- C73 (partial): when the digits of the mantissa denote an integer below `2^53` with at most 22 digits after the point, and no
exponent is written (or the mantissa itself is a double and the exponent is at most 22), the result is the double nearest to the
number written. -/
theorem C73_nearest_partial (pow : Dbl → Dbl) (hpow : PowExact pow) (s : List UInt8) (hs : s.length ≤ maxLen) (σ : Int)
    (ds fs : List UInt8) (τ : Int) (es : List UInt8) (h : DecText s σ ds fs τ es)
    (hN : numeralIn 10 (ds ++ fs) < 2 ^ 53) (hf : fs.length ≤ 22)
    (he : numeralIn 10 es = 0 ∨
      τ = 1 ∧ numeralIn 10 es ≤ 22 ∧ Dbl.IsFinite ((numeralIn 10 (ds ++ fs) : ℚ) / 10 ^ fs.length)) :
    Str.toDecimal (dblOps pow) s = .ok (ofRat (written σ ds fs τ es)) := by
  obtain ⟨hσ, hτ, -⟩ := decText_parts h
  have he22 : numeralIn 10 es ≤ 22 := by rcases he with h | ⟨-, h, -⟩ <;> omega
  rw [C24_accept_partial _ s hs σ ds fs τ es h (by unfold INT_MAX; omega)]
  apply congrArg Res.ok
  unfold decValue written
  rw [evalDigits_exact pow _ hN]
  simp only [dblOps]
  rw [ofInt_nat (by omega : fs.length < 2 ^ 53), hpow _ hf, exp_arg hτ (by omega)]
  simp only [Dbl.div]
  rw [if_neg (pow_ne_zero _ (by norm_num))]
  set m : ℚ := (numeralIn 10 (ds ++ fs) : ℚ) / 10 ^ fs.length with hm
  have hm0 : 0 ≤ m := by positivity
  have hmb : m ≤ 2 ^ 53 := by
    rw [hm, div_le_iff₀ (by positivity)]
    have h1 : (numeralIn 10 (ds ++ fs) : ℚ) ≤ 2 ^ 53 := by exact_mod_cast hN.le
    have h2 : (1 : ℚ) ≤ 10 ^ fs.length := one_le_pow₀ (by norm_num)
    nlinarith
  have big : (2 : ℚ) ^ 53 * 10 ^ 22 ≤ 2 ^ 1023 :=
    le_trans (by norm_num : (2 : ℚ) ^ 53 * 10 ^ 22 ≤ 2 ^ 200) (pow_le_pow_right₀ (by norm_num) (by norm_num))
  have hmm : |m| ≤ 2 ^ 1023 := by
    rw [abs_of_nonneg hm0]
    exact hmb.trans (le_trans (by norm_num) big)
  rw [ofRat_fin hmm]
  have hw : (σ : ℚ) * (numeralIn 10 (ds ++ fs) : ℚ) / 10 ^ fs.length = σ * m := by rw [hm]; ring
  rw [hw]
  -- the value before the sign is the rounded one
  have key : ∀ y : ℚ, 0 ≤ y → y ≤ 2 ^ 1023 → Dbl.mul (Dbl.ofInt σ) (ofRat y) = ofRat (σ * y) := by
    intro y hy0 hy
    have hya : |y| ≤ 2 ^ 1023 := by rwa [abs_of_nonneg hy0]
    rw [ofRat_fin hya, ofRat_fin (by rwa [abs_sign hσ]), rnd_sign hσ]
    apply mul_sign hσ (rnd_idem y)
    exact (of_fin (ofRat_fin hya)).2
  rcases he with he | ⟨rfl, -, hfin, -⟩
  · rw [he]
    have hp := hpow 0 (by norm_num)
    simp only [Nat.cast_zero, mul_zero, Int.cast_zero, zpow_zero, mul_one, pow_zero] at hp ⊢
    rw [hp]
    simp only [Dbl.mul]
    rw [mul_one, ofRat_rnd m hm0 (rnd_nonneg hm0)]
    exact key m hm0 ((le_abs_self m).trans hmm)
  · have hp := hpow _ he22
    rw [one_mul, Int.cast_natCast, hp, hfin]
    simp only [Dbl.mul]
    rw [zpow_natCast, mul_assoc]
    have h1 : (10 : ℚ) ^ numeralIn 10 es ≤ 10 ^ 22 := pow_le_pow_right₀ (by norm_num) he22
    have h2 : m * 10 ^ numeralIn 10 es ≤ 2 ^ 53 * 10 ^ 22 := mul_le_mul hmb h1 (by positivity) (by norm_num)
    exact key _ (mul_nonneg hm0 (by positivity)) (h2.trans big)

/-- C73 (partial): in general the result is within `(4n + 10) * 2^-53` of the number written, relatively, where `n` is the
number of digits of the mantissa, as long as mantissa, exponent and value stay within the range of doubles. -/
theorem C73_close_partial (pow : Dbl → Dbl) (hpow : PowNear pow) (s : List UInt8) (hs : s.length ≤ maxLen) (σ : Int)
    (ds fs : List UInt8) (τ : Int) (es : List UInt8) (h : DecText s σ ds fs τ es)
    (hn : (ds ++ fs).length ≤ 300) (he : numeralIn 10 es ≤ 300)
    (hlo : written σ ds fs τ es = 0 ∨ (2 : ℚ) ^ (-1021 : ℤ) ≤ |written σ ds fs τ es|) (hhi : |written σ ds fs τ es| ≤ 2 ^ 1022) :
    ∃ x : ℚ, Str.toDecimal (dblOps pow) s = .ok (fin x) ∧
      |x - written σ ds fs τ es| ≤ (4 * (ds ++ fs).length + 10) / 2 ^ 53 * |written σ ds fs τ es| := by
  obtain ⟨hσ, hτ, hd⟩ := decText_parts h
  have hfl : fs.length ≤ (ds ++ fs).length := by simp
  rw [C24_accept_partial _ s hs σ ds fs τ es h (by unfold INT_MAX; omega)]
  obtain ⟨x, hx, nx⟩ := evalDigits_near pow _ hd hn
  set n := (ds ++ fs).length with hnn
  set N := numeralIn 10 (ds ++ fs) with hNN
  set E : ℤ := τ * (numeralIn 10 es : Nat) with hE
  have hEabs : |E| ≤ 300 := by
    rw [hE, abs_mul, Nat.abs_cast]
    rcases hτ with rfl | rfl <;> simp <;> omega
  obtain ⟨p1, p2⟩ := near_pow fs.length (by rw [Nat.abs_cast]; omega)
  obtain ⟨q1, q2⟩ := near_pow E hEabs
  have hw : written σ ds fs τ es = σ * ((N : ℚ) * (10 ^ (fs.length : ℤ))⁻¹ * 10 ^ E) := by
    unfold written; rw [zpow_natCast]; ring
  have ten_pos (k : ℤ) : (0 : ℚ) < 10 ^ k := zpow_pos (by norm_num) k
  have hNn : (0 : ℚ) ≤ N := Nat.cast_nonneg _
  -- mantissa
  have m1 : Near (2 * n + 2) (x * (rnd (10 ^ (fs.length : ℤ)))⁻¹) (N * (10 ^ (fs.length : ℤ))⁻¹) :=
    nx.mul (p2.inv (ten_pos _)) hNn (inv_nonneg.2 (ten_pos _).le)
  have hm0 : (0 : ℚ) ≤ N * (10 ^ (fs.length : ℤ))⁻¹ := mul_nonneg hNn (inv_nonneg.2 (ten_pos _).le)
  have hmhi : (N : ℚ) * (10 ^ (fs.length : ℤ))⁻¹ ≤ 2 ^ 1022 := by
    have h1 : (N : ℚ) ≤ 10 ^ 300 := by
      have := (numeralIn_lt _ hd).le.trans (Nat.pow_le_pow_right (by norm_num : 0 < 10) hn)
      exact_mod_cast this
    have h2 : ((10 : ℚ) ^ (fs.length : ℤ))⁻¹ ≤ 1 := by
      rw [zpow_natCast]; exact inv_le_one_of_one_le₀ (one_le_pow₀ (by norm_num))
    calc (N : ℚ) * (10 ^ (fs.length : ℤ))⁻¹ ≤ N * 1 := mul_le_mul_of_nonneg_left h2 hNn
      _ ≤ 10 ^ 300 := by rw [mul_one]; exact h1
      _ ≤ 2 ^ 1022 := ten300.trans (pow_le_pow_right₀ (by norm_num) (by norm_num))
  have hmlo : (N : ℚ) * (10 ^ (fs.length : ℤ))⁻¹ = 0 ∨ (2 : ℚ) ^ (-1021 : ℤ) ≤ (N : ℚ) * (10 ^ (fs.length : ℤ))⁻¹ := by
    rcases Nat.eq_zero_or_pos N with h0 | h0
    · left; rw [h0]; simp
    · right
      have h1 : (1 : ℚ) ≤ N := by exact_mod_cast h0
      have h2 : (2 : ℚ) ^ (-1021 : ℤ) ≤ (10 ^ (fs.length : ℤ))⁻¹ := by
        rw [zpow_neg]
        apply inv_anti₀ (ten_pos _)
        rw [zpow_natCast]
        refine le_trans (pow_le_pow_right₀ (by norm_num) (by omega : fs.length ≤ 300)) (ten300.trans ?_)
        rw [← zpow_natCast]
        exact zpow_le_zpow_right₀ (by norm_num) (by norm_num)
      calc (2 : ℚ) ^ (-1021 : ℤ) ≤ 1 * (10 ^ (fs.length : ℤ))⁻¹ := by rw [one_mul]; exact h2
        _ ≤ N * (10 ^ (fs.length : ℤ))⁻¹ := mul_le_mul_of_nonneg_right h1 (inv_nonneg.2 (ten_pos _).le)
  obtain ⟨e1, m2⟩ := near_ofRat m1 hmlo hmhi (by omega)
  -- times the power of the exponent
  have m3 := m2.mul q2 hm0 (ten_pos E).le
  have hv0 : (0 : ℚ) ≤ N * (10 ^ (fs.length : ℤ))⁻¹ * 10 ^ E := mul_nonneg hm0 (ten_pos E).le
  have hwabs : |written σ ds fs τ es| = N * (10 ^ (fs.length : ℤ))⁻¹ * 10 ^ E := by
    rw [hw, abs_sign hσ, abs_of_nonneg hv0]
  obtain ⟨e2, m4⟩ := near_ofRat m3 (by
    rw [hwabs] at hlo
    rcases hlo with hlo | hlo
    · left; rw [← hwabs, hlo, abs_zero]
    · right; exact hlo) (by rw [hwabs] at hhi; exact hhi) (by omega)
  set y := rnd (rnd (x * (rnd (10 ^ (fs.length : ℤ)))⁻¹) * rnd (10 ^ E)) with hy
  have hr0 : 0 < rnd (10 ^ (fs.length : ℤ)) := by
    have := p2.1
    exact lt_of_lt_of_le (mul_pos (ten_pos _) (pow_lo_pos 1)) this
  have hyb : |y| < 2 ^ 1024 := (of_fin e2).2
  refine ⟨σ * y, ?_, ?_⟩
  · apply congrArg Res.ok
    unfold decValue
    rw [hx]
    simp only [dblOps]
    rw [exp_arg hτ (by omega), hpow E, q1, ofInt_nat (by omega : fs.length < 2 ^ 53)]
    have hp := hpow (fs.length : ℤ)
    rw [Int.cast_natCast] at hp
    rw [hp, p1]
    simp only [Dbl.div]
    rw [if_neg hr0.ne', div_eq_mul_inv, e1]
    simp only [Dbl.mul]
    rw [e2]
    exact mul_sign hσ (rnd_idem _) hyb
  · rw [hwabs, hw, ← mul_sub, abs_sign hσ]
    have hn1000 : 2 * ((2 * n + 2 + 1 + 1 + 1 : ℕ) : ℚ) * u ≤ 1 := by
      have h1 := small_u
      have h2 : ((2 * n + 2 + 1 + 1 + 1 : ℕ) : ℚ) ≤ 605 := by exact_mod_cast (by omega)
      have := u_pos
      nlinarith
    have := m4.abs_le hv0 hn1000
    refine this.trans (le_of_eq ?_)
    unfold u
    push_cast
    ring

/-- C73 fails: with an exponent from 309 on, a mantissa of zeros gives NaN. -/
theorem C73_zero_not (pow : Dbl → Dbl) (hpow : PowNear pow) (s : List UInt8) (hs : s.length ≤ maxLen) (σ : Int)
    (ds fs : List UInt8) (es : List UInt8) (h : DecText s σ ds fs 1 es) (hN : numeralIn 10 (ds ++ fs) = 0)
    (he : 309 ≤ numeralIn 10 es) (he' : (numeralIn 10 es : Int) ≤ INT_MAX) :
    Str.toDecimal (dblOps pow) s = .ok .nan ∧ written σ ds fs 1 es = 0 := by
  refine ⟨?_, by unfold written; rw [hN]; simp⟩
  rw [C24_accept_partial _ s hs σ ds fs 1 es h he']
  apply congrArg Res.ok
  unfold decValue
  rw [evalDigits_exact pow _ (by rw [hN]; norm_num), hN]
  simp only [dblOps]
  rw [exp_arg (.inl rfl) (by unfold INT_MAX at he'; omega), hpow]
  have hinf : ofRat (10 ^ (1 * (numeralIn 10 es : ℤ))) = .inf false := by
    rw [one_mul, zpow_natCast]
    have h1 : (2 : ℚ) ^ (1024 : ℤ) ≤ 10 ^ numeralIn 10 es := ten309.trans (pow_le_pow_right₀ (by norm_num) he)
    have h2 := rnd_ge_pow (by norm_num) h1
    unfold ofRat
    rw [if_pos (by
      rw [abs_of_nonneg (rnd_nonneg (by positivity))]
      have e1024 : (2 : ℚ) ^ (1024 : ℕ) = 2 ^ (1024 : ℤ) := by rw [← zpow_natCast]; rfl
      rw [e1024]; exact h2)]
    rw [decide_eq_false (not_lt.2 (by positivity))]
  rw [hinf]
  have hz : ∀ y, y = Dbl.nan ∨ y = .fin 0 → Dbl.mul (Dbl.ofInt σ) (Dbl.mul y (.inf false)) = .nan := by
    obtain ⟨hσ, -, -⟩ := decText_parts h
    have : Dbl.ofInt σ = fin σ := ofInt_eq (by rcases hσ with rfl | rfl <;> norm_num)
    rintro y (rfl | rfl) <;> simp [Dbl.mul, this]
  apply hz
  cases pow (Dbl.ofInt fs.length) with
  | nan => left; rfl
  | inf s => right; rfl
  | fin q =>
    simp only [Dbl.div, Nat.cast_zero]
    split
    · left; simp
    · right
      rw [zero_div, ofRat_fin (by simp), rnd_zero]

theorem ofRat_pow_inf {k : ℕ} (hk : 309 ≤ k) : ofRat (10 ^ k) = .inf false := by
  have h1 : (2 : ℚ) ^ (1024 : ℤ) ≤ 10 ^ k := ten309.trans (pow_le_pow_right₀ (by norm_num) hk)
  have h2 := rnd_ge_pow (by norm_num) h1
  unfold ofRat
  rw [if_pos (by
    rw [abs_of_nonneg (rnd_nonneg (by positivity))]
    have e1024 : (2 : ℚ) ^ (1024 : ℕ) = 2 ^ (1024 : ℤ) := by rw [← zpow_natCast]; rfl
    rw [e1024]; exact h2)]
  rw [decide_eq_false (not_lt.2 (by positivity))]

/-- C73 fails: with an exponent from 309 on, every other mantissa of at most 300 digits gives an infinity, however small the
number written is. -/
theorem C73_inf_not (pow : Dbl → Dbl) (hpow : PowNear pow) (s : List UInt8) (hs : s.length ≤ maxLen) (σ : Int)
    (ds fs : List UInt8) (es : List UInt8) (h : DecText s σ ds fs 1 es) (hn : (ds ++ fs).length ≤ 300)
    (hN : numeralIn 10 (ds ++ fs) ≠ 0) (he : 309 ≤ numeralIn 10 es) (he' : (numeralIn 10 es : Int) ≤ INT_MAX) :
    Str.toDecimal (dblOps pow) s = .ok (.inf (decide (σ < 0))) := by
  obtain ⟨hσ, -, hd⟩ := decText_parts h
  have hfl : fs.length ≤ (ds ++ fs).length := by simp
  rw [C24_accept_partial _ s hs σ ds fs 1 es h he']
  apply congrArg Res.ok
  obtain ⟨x, hx, nx⟩ := evalDigits_near pow _ hd hn
  obtain ⟨p1, p2⟩ := near_pow fs.length (by rw [Nat.abs_cast]; omega)
  unfold decValue
  rw [hx]
  simp only [dblOps]
  rw [exp_arg (.inl rfl) (by unfold INT_MAX at he'; omega), hpow, one_mul, zpow_natCast, ofRat_pow_inf he,
    ofInt_nat (by omega : fs.length < 2 ^ 53)]
  have hp := hpow (fs.length : ℤ)
  rw [Int.cast_natCast] at hp
  rw [hp, p1]
  have hN1 : (1 : ℚ) ≤ numeralIn 10 (ds ++ fs) := by exact_mod_cast Nat.one_le_iff_ne_zero.2 hN
  have hx0 : 1 / 2 ≤ x := by
    have := nx.half_le (by linarith) (by omega)
    linarith
  have hr0 : 0 < rnd (10 ^ (fs.length : ℤ)) :=
    lt_of_lt_of_le (mul_pos (zpow_pos (by norm_num) _) (pow_lo_pos 1)) p2.1
  have hr1 : rnd (10 ^ (fs.length : ℤ)) ≤ 2 ^ (1001 : ℤ) := by
    have h1 := p2.le_two (zpow_nonneg (by norm_num) _) (by norm_num)
    have h2 : (10 : ℚ) ^ (fs.length : ℤ) ≤ 2 ^ 1000 := by
      rw [zpow_natCast]
      exact (pow_le_pow_right₀ (by norm_num) (by omega)).trans ten300
    have e : (2 : ℚ) ^ (1001 : ℤ) = 2 ^ (1000 : ℕ) * 2 := by
      rw [← zpow_natCast, show (1001 : ℤ) = ((1000 : ℕ) : ℤ) + 1 by norm_num, zpow_add₀ (by norm_num), zpow_one]
    rw [e]
    exact h1.trans (mul_le_mul_of_nonneg_right h2 (by norm_num))
  have hm : (2 : ℚ) ^ (-1002 : ℤ) ≤ x / rnd (10 ^ (fs.length : ℤ)) := by
    rw [le_div_iff₀ hr0]
    have e : (2 : ℚ) ^ (-1002 : ℤ) * 2 ^ (1001 : ℤ) = 1 / 2 := by
      rw [← zpow_add₀ (by norm_num)]; norm_num
    have := mul_le_mul_of_nonneg_left hr1 (zpow_nonneg (by norm_num : (0 : ℚ) ≤ 2) (-1002))
    rw [e] at this
    exact this.trans hx0
  have hm' := rnd_ge_pow (by norm_num) hm
  have hmpos : 0 < rnd (x / rnd (10 ^ (fs.length : ℤ))) := lt_of_lt_of_le (zpow_pos (by norm_num) _) hm'
  have hq0 : 0 ≤ x / rnd (10 ^ (fs.length : ℤ)) := div_nonneg (by linarith) hr0.le
  simp only [Dbl.div]
  rw [if_neg hr0.ne']
  have hmul : Dbl.mul (ofRat (x / rnd (10 ^ (fs.length : ℤ)))) (.inf false) = .inf false := by
    unfold ofRat
    split
    · rw [decide_eq_false (not_lt.2 hq0)]; rfl
    · simp only [Dbl.mul]
      rw [if_neg hmpos.ne', decide_eq_false (not_lt.2 hmpos.le)]; rfl
  rw [hmul]
  rcases hσ with rfl | rfl
  · rw [ofInt_eq (by norm_num)]; simp [Dbl.mul]
  · rw [ofInt_eq (by norm_num)]; simp [Dbl.mul]

/-! ## Witnesses -/

/-- A `std::pow(10, ·)` that keeps the contract. -/
def stdPow : Dbl → Dbl
  | .fin q => ofRat (10 ^ q.num)
  | x => x

theorem stdPow_near : PowNear stdPow := by
  intro n; simp [stdPow]

/-- The nearest powers are exact where that is possible. -/
theorem powNear_exact {pow : Dbl → Dbl} (h : PowNear pow) : PowExact pow := by
  intro n hn
  have := h n
  rw [Int.cast_natCast] at this
  rw [this]
  have hr : rnd ((10 : ℚ) ^ n) = 10 ^ n := by
    have e : (10 : ℚ) ^ n = ((5 ^ n : ℕ) : ℤ) * 2 ^ (n : ℤ) := by
      rw [zpow_natCast]; push_cast; rw [← mul_pow]; norm_num
    rw [e]
    apply rnd_rep _ (by omega)
    rw [Nat.abs_cast]
    have h1 : 5 ^ n ≤ 5 ^ 22 := Nat.pow_le_pow_right (by norm_num) hn
    have h2 : 5 ^ 22 < 2 ^ 53 := by norm_num
    exact_mod_cast h1.trans_lt h2
  rw [zpow_natCast, ofRat_fin, hr]
  rw [abs_of_pos (by positivity)]
  exact (pow_le_pow_right₀ (by norm_num) (by omega : n ≤ 300)).trans
    (ten300.trans (pow_le_pow_right₀ (by norm_num) (by norm_num)))

-- " -12.5"
example : ∃ σ ds fs τ es, DecText [32, 45, 49, 50, 46, 53] σ ds fs τ es ∧ numeralIn 10 (ds ++ fs) < 2 ^ 53 ∧ fs.length ≤ 22 ∧
    numeralIn 10 es = 0 ∧ written σ ds fs τ es = -25 / 2 :=
  ⟨-1, [49, 50], [53], 1, [], DecText.mk [32] [45] ([49, 50] ++ 46 :: [53]) [] [] (-1) [49, 50] [53] 1 [] (by decide) .minus
    (.full _ _ (by simp) (by decide) (by decide)) .none (by simp), by decide, by decide, by decide, by decide +kernel⟩

/-- The text "3e-1". -/
theorem text3e : DecText [51, 101, 45, 49] 1 [51] [] (-1) [49] :=
  DecText.mk [] [] [51] (101 :: ([45] ++ [49])) [] 1 [51] [] (-1) [49] (by simp) .none
    (.int _ (by simp) (by decide)) (.some 101 [45] [49] (-1) (.inl rfl) .minus (by simp) (by decide)) (by simp)

/-- The contract determines the result. -/
theorem C73_determined (pow : Dbl → Dbl) (hpow : PowNear pow) (s : List UInt8) (hs : s.length ≤ maxLen) (σ : Int)
    (ds fs : List UInt8) (τ : Int) (es : List UInt8) (h : DecText s σ ds fs τ es) (he : (numeralIn 10 es : Int) ≤ INT_MAX)
    (hf : fs.length < 2 ^ 53) : Str.toDecimal (dblOps pow) s = Str.toDecimal (dblOps stdPow) s := by
  obtain ⟨-, hτ, -⟩ := decText_parts h
  rw [C24_accept_partial _ s hs σ ds fs τ es h he, C24_accept_partial _ s hs σ ds fs τ es h he]
  apply congrArg Res.ok
  unfold decValue
  simp only [dblOps]
  rw [exp_arg hτ (by unfold INT_MAX at he; omega), ofInt_nat hf, hpow, stdPow_near]
  have h1 := hpow (fs.length : ℤ)
  have h2 := stdPow_near (fs.length : ℤ)
  rw [Int.cast_natCast] at h1 h2
  rw [h1, h2]
  rfl

/-- C73 fails: "3e-1" does not give the double nearest to 3/10 but the next one. -/
theorem C73_not (pow : Dbl → Dbl) (hpow : PowNear pow) :
    Str.toDecimal (dblOps pow) [51, 101, 45, 49] = .ok (fin (1351079888211149 / 4503599627370496)) ∧
      written 1 [51] [] (-1) [49] = 3 / 10 ∧ ¬ NearestDouble (3 / 10) (fin (1351079888211149 / 4503599627370496)) := by
  refine ⟨?_, by decide +kernel, ?_⟩
  · rw [C73_determined pow hpow _ (by decide +kernel) _ _ _ _ _ text3e (by decide) (by decide)]
    decide +kernel
  · rintro (⟨_, -, h, -⟩ | -)
    have h1 := h (5404319552844595 / 18014398509481984) ⟨by decide +kernel, by decide +kernel⟩
    revert h1
    decide +kernel

/-- The text "0." with digits. -/
theorem text0 (fs : List UInt8) (hfs : ∀ c ∈ fs, IsDigitIn 10 c) : DecText (48 :: 46 :: fs) 1 [48] fs 1 [] := by
  have := DecText.mk [] [] ([48] ++ 46 :: fs) [] [] 1 [48] fs 1 [] (by simp) .none (.full _ _ (by simp) (by decide) hfs) .none
    (by simp)
  simpa using this

/-- C73 fails: "0." and 400 ones gives NaN (an infinity divided by an infinity). -/
theorem C73_long_not (pow : Dbl → Dbl) (hpow : PowNear pow) :
    DecText (48 :: 46 :: List.replicate 400 49) 1 [48] (List.replicate 400 49) 1 [] ∧
      Str.toDecimal (dblOps pow) (48 :: 46 :: List.replicate 400 49) = .ok .nan := by
  have h := text0 (List.replicate 400 49)
    (by intro c hc; rw [List.eq_of_mem_replicate hc]; exact ⟨1, by decide, by decide⟩)
  refine ⟨h, ?_⟩
  rw [C73_determined pow hpow _ (by decide +kernel) _ _ _ _ _ h (by decide) (by decide +kernel)]
  decide +kernel

-- "0e400", ".0000001e310"
example : Str.toDecimal (dblOps stdPow) [48, 101, 52, 48, 48] = .ok .nan := by decide +kernel
example : DecText [48, 101, 52, 48, 48] 1 [48] [] 1 [52, 48, 48] :=
  DecText.mk [] [] [48] (101 :: ([] ++ [52, 48, 48])) [] 1 [48] [] 1 [52, 48, 48] (by simp) .none
    (.int _ (by simp) (by decide)) (.some 101 [] [52, 48, 48] 1 (.inl rfl) .none (by simp) (by decide)) (by simp)
example : Str.toDecimal (dblOps stdPow) [46, 48, 48, 48, 48, 48, 48, 49, 101, 51, 49, 48] = .ok (.inf false) := by
  decide +kernel
example : |written 1 [] [48, 48, 48, 48, 48, 48, 49] 1 [51, 49, 48]| < 2 ^ 1023 := by decide +kernel
-- the hypotheses of `C73_close_partial` for "3e-1"
example : ([51] ++ [] : List UInt8).length ≤ 300 ∧ numeralIn 10 [49] ≤ 300 ∧
    (2 : ℚ) ^ (-1021 : ℤ) ≤ |written 1 [51] [] (-1) [49]| ∧ |written 1 [51] [] (-1) [49]| ≤ 2 ^ 1022 := by decide +kernel
-- "1.5e3": the mantissa is a double
example : IsFinite ((numeralIn 10 ([49] ++ [53]) : ℚ) / 10 ^ [53].length) := ⟨by decide +kernel, by decide +kernel⟩

end Pyincpp
