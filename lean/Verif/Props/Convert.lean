import Verif.Model.Convert
import Verif.Props.IntMore
import Verif.Props.FracDouble
import Verif.Props.List
import Verif.Props.Deque
import Verif.Props.StrSeq

/-! # C104: numbers of other types as arguments -/

namespace Pyincpp
open BInt

/-- `z` is the number `q` without its fraction. -/
def IsTrunc (q : ℚ) (z : ℤ) : Prop := |q - z| < 1 ∧ |(z : ℚ)| ≤ |q| ∧ 0 ≤ z * q

theorem isTrunc_iff (q : ℚ) (z : ℤ) : IsTrunc q z ↔ z = if 0 ≤ q then ⌊q⌋ else ⌈q⌉ := by
  unfold IsTrunc
  split
  · next h =>
    rw [eq_comm, Int.floor_eq_iff]
    constructor
    · rintro ⟨h1, h2, h3⟩
      rw [abs_lt] at h1
      rw [abs_of_nonneg h] at h2
      exact ⟨(le_abs_self _).trans h2, by linarith⟩
    · rintro ⟨h1, h2⟩
      have hz : 0 ≤ z := by
        have : (0 : ℚ) < z + 1 := by linarith
        have : (0 : ℤ) < z + 1 := by exact_mod_cast this
        omega
      have hzq : (0 : ℚ) ≤ z := by exact_mod_cast hz
      refine ⟨?_, ?_, mul_nonneg hzq h⟩
      · rw [abs_lt]; constructor <;> linarith
      · rw [abs_of_nonneg h, abs_of_nonneg hzq]; exact h1
  · next h =>
    rw [not_le] at h
    rw [eq_comm, Int.ceil_eq_iff]
    constructor
    · rintro ⟨h1, h2, h3⟩
      rw [abs_lt] at h1
      rw [abs_of_neg h] at h2
      exact ⟨by linarith, by linarith [neg_abs_le (z : ℚ)]⟩
    · rintro ⟨h1, h2⟩
      have hz : z ≤ 0 := by
        have : (z : ℚ) - 1 < 0 := by linarith
        have : (z : ℤ) - 1 < 0 := by exact_mod_cast this
        omega
      have hzq : (z : ℚ) ≤ 0 := by exact_mod_cast hz
      refine ⟨?_, ?_, mul_nonneg_of_nonpos_of_nonpos hzq h.le⟩
      · rw [abs_lt]; constructor <;> linarith
      · rw [abs_of_neg h, abs_of_nonpos hzq]; linarith

theorem ofInt_any (n : ℤ) (h : IsInt n) : BInt.ofInt n = if n = INT_MIN then .ub .overflow else .ok (enc n) := by
  split
  · next e => rw [e]; exact C21_fails.1
  · next e => exact C21_of_int_partial n h e

theorem wrap32_eq_iff (v w : ℤ) : wrap32 v = w ↔ IsInt w ∧ (4294967296 : ℤ) ∣ v - w := by
  unfold wrap32 IsInt INT_MIN INT_MAX
  omega

/-- C104 for `Int` and an argument of an integer type: exactly the `int`s but `INT_MIN` stand for themselves. Everything else is
taken modulo `2^32`, and is undefined behaviour where that gives `INT_MIN`. -/
theorem C104_int (v : ℤ) :
    (BInt.ofNum (.int v) = .ok (enc v) ↔ INT_MIN < v ∧ v ≤ INT_MAX) ∧
    (BInt.ofNum (.int v) = .ub .overflow ↔ (4294967296 : ℤ) ∣ v - INT_MIN) ∧
    (¬ (4294967296 : ℤ) ∣ v - INT_MIN →
      ∃ w, INT_MIN < w ∧ w ≤ INT_MAX ∧ (4294967296 : ℤ) ∣ v - w ∧ BInt.ofNum (.int v) = .ok (enc w)) := by
  have e : BInt.ofNum (.int v) = if wrap32 v = INT_MIN then .ub .overflow else .ok (enc (wrap32 v)) :=
    ofInt_any _ (wrap32_isInt v)
  have hw := (wrap32_eq_iff v (wrap32 v)).1 rfl
  rw [e]
  refine ⟨?_, ?_, ?_⟩
  · split
    · next h =>
      constructor
      · intro h'; cases h'
      · rintro ⟨h1, h2⟩
        have := wrap32_eq (x := v) ⟨h1.le, h2⟩
        omega
    · next h =>
      constructor
      · intro h'
        have := enc_injective (Res.ok.inj h')
        have h3 := hw.1
        rw [this] at h3 h
        exact ⟨lt_of_le_of_ne h3.1 (Ne.symm h), h3.2⟩
      · rintro ⟨h1, h2⟩
        rw [wrap32_eq (x := v) ⟨h1.le, h2⟩]
  · have := wrap32_eq_iff v INT_MIN
    split
    · next h => exact ⟨fun _ => (this.1 h).2, fun _ => rfl⟩
    · next h => exact ⟨fun h' => (by cases h'), fun h' => absurd (this.2 ⟨by decide, h'⟩) h⟩
  · intro h
    have hn : wrap32 v ≠ INT_MIN := fun h' => h ((wrap32_eq_iff v INT_MIN).1 h').2
    exact ⟨wrap32 v, lt_of_le_of_ne hw.1.1 (Ne.symm hn), hw.1.2, hw.2, by rw [if_neg hn]⟩

example : INT_MIN < (2147483647 : ℤ) ∧ (2147483647 : ℤ) ≤ INT_MAX ∧ (4294967296 : ℤ) ∣ 2147483648 - INT_MIN := by decide

/-- C104 for `Int` and a `double`: the fraction is dropped, and what does not fit `int` is undefined. -/
theorem C104_int_float (q : ℚ) (z : ℤ) :
    (BInt.ofNum (.float (.fin q)) = .ok (enc z) ↔ IsTrunc q z ∧ |z| ≤ INT_MAX) ∧
    (IsTrunc q z → (BInt.ofNum (.float (.fin q)) = .ub .overflow ↔ INT_MAX < |z|)) := by
  have e : BInt.ofNum (.float (.fin q)) = if |if 0 ≤ q then ⌊q⌋ else ⌈q⌉| ≤ INT_MAX then
      .ok (enc (if 0 ≤ q then ⌊q⌋ else ⌈q⌉)) else .ub .overflow := by
    unfold BInt.ofNum
    show (ck _ >>= _) = _
    generalize (if 0 ≤ q then ⌊q⌋ else ⌈q⌉) = w
    unfold ck
    by_cases h : IsInt w
    · rw [if_pos h, Res.ok_bind, ofInt_any w h]
      have : |w| ≤ INT_MAX ↔ w ≠ INT_MIN := by
        unfold IsInt at h
        unfold INT_MIN INT_MAX at *
        rw [abs_le]
        omega
      by_cases h' : w = INT_MIN
      · rw [if_pos h', if_neg (by rw [this]; simpa using h')]
      · rw [if_neg h', if_pos (this.2 h')]
    · rw [if_neg h, Res.ub_bind, if_neg]
      rw [abs_le]
      unfold IsInt at h
      unfold INT_MIN INT_MAX at *
      omega
  rw [isTrunc_iff, e]
  generalize (if 0 ≤ q then ⌊q⌋ else ⌈q⌉) = w
  constructor
  · split
    · next h =>
      constructor
      · intro h'
        have := enc_injective (Res.ok.inj h')
        exact ⟨this.symm, this ▸ h⟩
      · rintro ⟨rfl, -⟩; rfl
    · next h => exact ⟨fun h' => (by cases h'), fun ⟨h1, h2⟩ => absurd (h1 ▸ h2) h⟩
  · rintro rfl
    split
    · next h => exact ⟨fun h' => (by cases h'), fun h' => by omega⟩
    · next h => exact ⟨fun _ => by omega, fun _ => rfl⟩

/-- C104: infinities and NaN as an `Int` are undefined behaviour. -/
theorem C104_int_special (b : Bool) : BInt.ofNum (.float (.inf b)) = .ub .overflow ∧ BInt.ofNum (.float .nan) = .ub .overflow :=
  ⟨rfl, rfl⟩

example : IsTrunc (-7 / 2) (-3) ∧ |(-3 : ℤ)| ≤ INT_MAX := by
  refine ⟨⟨?_, ?_, ?_⟩, by decide⟩ <;> norm_num [abs_lt, abs_of_neg]

/-- C104 is false of the code: `Int(3000000000)` is -1294967296, `Int(4294967296)` is 0, `Int(2.5)` is 2, `Int(1e10)` and
`Int(2147483648)` are undefined; all of them compile. As `==` converts its argument as well, `Int(2) == 2.5` is true. -/
theorem C104_int_not : BInt.ofNum (.int 3000000000) = .ok (enc (-1294967296)) ∧ BInt.ofNum (.int 4294967296) = .ok (enc 0) ∧
    BInt.ofNum (.float (.fin (5 / 2))) = .ok (enc 2) ∧ BInt.ofNum (.float (.fin 10000000000)) = .ub .overflow ∧
    BInt.ofNum (.int 2147483648) = .ub .overflow := by
  refine ⟨?_, ?_, ?_, ?_, ?_⟩
  · exact ofInt_any (-1294967296) (by decide)
  · exact ofInt_any 0 (by decide)
  · refine ((C104_int_float _ _).1).2 ⟨⟨?_, ?_, ?_⟩, by decide⟩ <;> norm_num [abs_lt]
  · refine ((C104_int_float _ 10000000000).2 ⟨?_, ?_, ?_⟩).2 (by decide) <;> norm_num
  · exact ofInt_any (-2147483648) (by decide)

/-- C104: an `Int` that is turned into another integer type and back (`Int(x.to_integer<T>())`) is the same exactly if its value
lies between -INT_MAX and INT_MAX, whatever larger type it went through. -/
theorem C104_trip (t : IntTy) (ht : t.Std) (z : ℤ) (hlo : (if t.signed then -2 ^ (t.bits - 1) else 0) ≤ z)
    (hhi : z < 2 ^ (if t.signed then t.bits - 1 else t.bits)) :
    (do BInt.ofNum (.int (← toInteger t (enc z)))) = .ok (enc z) ↔ |z| ≤ INT_MAX := by
  rw [C21_to_integer_exact t ht z hlo hhi]
  have hz : |z| ≤ INT_MAX ↔ INT_MIN < z ∧ z ≤ INT_MAX := by unfold INT_MIN INT_MAX; rw [abs_le]; omega
  split
  · next h =>
    rw [Res.ub_bind]
    refine ⟨fun h' => (by cases h'), fun h' => ?_⟩
    obtain ⟨-, h2, h3⟩ := h
    have h4 : (2 : ℤ) ^ 31 ≤ 2 ^ (t.bits - 1) := pow_le_pow_right₀ (by norm_num) (by omega)
    rw [abs_le, INT_MAX] at h'
    norm_num at h4
    omega
  · rw [Res.ok_bind, hz]
    exact (C104_int z).1

example : (if (⟨64, true⟩ : IntTy).signed then -2 ^ ((⟨64, true⟩ : IntTy).bits - 1) else 0) ≤ (2147483648 : ℤ) := by decide

/-- C104 for `Fraction(a, b)` with integers of any type: the value is `a / b` where both are `int`s but `INT_MIN`. -/
theorem C104_fraction_partial (a b : ℤ) (ha : |a| ≤ INT_MAX) (hb : |b| ≤ INT_MAX) (h0 : b ≠ 0) :
    ∃ f, Frac.ofNum (.int a) (.int b) = .ok f ∧ f.Valid ∧ f.val = (a : ℚ) / b := by
  have key : ∀ {z : ℤ}, |z| ≤ INT_MAX → wrap32 z = z := by
    intro z hz
    apply wrap32_eq
    rw [abs_le] at hz
    unfold IsInt INT_MIN INT_MAX at *
    omega
  show ∃ f, Frac.make (wrap32 a) (wrap32 b) = .ok f ∧ _
  rw [key ha, key hb]
  exact Frac.make_ok ha hb h0

/-- C104 for `Fraction(a)` with an integer of any type: the fraction has the value `a` exactly if `a` is an `int` but `INT_MIN`. -/
theorem C104_fraction_exact (a : ℤ) :
    (∃ f, Frac.ofNum (.int a) (.int 1) = .ok f ∧ f.val = a) ↔ |a| ≤ INT_MAX := by
  have e : Frac.ofNum (.int a) (.int 1) = Frac.make (wrap32 a) 1 := rfl
  constructor
  · rintro ⟨f, h1, h2⟩
    rw [e] at h1
    have hw := wrap32_isInt a
    by_cases hm : wrap32 a = INT_MIN
    · rw [C49_construct_not.1 _ _ one_ne_zero (.inl hm)] at h1
      cases h1
    · have hb : |wrap32 a| ≤ INT_MAX := by
        unfold IsInt at hw
        unfold INT_MIN INT_MAX at *
        rw [abs_le]; omega
      obtain ⟨g, h3, -, h4⟩ := Frac.make_ok hb (by decide) one_ne_zero
      rw [h1] at h3
      cases h3
      rw [h2] at h4
      have : a = wrap32 a := by
        have : (a : ℚ) = wrap32 a := by simpa using h4
        exact_mod_cast this
      rw [this]; exact hb
  · intro h
    obtain ⟨f, h1, -, h2⟩ := C104_fraction_partial a 1 h (by decide) one_ne_zero
    exact ⟨f, h1, by simpa using h2⟩

example : |(6 : ℤ)| ≤ INT_MAX ∧ |(-4 : ℤ)| ≤ INT_MAX ∧ (-4 : ℤ) ≠ 0 := by decide

/-- C104 is false of the code for fractions: `Fraction(0.5)` is 0, `Fraction(1, 4294967296)` divides by zero although the
denominator is none, and `Fraction(x, y)` of the fractions `1/2` and `1/3` does as well, for `operator double` is not explicit. -/
theorem C104_fraction_not : Frac.ofNum (.float (.fin (1 / 2))) (.int 1) = .ok ⟨0, 1⟩ ∧
    Frac.ofNum (.int 1) (.int 4294967296) = .throw "Error: Divide by zero." ∧
    Frac.ofNum (Frac.asNum ⟨1, 2⟩) (Frac.asNum ⟨1, 3⟩) = .throw "Error: Divide by zero." := by
  refine ⟨by decide +kernel, by decide +kernel, by decide +kernel⟩

/-- Rounding a fraction does not carry it to or over an integer it is not. -/
theorem trunc_toDouble {x : Frac} (hx : x.Valid) : IsTrunc (Dbl.rnd x.val) (x.num.tdiv x.den) := by
  have hd := hx.den_pos
  have main : ∀ {n d : ℤ}, 0 ≤ n → 0 < d → n < 2 ^ 53 → IsTrunc (Dbl.rnd ((n : ℚ) / d)) (n / d) := by
    intro n d hn hd hb
    have hdq : (0 : ℚ) < d := by exact_mod_cast hd
    have hq : (0 : ℚ) ≤ (n : ℚ) / d := div_nonneg (by exact_mod_cast hn) hdq.le
    have hk0 : 0 ≤ n / d := Int.ediv_nonneg hn hd.le
    have hkn : n / d ≤ n := Int.ediv_le_self _ hn
    have hlo : ((n / d : ℤ) : ℚ) ≤ Dbl.rnd ((n : ℚ) / d) := by
      rw [← Dbl.rnd_int (n := n / d) (by rw [abs_of_nonneg hk0]; omega)]
      apply rnd_mono
      rw [le_div_iff₀ hdq]
      have := Int.ediv_mul_le n hd.ne'
      exact_mod_cast this
    have hhi : Dbl.rnd ((n : ℚ) / d) < ((n / d : ℤ) : ℚ) + 1 := by
      rcases Int.lt_or_le n d with c | c
      · -- the quotient is below one
        rcases hn.eq_or_lt with rfl | hn'
        · simp [Dbl.rnd_zero]
        · have hv : (n : ℚ) / d ≤ 1 - 1 / d := by
            rw [div_le_iff₀ hdq, sub_mul, one_mul, div_mul_cancel₀ _ hdq.ne']
            have : n ≤ d - 1 := by omega
            exact_mod_cast this
          by_cases hsm : (n : ℚ) / d ≤ 1 / 2
          · have h1 := rnd_mono hsm
            have h2 : Dbl.rnd (1 / 2) = 1 / 2 := by
              have := Dbl.rnd_rep (m := 1) (e := -1) (by norm_num) (by norm_num)
              norm_num at this ⊢
              exact this
            rw [h2] at h1
            have : (0 : ℚ) ≤ ((n / d : ℤ) : ℚ) := by exact_mod_cast hk0
            linarith
          · rw [not_le] at hsm
            have hr := Dbl.rnd_rel (q := (n : ℚ) / d) (by
              rw [abs_of_nonneg hq]
              refine le_trans ?_ hsm.le
              rw [show (1 : ℚ) / 2 = 2 ^ (-1 : ℤ) by norm_num]
              exact zpow_le_zpow_right₀ (by norm_num) (by norm_num))
            rw [abs_of_nonneg hq, abs_le] at hr
            have h3 : (n : ℚ) / d / 2 ^ 53 < 1 / d := by
              rw [div_div, mul_comm, ← div_div, div_lt_div_iff_of_pos_right hdq, div_lt_one (by positivity)]
              exact_mod_cast hb
            have : (0 : ℚ) ≤ ((n / d : ℤ) : ℚ) := by exact_mod_cast hk0
            linarith [hr.2]
      · have h1 : (1 : ℚ) ≤ (n : ℚ) / d := by rw [le_div_iff₀ hdq, one_mul]; exact_mod_cast c
        have hr := Dbl.rnd_rel (q := (n : ℚ) / d) (by
          rw [abs_of_nonneg hq]
          refine le_trans ?_ h1
          rw [show (1 : ℚ) = 2 ^ (0 : ℤ) by norm_num]
          exact zpow_le_zpow_right₀ (by norm_num) (by norm_num))
        rw [abs_of_nonneg hq, abs_le] at hr
        have h3 : (n : ℚ) / d / 2 ^ 53 < 1 / d := by
          rw [div_div, mul_comm, ← div_div, div_lt_div_iff_of_pos_right hdq, div_lt_one (by positivity)]
          exact_mod_cast hb
        have h4 : (n : ℚ) / d ≤ ((n / d : ℤ) : ℚ) + 1 - 1 / d := by
          rw [div_le_iff₀ hdq, sub_mul, div_mul_cancel₀ _ hdq.ne']
          have : n ≤ (n / d + 1) * d - 1 := by
            have := Int.lt_ediv_add_one_mul_self n hd
            omega
          exact_mod_cast this
        linarith [hr.2]
    have hz : (0 : ℚ) ≤ ((n / d : ℤ) : ℚ) := by exact_mod_cast hk0
    have hr0 : (0 : ℚ) ≤ Dbl.rnd ((n : ℚ) / d) := hz.trans hlo
    refine ⟨?_, ?_, mul_nonneg hz hr0⟩
    · rw [abs_lt]; constructor <;> linarith
    · rw [abs_of_nonneg hz, abs_of_nonneg hr0]; exact hlo
  have hb := hx.num_le
  unfold Frac.val
  rcases le_total 0 x.num with h | h
  · rw [Int.tdiv_eq_ediv_of_nonneg h]
    refine main h hx.pos ?_
    rw [abs_of_nonneg h] at hb
    unfold INT_MAX at hb
    omega
  · have := main (n := -x.num) (d := x.den) (by omega) hx.pos (by
      rw [abs_of_nonpos h] at hb
      unfold INT_MAX at hb
      omega)
    rw [← Int.tdiv_eq_ediv_of_nonneg (by omega), Int.neg_tdiv] at this
    push_cast at this
    rw [neg_div, Dbl.rnd_neg] at this
    obtain ⟨h1, h2, h3⟩ := this
    push_cast at h1 h2 h3
    refine ⟨?_, ?_, ?_⟩
    · rw [← abs_neg, show -(Dbl.rnd ((x.num : ℚ) / x.den) - ((x.num.tdiv x.den : ℤ) : ℚ)) =
        -Dbl.rnd ((x.num : ℚ) / x.den) - -((x.num.tdiv x.den : ℤ) : ℚ) by ring]
      exact h1
    · rwa [abs_neg, abs_neg] at h2
    · linarith [h3]

/-- C104: a fraction as an `Int` (`Int(f)`, `f` goes through `double`) is its value without the fraction, never undefined,
for all fractions: the rounding does not reach the next integer. -/
theorem C104_int_of_fraction {x : Frac} (hx : x.Valid) : BInt.ofNum x.asNum = .ok (enc (x.num.tdiv x.den)) := by
  unfold Frac.asNum
  rw [Frac.toDouble_eq hx]
  refine ((C104_int_float _ _).1).2 ⟨trunc_toDouble hx, ?_⟩
  refine le_trans ?_ hx.num_le
  rw [Int.abs_eq_natAbs, Int.natAbs_tdiv, Int.abs_eq_natAbs]
  exact_mod_cast Nat.div_le_self _ _

example : (⟨2147483647, 2147483646⟩ : Frac).Valid :=
  ⟨by decide, by rw [Int.isCoprime_iff_gcd_eq_one]; decide, by decide, by decide⟩

/-- C104 for `Complex` and an integer: exact precisely for integers of at most 53 significant bits. -/
theorem C104_complex (v : ℤ) (hv : |v| ≤ 2 ^ 64) :
    (Cx.ofNum (.int v) (.int 0)).re = .fin v ↔ ∃ (m : ℤ) (e : ℕ), |m| < 2 ^ 53 ∧ v = m * 2 ^ e := by
  show Dbl.ofRat v = .fin v ↔ _
  rw [Dbl.ofRat_fin (by
    have h1 : |(v : ℚ)| ≤ 2 ^ 64 := by exact_mod_cast hv
    exact h1.trans (pow_le_pow_right₀ (by norm_num) (by norm_num))), Dbl.fin.injEq]
  constructor
  · intro h
    obtain ⟨e, he, hu, hlt⟩ := Dbl.ulp_eq_zpow (v : ℚ)
    rcases le_or_gt 0 e with c | c
    · obtain ⟨n, rfl⟩ := Int.eq_ofNat_of_zero_le c
      refine ⟨Dbl.roundEven ((v : ℚ) / Dbl.ulp v), n, ?_, ?_⟩
      · have h2 : (Dbl.roundEven ((v : ℚ) / Dbl.ulp v) : ℚ) * 2 ^ n = v := by
          conv_rhs => rw [← h]
          unfold Dbl.rnd
          rw [hu, zpow_natCast]
        have h3 : |(Dbl.roundEven ((v : ℚ) / Dbl.ulp v) : ℚ)| * 2 ^ n < 2 ^ 53 * 2 ^ n := by
          have : |(v : ℚ)| < 2 ^ 53 * 2 ^ n := by
            rw [zpow_add₀ (by norm_num)] at hlt
            exact_mod_cast hlt
          rw [← h2, abs_mul, abs_of_nonneg (a := (2 : ℚ) ^ n) (by positivity)] at this
          exact this
        have h4 := lt_of_mul_lt_mul_right h3 (by positivity)
        exact_mod_cast h4
      · have h2 : (Dbl.roundEven ((v : ℚ) / Dbl.ulp v) : ℚ) * 2 ^ n = v := by
          conv_rhs => rw [← h]
          unfold Dbl.rnd
          rw [hu, zpow_natCast]
        exact_mod_cast h2.symm
    · refine ⟨v, 0, ?_, by simp⟩
      have : |(v : ℚ)| < 2 ^ (53 : ℤ) := lt_of_lt_of_le hlt (zpow_le_zpow_right₀ (by norm_num) (by omega))
      exact_mod_cast this
  · rintro ⟨m, e, hm, rfl⟩
    have := Dbl.rnd_rep (m := m) (e := e) hm (by omega)
    push_cast
    exact_mod_cast this

/-- C104 is false of the code: `Complex(9007199254740993)` has the real part 9007199254740992. -/
theorem C104_complex_not : (Cx.ofNum (.int 9007199254740993) (.int 0)).re = .fin 9007199254740992 := by decide +kernel

example : |(9007199254740994 : ℤ)| ≤ 2 ^ 64 ∧ (9007199254740994 : ℤ) = 4503599627370497 * 2 ^ 1 := by decide

variable {α : Type}

theorem Lst.getNum_int (l : List α) (v : ℤ) : Lst.getNum l (.int v) = Lst.get l (wrap32 v) := by simp only [Lst.getNum, Num.toInt, Res.ok_bind]
theorem Dq.getNum_int (l : List α) (v : ℤ) : Dq.getNum l (.int v) = Dq.get l (wrap32 v) := by simp only [Dq.getNum, Num.toInt, Res.ok_bind]
theorem Str.getNum_int (s : List UInt8) (v : ℤ) : Str.getNum s (.int v) = Str.get s (wrap32 v) := by simp only [Str.getNum, Num.toInt, Res.ok_bind]
theorem Lst.mulNum_int [Inhabited α] (l : List α) (v : ℤ) : Lst.mulNum l (.int v) = Lst.mul l (wrap32 v) := by simp only [Lst.mulNum, Num.toInt, Res.ok_bind]
theorem Str.mulNum_int (s : List UInt8) (v : ℤ) : Str.mulNum s (.int v) = Str.mul s (wrap32 v) := by simp only [Str.mulNum, Num.toInt, Res.ok_bind]
theorem Lst.rotLNum_int (v : ℤ) (l : List α) : Lst.rotLNum (.int v) l = Lst.rotL (wrap32 v) l := Meth.run_ok (by rfl)

/-- C104 for an index of an unsigned type: an index below the length gives its element. Beyond, it does not throw but reads
another element exactly if it is within the length above or below a multiple of `2^32`. -/
theorem C104_index (l : List α) (hl : l.length ≤ maxLen) (v : ℕ) :
    (v < l.length → ∃ x, l[v]? = some x ∧ Lst.getNum l (.int v) = .ok x) ∧
    (l.length ≤ v → ((∃ x, Lst.getNum l (.int v) = .ok x) ↔
      ∃ i : ℤ, -(l.length : ℤ) ≤ i ∧ i < l.length ∧ (4294967296 : ℤ) ∣ v - i) ∧
      ((¬ ∃ x, Lst.getNum l (.int v) = .ok x) → Lst.getNum l (.int v) = .throw "Error: Index out of range.")) := by
  have hlen : (l.length : ℤ) ≤ 2147483647 := by unfold maxLen at hl; omega
  have e : Lst.getNum l (.int v) = Lst.get l (wrap32 v) := Lst.getNum_int l v
  obtain ⟨h1, h2, h3⟩ := C33_list_index l hl (wrap32 v)
  have hw := (wrap32_eq_iff v (wrap32 v)).1 rfl
  rw [e]
  constructor
  · intro h
    have e2 : wrap32 v = v := wrap32_eq (by unfold IsInt INT_MIN INT_MAX; omega)
    rw [e2] at h1 ⊢
    simpa using h1 ⟨by omega, by omega⟩
  · intro h
    have key : (∃ x, Lst.get l (wrap32 v) = .ok x) ↔ -(l.length : ℤ) ≤ wrap32 v ∧ wrap32 v < l.length := by
      constructor
      · rintro ⟨x, hx⟩
        by_contra hc
        rw [h3 (by omega)] at hx
        cases hx
      · rintro ⟨c1, c2⟩
        rcases lt_or_ge (wrap32 v) 0 with c | c
        · obtain ⟨x, -, hx⟩ := h2 ⟨c1, c⟩; exact ⟨x, hx⟩
        · obtain ⟨x, -, hx⟩ := h1 ⟨c, c2⟩; exact ⟨x, hx⟩
    constructor
    · rw [key]
      constructor
      · rintro ⟨c1, c2⟩; exact ⟨wrap32 v, c1, c2, hw.2⟩
      · rintro ⟨i, c1, c2, c3⟩
        have : wrap32 v = i := (wrap32_eq_iff _ _).2 ⟨by unfold IsInt INT_MIN INT_MAX; omega, c3⟩
        rw [this]; exact ⟨c1, c2⟩
    · rw [key]
      intro hc
      exact h3 (by omega)

example : [7, 8].length ≤ 4294967295 ∧ (4294967296 : ℤ) ∣ (4294967295 : ℕ) - (-1) := by decide

/-- C104 is false of the code for every list, deque and string that is not empty: the index 4294967296 gives the first element
and 4294967295 the last one, where the index is out of range. -/
theorem C104_index_not (l : List α) (hl : l.length ≤ maxLen) (a b : α) (ha : l.head? = some a) (hb : l.getLast? = some b) :
    Lst.getNum l (.int 4294967296) = .ok a ∧ Lst.getNum l (.int 4294967295) = .ok b ∧
    Dq.getNum l (.int 4294967296) = .ok a ∧ Dq.getNum l (.int 4294967295) = .ok b := by
  have hpos : 0 < l.length := by cases l <;> simp at ha ⊢
  have e0 : l[((0 : ℤ)).toNat]? = some a := by rw [← ha, List.head?_eq_getElem?]; rfl
  have e1 : l[((l.length : ℤ) + -1).toNat]? = some b := by
    rw [← hb, List.getLast?_eq_getElem?, show ((l.length : ℤ) + -1).toNat = l.length - 1 by omega]
  have w0 : wrap32 4294967296 = 0 := by decide
  have w1 : wrap32 4294967295 = -1 := by decide
  refine ⟨?_, ?_, ?_, ?_⟩
  · obtain ⟨x, hx, h⟩ := (C33_list_index l hl 0).1 ⟨le_rfl, by omega⟩
    rw [e0] at hx; cases hx; rw [Lst.getNum_int, w0]; exact h
  · obtain ⟨x, hx, h⟩ := (C33_list_index l hl (-1)).2.1 ⟨by omega, by omega⟩
    rw [e1] at hx; cases hx; rw [Lst.getNum_int, w1]; exact h
  · obtain ⟨x, hx, h⟩ := (C33_deque_index l hl 0).1 ⟨le_rfl, by omega⟩
    rw [e0] at hx; cases hx; rw [Dq.getNum_int, w0]; exact h
  · obtain ⟨x, hx, h⟩ := (C33_deque_index l hl (-1)).2.1 ⟨by omega, by omega⟩
    rw [e1] at hx; cases hx; rw [Dq.getNum_int, w1]; exact h

/-- C104, the same for strings. -/
theorem C104_str_index_not (s : List UInt8) (hs : s.length ≤ maxLen) (a b : UInt8) (ha : s.head? = some a)
    (hb : s.getLast? = some b) : Str.getNum s (.int 4294967296) = .ok a ∧ Str.getNum s (.int 4294967295) = .ok b := by
  have hpos : 0 < s.length := by cases s <;> simp at ha ⊢
  have e0 : s[((0 : ℤ)).toNat]? = some a := by rw [← ha, List.head?_eq_getElem?]; rfl
  have e1 : s[((s.length : ℤ) + -1).toNat]? = some b := by
    rw [← hb, List.getLast?_eq_getElem?, show ((s.length : ℤ) + -1).toNat = s.length - 1 by omega]
  have w0 : wrap32 4294967296 = 0 := by decide
  have w1 : wrap32 4294967295 = -1 := by decide
  constructor
  · obtain ⟨x, hx, h⟩ := (C33_str_index s hs 0).1 ⟨le_rfl, by omega⟩
    rw [e0] at hx; cases hx; rw [Str.getNum_int, w0]; exact h
  · obtain ⟨x, hx, h⟩ := (C33_str_index s hs (-1)).2.1 ⟨by omega, by omega⟩
    rw [e1] at hx; cases hx; rw [Str.getNum_int, w1]; exact h

example : [5, 6, 7].head? = some 5 ∧ [5, 6, 7].getLast? = some 7 := by decide

/-- C104 is false of the code for repetition: `l * 4294967297` is `l` and `l * 4294967296` is empty, for lists and strings. -/
theorem C104_repeat_not [Inhabited α] (l : List α) (s : List UInt8) (hl : l.length < maxLen) (hs : s.length ≤ maxLen) :
    Lst.mulNum l (.int 4294967296) = .ok [] ∧ Lst.mulNum l (.int 4294967297) = .ok l ∧
    Str.mulNum s (.int 4294967296) = .ok [] ∧ Str.mulNum s (.int 4294967297) = .ok s := by
  have hl' : (l.length : ℤ) < INT_MAX := by unfold maxLen at hl; unfold INT_MAX; omega
  have hs' : (s.length : ℤ) ≤ INT_MAX := by unfold maxLen at hs; unfold INT_MAX; omega
  have w0 : wrap32 4294967296 = 0 := by decide
  have w1 : wrap32 4294967297 = 1 := by decide
  refine ⟨?_, ?_, ?_, ?_⟩
  · rw [Lst.mulNum_int, w0]
    simpa using ((C34_list_repeat_partial l hl.le 0).1 le_rfl (by simp [INT_MAX])).1
  · rw [Lst.mulNum_int, w1]
    simpa using ((C34_list_repeat_partial l hl.le 1).1 (by decide) (by simpa using hl')).1
  · rw [Str.mulNum_int, w0]
    simpa using (C34_str_repeat_partial s hs 0).1 le_rfl (by simp [INT_MAX])
  · rw [Str.mulNum_int, w1]
    simpa using (C34_str_repeat_partial s hs 1).1 (by decide) (by simpa using hs')

/-- C104 for rotation by an integer of any size: right whenever the length divides the multiple of `2^32` that is dropped, in
particular for every length that is a power of two. -/
theorem C104_rotate_partial (l : List α) (hl : l.length ≤ maxLen) (v : ℤ) (h : (l.length : ℤ) ∣ v - wrap32 v) :
    ∃ r, Lst.rotLNum (.int v) l = (.ok (), r) ∧ r.length = l.length ∧
      ∀ i : ℕ, i < l.length → r[i]? = l[(((i : ℤ) + v) % l.length).toNat]? := by
  obtain ⟨r, h1, h2, h3⟩ := C29_list_rotate_left l hl (wrap32 v) (wrap32_isInt v)
  refine ⟨r, (Lst.rotLNum_int v l).trans h1, h2, fun i hi => ?_⟩
  rw [h3 i hi]
  have : ((i : ℤ) + wrap32 v) % l.length = ((i : ℤ) + v) % l.length := by
    rw [Int.emod_eq_emod_iff_emod_sub_eq_zero, show (i : ℤ) + wrap32 v - (i + v) = -(v - wrap32 v) by ring]
    exact Int.emod_eq_zero_of_dvd (dvd_neg.2 h)
  rw [this]

/-- C104: lists of `2^k` elements are rotated rightly by every integer. -/
theorem C104_rotate_pow (l : List α) (hl : l.length ≤ maxLen) (k : ℕ) (hk : l.length = 2 ^ k) (v : ℤ) :
    ∃ r, Lst.rotLNum (.int v) l = (.ok (), r) ∧ r.length = l.length ∧
      ∀ i : ℕ, i < l.length → r[i]? = l[(((i : ℤ) + v) % l.length).toNat]? := by
  apply C104_rotate_partial l hl
  have hk' : k ≤ 32 := by
    by_contra hc
    have : 2 ^ 33 ≤ 2 ^ k := Nat.pow_le_pow_right (by norm_num) (by omega)
    unfold maxLen at hl
    omega
  have h1 : (l.length : ℤ) ∣ 4294967296 := by
    rw [hk]
    push_cast
    rw [show (4294967296 : ℤ) = 2 ^ 32 by norm_num]
    exact pow_dvd_pow 2 hk'
  exact h1.trans ((wrap32_eq_iff v (wrap32 v)).1 rfl).2

/-- C104 is false of the code for other lengths: `<<= 4294967296` leaves a list of three elements as it is; it is to be rotated
by one. -/
theorem C104_rotate_not : Lst.rotLNum (.int 4294967296) [1, 2, 3] = (.ok (), [1, 2, 3]) ∧ (4294967296 : ℤ) % 3 = 1 :=
  ⟨by decide +kernel, by decide⟩

end Pyincpp
