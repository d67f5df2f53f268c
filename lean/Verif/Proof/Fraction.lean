import Verif.Spec.Fraction
import Verif.Proof.Double
import Verif.Proof.List
import Mathlib.Data.Int.GCD
import Mathlib.RingTheory.Coprime.Lemmas
import Mathlib.Tactic.LinearCombination

/-! # Lemmas about fractions -/

namespace Pyincpp
namespace Frac

theorem bound_of_abs {a : Int} (h : |a| ≤ INT_MAX) : IsInt a ∧ a ≠ INT_MIN := by
  have := abs_le.1 h
  unfold IsInt INT_MIN; unfold INT_MAX at *
  omega

theorem abs_of_bound {a : Int} (h : IsInt a) (h' : a ≠ INT_MIN) : |a| ≤ INT_MAX := by
  rw [abs_le]; unfold IsInt INT_MIN at *; unfold INT_MAX at *; omega

/-- The last part of the constructor. -/
theorem reduce {n d : Int} (hn : |n| ≤ INT_MAX) (hd : 0 < d) (hd' : d ≤ INT_MAX) :
    ∃ f : Frac, (do
      let g ← stdGcd n d
      let n ← idiv n g
      let d ← idiv d g
      pure (⟨n, d⟩ : Frac)) = Res.ok f ∧ f.Valid ∧ f.val = (n : ℚ) / d := by
  have hb := bound_of_abs hn
  have hdm : d ≠ INT_MIN := by unfold INT_MIN; omega
  have hg : 0 < (Int.gcd n d : Int) := by
    have : Int.gcd n d ≠ 0 := by rw [ne_eq, Int.gcd_eq_zero_iff]; omega
    omega
  obtain ⟨a, ha⟩ := Int.gcd_dvd_left n d
  obtain ⟨b, hb'⟩ := Int.gcd_dvd_right n d
  have hcop := Int.isCoprime_iff_gcd_eq_one.2 (Int.gcd_div_gcd_div_gcd (i := n) (j := d) (by omega))
  generalize hG : (Int.gcd n d : Int) = g at *
  have hna : n.tdiv g = a := by rw [ha]; exact Int.mul_tdiv_cancel_left _ (by omega)
  have hdb : d.tdiv g = b := by rw [hb']; exact Int.mul_tdiv_cancel_left _ (by omega)
  have hna' : n / g = a := by rw [ha]; exact Int.mul_ediv_cancel_left _ (by omega)
  have hdb' : d / g = b := by rw [hb']; exact Int.mul_ediv_cancel_left _ (by omega)
  have hbpos : 0 < b := by rw [hb'] at hd; exact (mul_pos_iff_of_pos_left (by omega)).1 hd
  have hble : b ≤ d := by rw [hb']; nlinarith
  have hale : |a| ≤ |n| := by rw [ha, abs_mul, abs_of_pos hg]; nlinarith [abs_nonneg a]
  have hai := bound_of_abs (hale.trans hn)
  refine ⟨⟨a, b⟩, ?_, ⟨hbpos, ?_, hale.trans hn, hble.trans hd'⟩, ?_⟩
  · unfold stdGcd
    rw [if_neg (by tauto), hG, Res.ok_bind]
    unfold idiv
    rw [if_neg (by omega), hna, if_neg (by omega), hdb, ck_ok hai.1, Res.ok_bind, ck_ok (by unfold IsInt INT_MIN; omega)]
    rfl
  · rw [hna', hdb'] at hcop; exact hcop
  · unfold val
    simp only
    rw [ha, hb']
    have : (g : ℚ) ≠ 0 := by exact_mod_cast (ne_of_gt hg)
    push_cast
    rw [mul_div_mul_left _ _ this]

theorem make_ok {n d : Int} (hn : |n| ≤ INT_MAX) (hd : |d| ≤ INT_MAX) (h0 : d ≠ 0) :
    ∃ f : Frac, make n d = .ok f ∧ f.Valid ∧ f.val = (n : ℚ) / d := by
  unfold make
  have hz : checkZero (d == 0) = .ok () := by simp [checkZero, h0]
  rw [hz, Res.ok_bind]
  rcases lt_or_gt_of_ne h0 with h | h
  · rw [if_pos h]
    obtain ⟨f, e, v, q⟩ := reduce (n := -n) (d := -d) (by rwa [abs_neg]) (by omega) (by
      have := abs_le.1 hd; omega)
    refine ⟨f, ?_, v, ?_⟩
    · unfold ineg
      rw [ck_ok (bound_of_abs (by rwa [abs_neg])).1, Res.ok_bind, ck_ok (bound_of_abs (by rwa [abs_neg])).1, Res.ok_bind]
      exact e
    · rw [q]; push_cast; rw [neg_div_neg_eq]
  · rw [if_neg (by omega)]
    obtain ⟨f, e, v, q⟩ := reduce (n := n) (d := d) hn h (by have := abs_le.1 hd; omega)
    exact ⟨f, e, v, q⟩

theorem make_zero (n : Int) : make n 0 = .throw "Error: Divide by zero." := rfl

theorem make_min {n d : Int} (h0 : d ≠ 0) (h : n = INT_MIN ∨ d = INT_MIN) : make n d = .ub .overflow := by
  unfold make
  have hz : checkZero (d == 0) = .ok () := by simp [checkZero, h0]
  rw [hz, Res.ok_bind]
  have hm : ineg INT_MIN = .ub .overflow := ck_ub (by unfold IsInt INT_MIN INT_MAX; omega)
  by_cases hd : d < 0
  · rw [if_pos hd]
    rcases h with rfl | rfl
    · rw [hm]; rfl
    · rw [hm]
      unfold ineg ck
      split <;> rfl
  · rw [if_neg hd]
    have : n = INT_MIN := by rcases h with h | h; exact h; exact absurd (by rw [h]; decide) hd
    subst this
    rfl

variable {x y : Frac}

theorem Valid.den_ne (h : x.Valid) : (x.den : ℚ) ≠ 0 := by
  have := h.pos; exact_mod_cast (ne_of_gt this)

theorem Valid.den_pos (h : x.Valid) : (0 : ℚ) < x.den := by exact_mod_cast h.pos

theorem Valid.abs_den (h : x.Valid) : |x.den| ≤ INT_MAX := by rw [abs_of_pos h.pos]; exact h.den_le

theorem Valid.val_eq_zero (h : x.Valid) : x.val = 0 ↔ x.num = 0 := by
  unfold val; rw [div_eq_zero_iff]; simp [h.den_ne]

theorem Valid.num_sign (h : x.Valid) : 0 ≤ x.num ↔ 0 ≤ x.val := by
  unfold val
  rw [le_div_iff₀ h.den_pos, zero_mul]; exact_mod_cast Iff.rfl

/-- Fractions in lowest terms with the same value are the same. -/
theorem Valid.ext (hx : x.Valid) (hy : y.Valid) (h : x.val = y.val) : x = y := by
  unfold val at h
  rw [div_eq_div_iff hx.den_ne hy.den_ne] at h
  have h : x.num * y.den = y.num * x.den := by exact_mod_cast h
  have h1 : x.den ∣ y.den := hx.coprime.symm.dvd_of_dvd_mul_left ⟨y.num, by rw [h]; ring⟩
  have h2 : y.den ∣ x.den := hy.coprime.symm.dvd_of_dvd_mul_left ⟨x.num, by rw [← h]; ring⟩
  have hd : x.den = y.den := Int.dvd_antisymm (le_of_lt hx.pos) (le_of_lt hy.pos) h1 h2
  have hn : x.num = y.num := by rw [hd] at h; exact mul_right_cancel₀ (ne_of_gt hy.pos) h
  cases x; cases y; simp_all

/-- The denominator in lowest terms divides every other. -/
theorem Valid.den_dvd (h : x.Valid) {X L : Int} (hL : 0 < L) (e : x.val = (X : ℚ) / L) : x.den ∣ L := by
  unfold val at e
  have hL' : (L : ℚ) ≠ 0 := by exact_mod_cast (ne_of_gt hL)
  rw [div_eq_div_iff h.den_ne hL'] at e
  have e : x.num * L = X * x.den := by exact_mod_cast e
  exact h.coprime.symm.dvd_of_dvd_mul_left ⟨X, by rw [e]; ring⟩

theorem Valid.bounds (h : x.Valid) {X L : Int} (hL : 0 < L) (e : x.val = (X : ℚ) / L) : x.den ≤ L ∧ |x.num| ≤ |X| := by
  have hd := h.den_dvd hL e
  refine ⟨Int.le_of_dvd hL hd, ?_⟩
  obtain ⟨c, hc⟩ := hd
  have hc0 : 0 < c := by rw [hc] at hL; exact (mul_pos_iff_of_pos_left h.pos).1 hL
  unfold val at e
  have hL' : (L : ℚ) ≠ 0 := by exact_mod_cast (ne_of_gt hL)
  rw [div_eq_div_iff h.den_ne hL'] at e
  have e : x.num * L = X * x.den := by exact_mod_cast e
  rw [hc] at e
  have : X = x.num * c := by
    apply mul_right_cancel₀ (ne_of_gt h.pos); rw [← e]; ring
  rw [this, abs_mul, abs_of_pos hc0]
  nlinarith [abs_nonneg x.num]

/-! ## Conversion to `double` -/

theorem toDouble_eq (h : x.Valid) : x.toDouble = .fin (Dbl.rnd x.val) := by
  have h1 : |x.num| < 2 ^ 53 := lt_of_le_of_lt h.num_le (by unfold INT_MAX; norm_num)
  have h2 : |x.den| < 2 ^ 53 := lt_of_le_of_lt h.abs_den (by unfold INT_MAX; norm_num)
  unfold toDouble
  rw [Dbl.ofInt_eq h1, Dbl.ofInt_eq h2]
  unfold Dbl.div
  simp only
  rw [if_neg h.den_ne]
  have hv : (x.num : ℚ) / x.den = x.val := rfl
  rw [hv]
  apply Dbl.ofRat_small
  by_cases h0 : x.val = 0
  · rw [h0, Dbl.rnd_zero]; simp
  · have hd1 : (1 : ℚ) ≤ x.den := by exact_mod_cast h.pos
    have hu : |x.val| ≤ INT_MAX := by
      unfold val
      rw [abs_div, abs_of_pos h.den_pos, div_le_iff₀ h.den_pos]
      have : |(x.num : ℚ)| ≤ INT_MAX := by exact_mod_cast h.num_le
      have hI : (0 : ℚ) ≤ INT_MAX := by unfold INT_MAX; norm_num
      nlinarith
    have hl := val_ge h h0
    have := Dbl.rnd_rel (hl)
    have h3 : |Dbl.rnd x.val| ≤ |x.val| + |x.val| / 2 ^ 53 := by
      have := abs_sub_abs_le_abs_sub (Dbl.rnd x.val) x.val
      linarith
    have h4 : |x.val| / 2 ^ 53 ≤ |x.val| := div_le_self (abs_nonneg _) (by norm_num)
    have h5 : (2 : ℚ) ^ 53 < 2 ^ 1024 := pow_lt_pow_right₀ (by norm_num) (by norm_num)
    have h6 : (INT_MAX : ℚ) + INT_MAX ≤ 2 ^ 53 := by unfold INT_MAX; norm_num
    exact lt_of_le_of_lt (by linarith) h5
where
  val_ge (h : x.Valid) (h0 : x.val ≠ 0) : (2 : ℚ) ^ (-1022 : ℤ) ≤ |x.val| := by
    have hn : x.num ≠ 0 := fun e => h0 (h.val_eq_zero.2 e)
    have h1 : (1 : ℚ) ≤ |(x.num : ℚ)| := by exact_mod_cast Int.one_le_abs hn
    have h2 : (x.den : ℚ) ≤ 2 ^ (31 : ℤ) := by
      have : (x.den : ℚ) ≤ INT_MAX := by exact_mod_cast h.den_le
      refine this.trans ?_
      unfold INT_MAX; norm_num
    unfold val
    rw [abs_div, abs_of_pos h.den_pos, le_div_iff₀ h.den_pos]
    have h3 : (2 : ℚ) ^ (-1022 : ℤ) ≤ 2 ^ (-31 : ℤ) := zpow_le_zpow_right₀ (by norm_num) (by norm_num)
    have h4 : (2 : ℚ) ^ (-31 : ℤ) * 2 ^ (31 : ℤ) = 1 := by rw [← zpow_add₀ (by norm_num)]; norm_num
    have h5 : (0 : ℚ) < 2 ^ (-1022 : ℤ) := zpow_pos (by norm_num) _
    have h6 : (0 : ℚ) < x.den := h.den_pos
    calc (2 : ℚ) ^ (-1022 : ℤ) * x.den ≤ 2 ^ (-31 : ℤ) * 2 ^ (31 : ℤ) := by
          apply mul_le_mul h3 h2 (le_of_lt h6) (zpow_nonneg (by norm_num) _)
      _ = 1 := h4
      _ ≤ _ := h1

theorem rnd_val_eq_zero (h : x.Valid) : Dbl.rnd x.val = 0 ↔ x.num = 0 := by
  constructor
  · intro e
    by_contra hn
    have h0 : x.val ≠ 0 := fun e => hn (h.val_eq_zero.1 e)
    have := Dbl.rnd_rel (toDouble_eq.val_ge h h0)
    rw [e, zero_sub, abs_neg] at this
    have hp : 0 < |x.val| := abs_pos.2 h0
    have : |x.val| / 2 ^ 53 < |x.val| := div_lt_self hp (by norm_num)
    linarith
  · intro e; rw [h.val_eq_zero.2 e, Dbl.rnd_zero]

theorem isZero_eq (h : x.Valid) : x.isZero = decide (x.num = 0) := by
  unfold isZero
  rw [toDouble_eq h, Dbl.ofInt_eq (by norm_num)]
  unfold Dbl.eq
  simp only [Int.cast_zero, rnd_val_eq_zero h]

/-! ## Arithmetic -/

theorem neg_ok (h : x.Valid) : ∃ f, neg x = .ok f ∧ f.Valid ∧ f.val = -x.val := by
  have hb : |-x.num| ≤ INT_MAX := by rw [abs_neg]; exact h.num_le
  obtain ⟨f, e, v, q⟩ := make_ok hb h.abs_den (ne_of_gt h.pos)
  refine ⟨f, ?_, v, ?_⟩
  · unfold neg ineg; rw [ck_ok (bound_of_abs hb).1, Res.ok_bind, e]
  · rw [q]; unfold val; push_cast; ring

theorem abs_ok (h : x.Valid) : ∃ f, abs x = .ok f ∧ f.Valid ∧ f.val = |x.val| := by
  unfold abs
  by_cases hn : x.num ≥ 0
  · rw [if_pos hn]; exact ⟨x, rfl, h, (abs_of_nonneg (h.num_sign.1 hn)).symm⟩
  · rw [if_neg hn]
    obtain ⟨f, e, v, q⟩ := neg_ok h
    refine ⟨f, e, v, ?_⟩
    rw [q, abs_of_neg]
    exact not_le.1 (fun e => hn (h.num_sign.2 e))

/-- Numerator and denominator computed, then the constructor. -/
theorem make_fit {n d : Int} (h0 : d ≠ 0) :
    ExactIf (|n| ≤ INT_MAX ∧ |d| ≤ INT_MAX) ((n : ℚ) / d) (do
      let n ← ck n
      let d ← ck d
      make n d) := by
  constructor
  · rintro ⟨hn, hd⟩
    rw [ck_ok (bound_of_abs hn).1, Res.ok_bind, ck_ok (bound_of_abs hd).1, Res.ok_bind]
    exact make_ok hn hd h0
  · intro h
    by_cases hn : IsInt n
    · rw [ck_ok hn, Res.ok_bind]
      by_cases hd : IsInt d
      · rw [ck_ok hd, Res.ok_bind]
        apply make_min h0
        by_contra hc
        push Not at hc
        exact h ⟨abs_of_bound hn hc.1, abs_of_bound hd hc.2⟩
      · rw [ck_ub hd]; rfl
    · rw [ck_ub hn]; rfl

theorem ExactIf.bind {fits : Prop} {q : ℚ} {r : Int → Res Frac} {a : Int} (h : ExactIf fits q (r a)) :
    ExactIf (IsInt a ∧ fits) q (do let a ← ck a; r a) := by
  constructor
  · rintro ⟨ha, hf⟩; rw [ck_ok ha, Res.ok_bind]; exact h.1 hf
  · intro hn
    by_cases ha : IsInt a
    · rw [ck_ok ha, Res.ok_bind]; exact h.2 (fun hf => hn ⟨ha, hf⟩)
    · rw [ck_ub ha]; rfl

theorem ExactIf.congr {f g : Prop} {q q' : ℚ} {r : Res Frac} (h : ExactIf f q r) (e : g ↔ f) (hq : q = q') : ExactIf g q' r := by
  subst hq
  exact ⟨fun hg => h.1 (e.1 hg), fun hg => h.2 (fun hf => hg (e.2 hf))⟩

theorem add_exact (hx : x.Valid) (hy : y.Valid) :
    ExactIf (IsInt (x.num * y.den) ∧ IsInt (x.den * y.num) ∧ |x.num * y.den + x.den * y.num| ≤ INT_MAX ∧ x.den * y.den ≤ INT_MAX)
      (x.val + y.val) (add x y) := by
  have hd : 0 < x.den * y.den := mul_pos hx.pos hy.pos
  refine (ExactIf.bind (ExactIf.bind (make_fit (ne_of_gt hd)))).congr ?_ ?_
  · rw [abs_of_pos hd]
  · unfold val
    have := hx.den_ne; have := hy.den_ne
    push_cast
    field_simp

theorem sub_exact (hx : x.Valid) (hy : y.Valid) :
    ExactIf (IsInt (x.num * y.den) ∧ IsInt (x.den * y.num) ∧ |x.num * y.den - x.den * y.num| ≤ INT_MAX ∧ x.den * y.den ≤ INT_MAX)
      (x.val - y.val) (sub x y) := by
  have hd : 0 < x.den * y.den := mul_pos hx.pos hy.pos
  refine (ExactIf.bind (ExactIf.bind (make_fit (ne_of_gt hd)))).congr ?_ ?_
  · rw [abs_of_pos hd]
  · unfold val
    have := hx.den_ne; have := hy.den_ne
    push_cast
    field_simp

theorem mul_exact (hx : x.Valid) (hy : y.Valid) :
    ExactIf (|x.num * y.num| ≤ INT_MAX ∧ x.den * y.den ≤ INT_MAX) (x.val * y.val) (mul x y) := by
  have hd : 0 < x.den * y.den := mul_pos hx.pos hy.pos
  refine (make_fit (ne_of_gt hd)).congr ?_ ?_
  · rw [abs_of_pos hd]
  · unfold val
    have := hx.den_ne; have := hy.den_ne
    push_cast
    field_simp

theorem div_exact (hx : x.Valid) (hy : y.Valid) (h0 : y.val ≠ 0) :
    ExactIf (|x.num * y.den| ≤ INT_MAX ∧ |x.den * y.num| ≤ INT_MAX) (x.val / y.val) (div x y) := by
  have hn : y.num ≠ 0 := fun e => h0 (hy.val_eq_zero.2 e)
  refine (make_fit (mul_ne_zero (ne_of_gt hx.pos) hn)).congr Iff.rfl ?_
  unfold val
  have := hx.den_ne; have := hy.den_ne
  have : (y.num : ℚ) ≠ 0 := by exact_mod_cast hn
  push_cast
  field_simp

/-- Zero has one representation. -/
theorem Valid.zero (h : x.Valid) (h0 : x.val = 0) : x = ⟨0, 1⟩ :=
  h.ext ⟨by decide, isCoprime_one_right, by decide, by decide⟩ (by rw [h0]; simp [val])

theorem div_zero (hx : x.Valid) (hy : y.Valid) (h0 : y.val = 0) : div x y = .throw "Error: Divide by zero." := by
  rw [hy.zero h0]
  unfold div imul
  simp only [mul_one, mul_zero]
  rw [ck_ok (bound_of_abs hx.num_le).1, Res.ok_bind, ck_ok (by decide), Res.ok_bind, make_zero]

/-! ## Remainder -/

theorem truncQ_div {a b : Int} (hb : b ≠ 0) : truncQ ((a : ℚ) / b) = a.tdiv b := by
  have hdiv := Int.mul_tdiv_add_tmod a b
  have hlt : |a.tmod b| < |b| := by
    rw [Int.abs_eq_natAbs, Int.abs_eq_natAbs, Int.natAbs_tmod]
    exact_mod_cast Nat.mod_lt _ (by omega)
  have hsgn : 0 ≤ a.tmod b * a := by
    rcases le_total 0 a with h | h
    · exact mul_nonneg (Int.tmod_nonneg _ h) h
    · refine mul_nonneg_of_nonpos_of_nonpos ?_ h
      have := Int.tmod_nonneg (a := -a) b (by omega)
      rw [Int.neg_tmod] at this; omega
  generalize a.tdiv b = t at *
  generalize a.tmod b = r at *
  have hbq : (b : ℚ) ≠ 0 := by exact_mod_cast hb
  have e : (a : ℚ) / b = t + r / b := by
    rw [← hdiv]; push_cast; field_simp
  have hr1 : |(r : ℚ) / b| < 1 := by
    rw [abs_div, div_lt_one (abs_pos.2 hbq)]; exact_mod_cast hlt
  have hs : (0 : ℚ) ≤ (r / b) * (a / b) := by
    have : (r : ℚ) / b * (a / b) = (r * a) / (b * b) := by field_simp
    rw [this]
    exact div_nonneg (by exact_mod_cast hsgn) (mul_self_nonneg _)
  have hr2 := abs_lt.1 hr1
  unfold truncQ
  split
  · next h =>
    rw [Int.floor_eq_iff]
    rcases h.eq_or_lt with h | h
    · have : a = 0 := by
        have := h.symm; rw [div_eq_zero_iff] at this; simpa [hbq] using this
      subst this
      have hr0 : (r : ℚ) / b = -t := by linarith
      rw [hr0] at hr2
      have : t = 0 := by
        have h1 : -1 < t := by exact_mod_cast (by linarith [hr2.2] : (-1 : ℚ) < t)
        have h2 : t < 1 := by exact_mod_cast (by linarith [hr2.1] : (t : ℚ) < 1)
        omega
      subst this; simp
    · have : 0 ≤ (r : ℚ) / b := nonneg_of_mul_nonneg_left hs h
      constructor <;> linarith [hr2.2]
  · next h =>
    rw [Int.ceil_eq_iff]
    have : (r : ℚ) / b ≤ 0 := by
      by_contra hc
      have := mul_neg_of_pos_of_neg (not_le.1 hc) (not_le.1 h)
      linarith
    constructor <;> linarith [hr2.1]

theorem tdiv_isInt {a b : Int} (ha : IsInt a) (hb : b ≠ 0) : IsInt (a.tdiv b) ↔ ¬ (a = INT_MIN ∧ b = -1) := by
  constructor
  · rintro h ⟨rfl, rfl⟩
    revert h; decide
  · intro h
    have h1 : (a.tdiv b).natAbs = a.natAbs / b.natAbs := Int.natAbs_tdiv a b
    have h2 : a.natAbs / b.natAbs ≤ a.natAbs := Nat.div_le_self _ _
    by_cases hm : a = INT_MIN
    · subst hm
      by_cases hb1 : b = 1
      · subst hb1; rw [Int.tdiv_one]; exact ha
      · have hb2 : 2 ≤ b.natAbs := by
          have : b ≠ -1 := fun e => h ⟨rfl, e⟩
          omega
        have h3 : INT_MIN.natAbs / b.natAbs ≤ INT_MIN.natAbs / 2 := Nat.div_le_div_left hb2 (by norm_num)
        have h4 : INT_MIN.natAbs / 2 = 1073741824 := by decide
        unfold IsInt INT_MIN INT_MAX
        unfold INT_MIN at *
        omega
    · unfold IsInt INT_MIN INT_MAX at *; omega

theorem mod_zero (hy : y.Valid) (h0 : y.val = 0) : mod x y = .throw "Error: Divide by zero." := by
  unfold mod
  rw [isZero_eq hy, decide_eq_true (hy.val_eq_zero.1 h0)]
  rfl

theorem mod_exact (hx : x.Valid) (hy : y.Valid) (h0 : y.val ≠ 0) :
    ExactIf (IsInt (x.num * y.den) ∧ IsInt (y.num * x.den) ∧ ¬ (x.num * y.den = INT_MIN ∧ y.num * x.den = -1) ∧ x.den * y.den ≤ INT_MAX)
      (x.val - y.val * truncQ (x.val / y.val)) (mod x y) := by
  have hn : y.num ≠ 0 := fun e => h0 (hy.val_eq_zero.2 e)
  have hd : 0 < x.den * y.den := mul_pos hx.pos hy.pos
  have hb0 : y.num * x.den ≠ 0 := mul_ne_zero hn (ne_of_gt hx.pos)
  have hz : mod x y = (do
      let a ← ck (x.num * y.den)
      let b ← ck (y.num * x.den)
      let n ← imod a b
      let d ← ck (x.den * y.den)
      make n d) := by
    unfold mod
    rw [isZero_eq hy, decide_eq_false hn]
    rfl
  rw [hz]
  have hq : x.val - y.val * truncQ (x.val / y.val) = (((x.num * y.den).tmod (y.num * x.den) : ℤ) : ℚ) / (x.den * y.den : ℤ) := by
    have e : x.val / y.val = ((x.num * y.den : ℤ) : ℚ) / (y.num * x.den : ℤ) := by
      unfold val
      have := hx.den_ne; have := hy.den_ne
      have : (y.num : ℚ) ≠ 0 := by exact_mod_cast hn
      push_cast; field_simp
    rw [e, truncQ_div hb0, Int.tmod_def]
    unfold val
    have := hx.den_ne; have := hy.den_ne
    push_cast; field_simp
  rw [hq]
  have hlt : IsInt (y.num * x.den) → |(x.num * y.den).tmod (y.num * x.den)| ≤ INT_MAX := by
    intro h
    have hlt : |(x.num * y.den).tmod (y.num * x.den)| < |y.num * x.den| := by
      rw [Int.abs_eq_natAbs, Int.abs_eq_natAbs, Int.natAbs_tmod]
      exact_mod_cast Nat.mod_lt _ (by omega)
    have : |y.num * x.den| ≤ INT_MAX + 1 := by
      rw [abs_le]; unfold IsInt INT_MIN at h; unfold INT_MAX at *; omega
    omega
  by_cases ha : IsInt (x.num * y.den)
  swap
  · exact ⟨fun h => absurd h.1 ha, fun _ => by rw [ck_ub ha]; rfl⟩
  by_cases hb : IsInt (y.num * x.den)
  swap
  · exact ⟨fun h => absurd h.2.1 hb, fun _ => by rw [ck_ok ha, Res.ok_bind, ck_ub hb]; rfl⟩
  rw [ck_ok ha, Res.ok_bind, ck_ok hb, Res.ok_bind]
  unfold imod
  rw [if_neg hb0]
  by_cases hm : x.num * y.den = INT_MIN ∧ y.num * x.den = -1
  · rw [if_neg (by rw [tdiv_isInt ha hb0]; exact not_not.2 hm)]
    exact ⟨fun h => absurd hm h.2.2.1, fun _ => rfl⟩
  rw [if_pos ((tdiv_isInt ha hb0).2 hm), Res.ok_bind]
  have hl := hlt hb
  have := make_fit (n := (x.num * y.den).tmod (y.num * x.den)) (ne_of_gt hd)
  rw [ck_ok (bound_of_abs hl).1, Res.ok_bind, abs_of_pos hd] at this
  exact this.congr (by tauto) rfl

/-! ## Greatest common divisor -/

theorem mod_step (hx : x.Valid) (hy : y.Valid) {X Y : ℕ} {L : ℤ} (hL : 0 < L) (hY : Y ≠ 0)
    (ex : x.val = (X : ℤ) / L) (ey : y.val = (Y : ℤ) / L) :
    (mod x y = .ub .overflow ∨ ∃ r, mod x y = .ok r ∧ r.Valid ∧ r.val = ((X % Y : ℕ) : ℤ) / L) ∧
    (X * L ≤ INT_MAX → Y * L ≤ INT_MAX → L * L ≤ INT_MAX → mod x y ≠ .ub .overflow) := by
  have hLq : (L : ℚ) ≠ 0 := by exact_mod_cast (ne_of_gt hL)
  have hYq : (Y : ℚ) ≠ 0 := by exact_mod_cast hY
  have h0 : y.val ≠ 0 := by rw [ey]; exact div_ne_zero (by exact_mod_cast hY) hLq
  have h := mod_exact hx hy h0
  have et : x.val - y.val * truncQ (x.val / y.val) = ((X % Y : ℕ) : ℤ) / L := by
    have e : x.val / y.val = ((X : ℤ) : ℚ) / (Y : ℤ) := by rw [ex, ey]; push_cast; field_simp
    rw [e, truncQ_div (by exact_mod_cast hY), Int.tdiv_eq_ediv_of_nonneg (by omega), ex, ey]
    have hm : (X : ℤ) = Y * ((X : ℤ) / Y) + ((X % Y : ℕ) : ℤ) := by
      push_cast; exact (Int.mul_ediv_add_emod _ _).symm
    generalize ((X % Y : ℕ) : ℤ) = m at *
    generalize (X : ℤ) / Y = t at *
    rw [div_mul_eq_mul_div, ← sub_div, hm]
    congr 1
    push_cast; ring
  rw [et] at h
  constructor
  · by_cases hf : IsInt (x.num * y.den) ∧ IsInt (y.num * x.den) ∧ ¬ (x.num * y.den = INT_MIN ∧ y.num * x.den = -1) ∧ x.den * y.den ≤ INT_MAX
    · exact .inr (h.1 hf)
    · exact .inl (h.2 hf)
  · intro h1 h2 h3
    have bx := hx.bounds hL ex
    have by' := hy.bounds hL ey
    rw [Nat.abs_cast] at bx by'
    have nx : 0 ≤ x.num := hx.num_sign.2 (by rw [ex]; exact div_nonneg (by positivity) (by exact_mod_cast hL.le))
    have ny : 0 ≤ y.num := hy.num_sign.2 (by rw [ey]; exact div_nonneg (by positivity) (by exact_mod_cast hL.le))
    rw [abs_of_nonneg nx] at bx
    rw [abs_of_nonneg ny] at by'
    have px := hx.pos
    have py := hy.pos
    have a1 : x.num * y.den ≤ X * L := mul_le_mul bx.2 by'.1 py.le (by omega)
    have a2 : y.num * x.den ≤ Y * L := mul_le_mul by'.2 bx.1 px.le (by omega)
    have a3 : x.den * y.den ≤ L * L := mul_le_mul bx.1 by'.1 py.le hL.le
    have b1 : 0 ≤ x.num * y.den := mul_nonneg nx py.le
    have b2 : 0 ≤ y.num * x.den := mul_nonneg ny px.le
    obtain ⟨r, e, -⟩ := h.1 ⟨by unfold IsInt INT_MIN; omega, by unfold IsInt INT_MIN; omega, by omega, by omega⟩
    rw [e]; simp

theorem gcdLoop_spec {L : ℤ} (hL : 0 < L) : ∀ (Y X : ℕ) (x y : Frac), x.Valid → y.Valid →
    x.val = (X : ℤ) / L → y.val = (Y : ℤ) / L →
    ∃ r, (∀ k, Y < k → gcdLoop k x y = r) ∧
      (r = .ub .overflow ∨ ∃ g, r = .ok g ∧ g.Valid ∧ g.val = (Nat.gcd X Y : ℤ) / L) ∧
      (X * L ≤ INT_MAX → Y * L ≤ INT_MAX → L * L ≤ INT_MAX → r ≠ .ub .overflow) := by
  intro Y
  induction Y using Nat.strong_induction_on with
  | _ Y ih =>
    intro X x y hx hy ex ey
    have hLq : (L : ℚ) ≠ 0 := by exact_mod_cast (ne_of_gt hL)
    by_cases hY : Y = 0
    · subst hY
      have hz : y.isZero = true := by
        rw [isZero_eq hy, decide_eq_true]
        exact hy.val_eq_zero.1 (by rw [ey]; simp)
      refine ⟨.ok x, ?_, .inr ⟨x, rfl, hx, by simpa using ex⟩, fun _ _ _ h => by simp at h⟩
      intro k hk
      obtain ⟨k, rfl⟩ : ∃ j, k = j + 1 := ⟨k - 1, by omega⟩
      rw [gcdLoop, if_pos hz]
    · have hz : y.isZero = false := by
        rw [isZero_eq hy, decide_eq_false]
        intro e
        have := hy.val_eq_zero.2 e
        rw [ey] at this
        exact div_ne_zero (by exact_mod_cast hY) hLq this
      have hk : ∀ k, Y < k → ∃ j, k = j + 1 ∧ Y ≤ j := fun k h => ⟨k - 1, by omega, by omega⟩
      obtain ⟨h1, h2⟩ := mod_step hx hy hL hY ex ey
      rcases h1 with h1 | ⟨r, e, hr, er⟩
      · refine ⟨.ub .overflow, ?_, .inl rfl, fun a b c => absurd h1 (h2 a b c)⟩
        intro k h
        obtain ⟨k, rfl, -⟩ := hk k h
        rw [gcdLoop, if_neg (by rw [hz]; simp), h1]; rfl
      · have hlt : X % Y < Y := Nat.mod_lt _ (by omega)
        obtain ⟨o, ho, hs, hb⟩ := ih (X % Y) hlt Y y r hy hr ey er
        refine ⟨o, ?_, ?_, ?_⟩
        · intro k h
          obtain ⟨k, rfl, hj⟩ := hk k h
          rw [gcdLoop, if_neg (by rw [hz]; simp), e, Res.ok_bind, ho k (by omega)]
        · rwa [Nat.gcd_comm Y, ← Nat.gcd_rec, Nat.gcd_comm Y] at hs
        · intro a b c
          refine hb b (le_trans ?_ b) c
          exact mul_le_mul_of_nonneg_right (by exact_mod_cast hlt.le) hL.le

/-- `gcd` of two fractions over a common denominator. -/
theorem gcd_spec (hx : x.Valid) (hy : y.Valid) {X Y L : ℤ} (hL : 0 < L) (ex : x.val = X / L) (ey : y.val = Y / L) :
    ∃ r, (∀ k, Y.natAbs < k → gcd x y k = r) ∧
      (r = .ub .overflow ∨ ∃ g, r = .ok g ∧ g.Valid ∧ g.val = (Int.gcd X Y : ℤ) / L) ∧
      (|X| * L ≤ INT_MAX → |Y| * L ≤ INT_MAX → L * L ≤ INT_MAX → r ≠ .ub .overflow) := by
  obtain ⟨a, ea, va, qa⟩ := abs_ok hx
  obtain ⟨b, eb, vb, qb⟩ := abs_ok hy
  have hLq : (0 : ℚ) < L := by exact_mod_cast hL
  have ex' : a.val = ((X.natAbs : ℤ) : ℚ) / L := by
    rw [qa, ex, abs_div, abs_of_pos hLq, ← Int.abs_eq_natAbs]; push_cast; rfl
  have ey' : b.val = ((Y.natAbs : ℤ) : ℚ) / L := by
    rw [qb, ey, abs_div, abs_of_pos hLq, ← Int.abs_eq_natAbs]; push_cast; rfl
  obtain ⟨r, h1, h2, h3⟩ := gcdLoop_spec hL Y.natAbs X.natAbs a b va vb ex' ey'
  refine ⟨r, ?_, h2, ?_⟩
  · intro k hk
    unfold gcd
    rw [ea, Res.ok_bind, eb, Res.ok_bind, h1 k hk]
  · rw [Int.abs_eq_natAbs, Int.abs_eq_natAbs]; exact h3

theorem isGcd_div (X Y : ℤ) {L : ℤ} (hL : 0 < L) : IsGcd ((Int.gcd X Y : ℤ) / L) (X / L) (Y / L) := by
  have hLq : (0 : ℚ) < L := by exact_mod_cast hL
  refine ⟨div_nonneg (by positivity) hLq.le, ?_, ?_, ?_⟩
  · obtain ⟨c, hc⟩ := Int.gcd_dvd_left X Y
    refine ⟨c, ?_⟩
    have hc : (X : ℚ) = (Int.gcd X Y : ℤ) * c := by exact_mod_cast hc
    rw [mul_div_assoc', mul_comm (c : ℚ), ← hc]
  · obtain ⟨c, hc⟩ := Int.gcd_dvd_right X Y
    refine ⟨c, ?_⟩
    have hc : (Y : ℚ) = (Int.gcd X Y : ℤ) * c := by exact_mod_cast hc
    rw [mul_div_assoc', mul_comm (c : ℚ), ← hc]
  · rintro h ⟨i, hi⟩ ⟨j, hj⟩
    refine ⟨i * Int.gcdA X Y + j * Int.gcdB X Y, ?_⟩
    have hb : ((Int.gcd X Y : ℤ) : ℚ) = X * Int.gcdA X Y + Y * Int.gcdB X Y := by
      exact_mod_cast Int.gcd_eq_gcd_ab X Y
    rw [hb, add_div, mul_div_right_comm, mul_div_right_comm, hi, hj]
    push_cast; ring

theorem isLcm_div {X Y L : ℤ} (hL : 0 < L) (hX : X ≠ 0) (hY : Y ≠ 0) :
    IsLcm ((Int.lcm X Y : ℤ) / L) (X / L) (Y / L) := by
  have hLq : (0 : ℚ) < L := by exact_mod_cast hL
  have hpos : 0 < (Int.lcm X Y : ℤ) := by
    have : Int.lcm X Y ≠ 0 := Int.lcm_ne_zero hX hY
    omega
  have hpq : (0 : ℚ) < (Int.lcm X Y : ℤ) := by exact_mod_cast hpos
  refine ⟨div_pos hpq hLq, ?_, ?_, ?_⟩
  · obtain ⟨c, hc⟩ := Int.dvd_lcm_left (a := X) (b := Y)
    refine ⟨c, ?_⟩
    have hc : ((Int.lcm X Y : ℤ) : ℚ) = X * c := by exact_mod_cast hc
    rw [hc]; ring
  · obtain ⟨c, hc⟩ := Int.dvd_lcm_right (a := X) (b := Y)
    refine ⟨c, ?_⟩
    have hc : ((Int.lcm X Y : ℤ) : ℚ) = Y * c := by exact_mod_cast hc
    rw [hc]; ring
  · rintro m hm ⟨i, hi⟩ ⟨j, hj⟩
    have e1 : m * L = i * X := by rw [hi]; field_simp
    have e2 : m * L = j * Y := by rw [hj]; field_simp
    have e : i * X = j * Y := by exact_mod_cast e1.symm.trans e2
    have hd : (Int.lcm X Y : ℤ) ∣ i * X := Int.coe_lcm_dvd ⟨i, by ring⟩ ⟨j, by rw [e]; ring⟩
    have hp : 0 < i * X := by
      have : (0 : ℚ) < i * X := by rw [← e1]; exact mul_pos hm hLq
      exact_mod_cast this
    have := Int.le_of_dvd hp hd
    rw [div_le_iff₀ hLq, e1]
    exact_mod_cast this

/-- Two fractions over a common denominator. -/
theorem common (hx : x.Valid) (hy : y.Valid) :
    x.val = ((x.num * y.den : ℤ) : ℚ) / (x.den * y.den : ℤ) ∧ y.val = ((y.num * x.den : ℤ) : ℚ) / (x.den * y.den : ℤ) := by
  have := hx.den_ne; have := hy.den_ne
  unfold val
  push_cast
  constructor <;> field_simp

theorem val_of_int {n : ℤ} (h : |n| ≤ INT_MAX) : ∃ f, ofInt n = .ok f ∧ f.Valid ∧ f.val = n := by
  obtain ⟨f, e, v, q⟩ := make_ok h (d := 1) (by decide) (by decide)
  exact ⟨f, e, v, by rw [q]; simp⟩

theorem lcm_zero (hx : x.Valid) (hy : y.Valid) (h : x.val = 0 ∨ y.val = 0) (k : ℕ) : lcm x y k = .ok ⟨0, 1⟩ := by
  unfold lcm
  rw [isZero_eq hx, isZero_eq hy]
  have : (decide (x.num = 0) || decide (y.num = 0)) = true := by
    rw [Bool.or_eq_true, decide_eq_true_iff, decide_eq_true_iff, ← hx.val_eq_zero, ← hy.val_eq_zero]; exact h
  rw [if_pos this]
  rfl

theorem lcm_spec (hx : x.Valid) (hy : y.Valid) {X Y L : ℤ} (hL : 0 < L) (hX : X ≠ 0) (hY : Y ≠ 0)
    (ex : x.val = X / L) (ey : y.val = Y / L) :
    ∃ r, (∀ k, Y.natAbs < k → lcm x y k = r) ∧
      (r = .ub .overflow ∨ ∃ g, r = .ok g ∧ g.Valid ∧ g.val = (Int.lcm X Y : ℤ) / L) ∧
      (|X| * |Y| * L ≤ INT_MAX → L * L * |X| ≤ INT_MAX → r ≠ .ub .overflow) := by
  have hLq : (0 : ℚ) < L := by exact_mod_cast hL
  have hx0 : x.num ≠ 0 := fun e => by
    have := hx.val_eq_zero.2 e; rw [ex] at this
    exact div_ne_zero (by exact_mod_cast hX) hLq.ne' this
  have hy0 : y.num ≠ 0 := fun e => by
    have := hy.val_eq_zero.2 e; rw [ey] at this
    exact div_ne_zero (by exact_mod_cast hY) hLq.ne' this
  obtain ⟨o, ho, hs, hb⟩ := gcd_spec hx hy hL ex ey
  have hl : ∀ k, lcm x y k = (do
      let p ← mul x y
      let p ← abs p
      let g ← gcd x y k
      div p g) := by
    intro k
    unfold lcm
    rw [isZero_eq hx, isZero_eq hy, decide_eq_false hx0, decide_eq_false hy0]
    rfl
  have hX1 : 1 ≤ |X| := Int.one_le_abs hX
  have hY1 : 1 ≤ |Y| := Int.one_le_abs hY
  have bx := hx.bounds hL ex
  have by' := hy.bounds hL ey
  have px := hx.pos
  have py := hy.pos
  have hnn : |x.num * y.num| ≤ |X| * |Y| := by
    rw [abs_mul]; exact mul_le_mul bx.2 by'.2 (abs_nonneg _) (abs_nonneg _)
  have hdd : x.den * y.den ≤ L * L := mul_le_mul bx.1 by'.1 py.le hL.le
  by_cases hf : |x.num * y.num| ≤ INT_MAX ∧ x.den * y.den ≤ INT_MAX
  swap
  · refine ⟨.ub .overflow, ?_, .inl rfl, ?_⟩
    · intro k _; rw [hl, (mul_exact hx hy).2 hf]; rfl
    · intro h1 h2
      exfalso
      refine hf ⟨hnn.trans (le_trans ?_ h1), hdd.trans (le_trans ?_ h2)⟩
      · have : 0 ≤ |X| * |Y| := by positivity
        nlinarith
      · have : 0 ≤ L * L := by positivity
        nlinarith
  obtain ⟨p, ep, vp, qp⟩ := (mul_exact hx hy).1 hf
  obtain ⟨p', ep', vp', qp'⟩ := abs_ok vp
  have hpv : p'.val = ((|X| * |Y| : ℤ) : ℚ) / (L * L : ℤ) := by
    rw [qp', qp, ex, ey, div_mul_div_comm, abs_div, abs_mul, abs_mul (L : ℚ), abs_of_pos hLq]
    push_cast; rfl
  rcases hs with rfl | ⟨g, rfl, vg, qg⟩
  · refine ⟨.ub .overflow, ?_, .inl rfl, ?_⟩
    · intro k hk; rw [hl, ep, Res.ok_bind, ep', Res.ok_bind, ho k hk]; rfl
    · intro h1 h2
      refine hb (le_trans ?_ h1) (le_trans ?_ h1) (le_trans ?_ h2)
      · have : 0 ≤ |X| * L := by positivity
        nlinarith
      · have : 0 ≤ |Y| * L := by positivity
        nlinarith
      · have : 0 ≤ L * L := by positivity
        nlinarith
  · have hgp : 0 < (Int.gcd X Y : ℤ) := by
      have : Int.gcd X Y ≠ 0 := by rw [ne_eq, Int.gcd_eq_zero_iff]; tauto
      omega
    have hgq : (0 : ℚ) < (Int.gcd X Y : ℤ) := by exact_mod_cast hgp
    have hg0 : g.val ≠ 0 := by rw [qg]; exact (div_pos hgq hLq).ne'
    have hval : p'.val / g.val = ((Int.lcm X Y : ℤ) : ℚ) / L := by
      rw [hpv, qg]
      have hgl : ((Int.gcd X Y : ℤ) : ℚ) * (Int.lcm X Y : ℤ) = |X| * |Y| := by
        have := Int.gcd_mul_lcm X Y
        have : (Int.gcd X Y : ℤ) * (Int.lcm X Y : ℤ) = |X| * |Y| := by
          rw [Int.abs_eq_natAbs, Int.abs_eq_natAbs, ← Int.natCast_mul, ← Int.natCast_mul]
          exact_mod_cast this
        exact_mod_cast this
      push_cast at hgl ⊢
      rw [← hgl]
      push_cast at hgq
      field_simp
    have hd := div_exact vp' vg hg0
    rw [hval] at hd
    refine ⟨div p' g, ?_, ?_, ?_⟩
    · intro k hk; rw [hl, ep, Res.ok_bind, ep', Res.ok_bind, ho k hk]; rfl
    · by_cases hc : |p'.num * g.den| ≤ INT_MAX ∧ |p'.den * g.num| ≤ INT_MAX
      · exact .inr (hd.1 hc)
      · exact .inl (hd.2 hc)
    · intro h1 h2
      have bp := vp'.bounds (mul_pos hL hL) hpv
      have bg := vg.bounds hL qg
      have hgX : (Int.gcd X Y : ℤ) ≤ |X| := Int.le_of_dvd (by omega) ((dvd_abs _ _).2 (Int.gcd_dvd_left X Y))
      have c1 : |p'.num * g.den| ≤ INT_MAX := by
        rw [abs_mul, abs_of_pos vg.pos]
        refine le_trans (mul_le_mul bp.2 bg.1 vg.pos.le (abs_nonneg _)) ?_
        rwa [abs_of_nonneg (by positivity)]
      have c2 : |p'.den * g.num| ≤ INT_MAX := by
        rw [abs_mul, abs_of_pos vp'.pos]
        refine le_trans (mul_le_mul bp.1 (bg.2.trans ?_) (abs_nonneg _) (by positivity)) h2
        rwa [abs_of_pos hgp]
      obtain ⟨r, e, -⟩ := hd.1 ⟨c1, c2⟩
      rw [e]; simp

end Frac
end Pyincpp
