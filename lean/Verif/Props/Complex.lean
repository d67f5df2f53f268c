import Verif.Spec.Complex
import Verif.Proof.Double
import Verif.Proof.List

/-! # Theorems about complex numbers (C56-C58, C61) -/

namespace Pyincpp
open Cx

theorem Cx.eq_real (x y : Cx ℝ) : eq Arith.real x y = true ↔ |x.re - y.re| < 1 / 2 ^ 52 ∧ |x.im - y.im| < 1 / 2 ^ 52 := by
  unfold eq
  rw [Bool.and_eq_true]
  exact and_congr (@decide_eq_true_iff _ (_)) (@decide_eq_true_iff _ (_))

theorem Cx.eq_zero_real (x : Cx ℝ) : eq Arith.real x ⟨Arith.real.zero, Arith.real.zero⟩ = true ↔ Tiny x := by
  rw [eq_real]
  have : Arith.real.zero = 0 := rfl
  simp only [this, sub_zero]
  rfl

/-! ## Arithmetic, exact -/

/-- C56 in exact arithmetic: `+`, `-`, `*`, unary minus, conjugate and `abs` are those of the complex numbers. -/
theorem C56_exact (x y : Cx ℝ) :
    (add Arith.real x y).toC = x.toC + y.toC ∧ (sub Arith.real x y).toC = x.toC - y.toC ∧
    (mul Arith.real x y).toC = x.toC * y.toC ∧ (neg Arith.real x).toC = -x.toC ∧
    (conjugate Arith.real x).toC = (starRingEnd ℂ) x.toC ∧ abs CMath.real x = ‖x.toC‖ := by
  refine ⟨rfl, rfl, ?_, rfl, rfl, ?_⟩
  · apply Complex.ext <;> simp [toC, mul, Arith.real]
  · rw [Complex.norm_eq_sqrt_sq_add_sq]; rfl

/-- C56, division, in exact arithmetic: the quotient, for every divisor that has a component of at least 2^-52; otherwise
it throws. Missing: divisors other than zero with smaller components (`C56_div_not`). -/
theorem C56_div_partial (x y : Cx ℝ) :
    (Tiny y → div Arith.real x y = .throw "Error: Divide by zero.") ∧
    (¬ Tiny y → ∃ q, div Arith.real x y = .ok q ∧ q.toC = x.toC / y.toC) := by
  unfold div
  constructor
  · intro h
    rw [(eq_zero_real y).2 h]; rfl
  · intro h
    have : eq Arith.real y ⟨Arith.real.zero, Arith.real.zero⟩ = false := by
      rw [Bool.eq_false_iff]; exact fun e => h ((eq_zero_real y).1 e)
    rw [this]
    refine ⟨_, rfl, ?_⟩
    apply Complex.ext
    · simp only [toC, Arith.real, Complex.div_re, Complex.normSq_mk]
      ring
    · simp only [toC, Arith.real, Complex.div_im, Complex.normSq_mk]
      ring

example : ¬ Tiny ⟨1, 2⟩ := by intro h; have := h.1; norm_num at this

/-- C56: dividing by zero throws. -/
theorem C56_div_zero (x y : Cx ℝ) (h : y.toC = 0) : div Arith.real x y = .throw "Error: Divide by zero." := by
  refine (C56_div_partial x y).1 ?_
  have h1 : y.re = 0 := congrArg Complex.re h
  have h2 : y.im = 0 := congrArg Complex.im h
  unfold Tiny
  rw [h1, h2, abs_zero]; norm_num

/-- C56 fails: dividing by 2^-53, which is not zero, throws. -/
theorem C56_div_not : ∃ x y : Cx ℝ, y.toC ≠ 0 ∧ div Arith.real x y = .throw "Error: Divide by zero." := by
  refine ⟨⟨1, 0⟩, ⟨1 / 2 ^ 53, 0⟩, ?_, (C56_div_partial _ _).1 ?_⟩
  · intro h
    have : (1 / 2 ^ 53 : ℝ) = 0 := congrArg Complex.re h
    norm_num at this
  · unfold Tiny
    simp only
    rw [abs_of_pos (by norm_num), abs_zero]; norm_num

/-- C56 for the compound assignments: they store the result of the operator; when it throws, nothing is stored. The argument
may be the number itself. -/
theorem C56_assign {F : Type} (A : Arith F) (o : Op) (rhs : Option (Cx F)) (x : Cx F) :
    (∀ f, o.run A x (rhs.getD x) = .ok f → assignM A o rhs x = (.ok (), f)) ∧
    (∀ m, o.run A x (rhs.getD x) = .throw m → assignM A o rhs x = (.throw m, x)) := by
  unfold assignM
  refine ⟨fun f h => ?_, fun m h => ?_⟩ <;> rw [Meth.get_bind, h] <;> rfl

/-- C61 for complex numbers (any arithmetic): a compound assignment that throws leaves the number as it was. -/
theorem C61_complex {F : Type} (A : Arith F) (o : Op) (rhs : Option (Cx F)) (x : Cx F) (m : String)
    (h : (assignM A o rhs x).1 = .throw m) : (assignM A o rhs x).2 = x := by
  obtain ⟨h1, h2⟩ := C56_assign A o rhs x
  cases hr : o.run A x (rhs.getD x) with
  | ok f => rw [h1 f hr] at h; simp at h
  | throw m => rw [h2 m hr]
  | ub u => unfold assignM; rw [Meth.get_bind, hr]; rfl
  | fuel => unfold assignM; rw [Meth.get_bind, hr]; rfl

example : assignM Arith.double .div (some ⟨.fin 0, .fin 0⟩) ⟨.fin 1, .fin 2⟩
    = (.throw "Error: Divide by zero.", ⟨.fin 1, .fin 2⟩) := by decide +kernel
example : assignM Arith.double .mul none ⟨.fin 1, .fin 2⟩ = (.ok (), ⟨.fin (-3), .fin 4⟩) := by decide +kernel

/-! ## `pow`, exact -/

theorem atan2_eq (x y : ℝ) : atan2 y x = Complex.arg ⟨x, y⟩ := by
  have key : ∀ z : ℂ, 0 < z.re → Complex.arg z = Real.arctan (z.im / z.re) := by
    intro z hz
    have h := Complex.abs_arg_lt_pi_div_two_iff.2 (.inl hz)
    rw [← Complex.tan_arg, Real.arctan_tan (abs_lt.1 h).1 (abs_lt.1 h).2]
  unfold atan2
  split
  · next h => exact (key ⟨x, y⟩ h).symm
  split
  · next h =>
    have hk := key (-⟨x, y⟩) (by simpa using h)
    have e : (-(⟨x, y⟩ : ℂ)).im / (-(⟨x, y⟩ : ℂ)).re = y / x := by simp [neg_div_neg_eq]
    rw [e] at hk
    rw [Complex.arg_of_re_nonneg (by simpa using h.le)] at hk
    rw [norm_neg] at hk
    split
    · next hy =>
      rw [Complex.arg_of_re_neg_of_im_nonneg h hy, hk]
    · next hy =>
      rw [Complex.arg_of_re_neg_of_im_neg h (not_le.1 hy), hk]
  · next h1 h2 =>
    have hx : x = 0 := le_antisymm (not_lt.1 h1) (not_lt.1 h2)
    subst hx
    split
    · next hy => exact (Complex.arg_eq_pi_div_two_iff.2 ⟨rfl, hy⟩).symm
    split
    · next hy => exact (Complex.arg_eq_neg_pi_div_two_iff.2 ⟨rfl, hy⟩).symm
    · next hy1 hy2 =>
      have : y = 0 := le_antisymm (not_lt.1 hy1) (not_lt.1 hy2)
      subst this
      exact Complex.arg_zero.symm

/-- C58 in exact arithmetic: an exponent below 2^-52 gives 1; a base below 2^-52 otherwise throws; everything else is the
principal value. Missing: exponents and bases other than zero below that bound (`C58_pow_not`). -/
theorem C58_pow_partial (b e : Cx ℝ) :
    (Tiny e → ∃ r, pow Arith.real CMath.real b e = .ok r ∧ r.toC = 1) ∧
    (¬ Tiny e → Tiny b → pow Arith.real CMath.real b e = .throw "Error: Math domain error.") ∧
    (¬ Tiny e → ¬ Tiny b → ∃ r, pow Arith.real CMath.real b e = .ok r ∧ r.toC = b.toC ^ e.toC) := by
  unfold pow
  refine ⟨fun h => ?_, fun he hb => ?_, fun he hb => ?_⟩
  · rw [if_pos ((eq_zero_real e).2 h)]
    exact ⟨_, rfl, rfl⟩
  · rw [if_neg (fun h => he ((eq_zero_real e).1 h)), if_pos ((eq_zero_real b).2 hb)]
  · rw [if_neg (fun h => he ((eq_zero_real e).1 h)), if_neg (fun h => hb ((eq_zero_real b).1 h))]
    refine ⟨_, rfl, ?_⟩
    have hb0 : b.toC ≠ 0 := by
      intro h
      apply hb
      have h1 : b.re = 0 := congrArg Complex.re h
      have h2 : b.im = 0 := congrArg Complex.im h
      unfold Tiny
      rw [h1, h2, abs_zero]; norm_num
    have hn : abs CMath.real b = ‖b.toC‖ := (C56_exact b b).2.2.2.2.2
    have ha : arg CMath.real b = Complex.arg b.toC := atan2_eq b.re b.im
    have hpos : 0 < ‖b.toC‖ := norm_pos_iff.2 hb0
    rw [hn, ha, Complex.cpow_def_of_ne_zero hb0]
    have hre : (Complex.log b.toC * e.toC).re = Real.log ‖b.toC‖ * e.re - Complex.arg b.toC * e.im := by
      rw [Complex.mul_re, Complex.log_re, Complex.log_im]; rfl
    have him : (Complex.log b.toC * e.toC).im = Real.log ‖b.toC‖ * e.im + Complex.arg b.toC * e.re := by
      rw [Complex.mul_im, Complex.log_re, Complex.log_im]; rfl
    have hc : (‖b.toC‖ ^ e.re) * Real.exp (-Complex.arg b.toC * e.im) = Real.exp (Complex.log b.toC * e.toC).re := by
      rw [hre, Real.rpow_def_of_pos hpos, ← Real.exp_add]
      congr 1; ring
    apply Complex.ext
    · rw [Complex.exp_re, ← hc, him]; rfl
    · rw [Complex.exp_im, ← hc, him]; rfl

/-- C58: an exponent of zero gives 1, and zero to any exponent of at least 2^-52 throws. -/
theorem C58_pow_zero (b e : Cx ℝ) :
    (e.toC = 0 → ∃ r, pow Arith.real CMath.real b e = .ok r ∧ r.toC = 1) ∧
    (b.toC = 0 → ¬ Tiny e → pow Arith.real CMath.real b e = .throw "Error: Math domain error.") := by
  have h0 : ∀ x : Cx ℝ, x.toC = 0 → Tiny x := by
    intro x h
    have h1 : x.re = 0 := congrArg Complex.re h
    have h2 : x.im = 0 := congrArg Complex.im h
    unfold Tiny
    rw [h1, h2, abs_zero]; norm_num
  exact ⟨fun h => (C58_pow_partial b e).1 (h0 e h), fun h he => (C58_pow_partial b e).2.1 he (h0 b h)⟩

/-- C58 fails: a base of 2^-53 throws although it is not zero, and 0 to the power of 2^-53 is 1 instead of an error. -/
theorem C58_pow_not :
    (∃ b e : Cx ℝ, b.toC ≠ 0 ∧ pow Arith.real CMath.real b e = .throw "Error: Math domain error.") ∧
    (∃ b e : Cx ℝ, b.toC = 0 ∧ e.toC ≠ 0 ∧ ∃ r, pow Arith.real CMath.real b e = .ok r) := by
  have ht : Tiny ⟨1 / 2 ^ 53, 0⟩ := by
    unfold Tiny
    simp only
    rw [abs_of_pos (by norm_num), abs_zero]; norm_num
  have hn : (⟨1 / 2 ^ 53, 0⟩ : Cx ℝ).toC ≠ 0 := by
    intro h
    have : (1 / 2 ^ 53 : ℝ) = 0 := congrArg Complex.re h
    norm_num at this
  have h1 : ¬ Tiny ⟨1, 0⟩ := by intro h; have := h.1; norm_num at this
  refine ⟨⟨_, ⟨1, 0⟩, hn, (C58_pow_partial _ _).2.1 h1 ht⟩, ⟨⟨0, 0⟩, _, rfl, hn, ?_⟩⟩
  obtain ⟨r, h, -⟩ := (C58_pow_partial ⟨0, 0⟩ _).1 ht
  exact ⟨r, h⟩

/-! ## `double` arithmetic -/

theorem Dbl.sub_fin {p q : ℚ} : Dbl.sub (.fin p) (.fin q) = Dbl.ofRat (p - q) := by
  unfold Dbl.sub Dbl.neg Dbl.add
  rw [sub_eq_add_neg]

theorem Dbl.add_int {m n : ℤ} (h : |m + n| < 2 ^ 53) : Dbl.add (.fin m) (.fin n) = .fin (m + n : ℤ) := by
  have := Dbl.ofInt_eq h
  unfold Dbl.ofInt at this
  unfold Dbl.add
  rw [← this]; push_cast; rfl

theorem Dbl.sub_int {m n : ℤ} (h : |m - n| < 2 ^ 53) : Dbl.sub (.fin m) (.fin n) = .fin (m - n : ℤ) := by
  have := Dbl.ofInt_eq h
  unfold Dbl.ofInt at this
  rw [Dbl.sub_fin, ← this]; push_cast; rfl

theorem Dbl.mul_int {m n : ℤ} (h : |m * n| < 2 ^ 53) : Dbl.mul (.fin m) (.fin n) = .fin (m * n : ℤ) := by
  have := Dbl.ofInt_eq h
  unfold Dbl.ofInt at this
  unfold Dbl.mul
  rw [← this]; push_cast; rfl

/-- A complex number with integer components. -/
def Cx.ofInts (a b : ℤ) : Cx Dbl := ⟨.fin a, .fin b⟩

/-- C56 with `double`s: on integer components of absolute value up to 2^25 there is no rounding, so `+`, `-`, `*`, unary
minus and conjugate are those of the Gaussian integers. -/
theorem C56_double (a b c d : ℤ) (ha : |a| ≤ 2 ^ 25) (hb : |b| ≤ 2 ^ 25) (hc : |c| ≤ 2 ^ 25) (hd : |d| ≤ 2 ^ 25) :
    add Arith.double (ofInts a b) (ofInts c d) = ofInts (a + c) (b + d) ∧
    sub Arith.double (ofInts a b) (ofInts c d) = ofInts (a - c) (b - d) ∧
    mul Arith.double (ofInts a b) (ofInts c d) = ofInts (a * c - b * d) (a * d + b * c) ∧
    neg Arith.double (ofInts a b) = ofInts (-a) (-b) ∧ conjugate Arith.double (ofInts a b) = ofInts a (-b) := by
  have hp : ∀ m n : ℤ, |m| ≤ 2 ^ 25 → |n| ≤ 2 ^ 25 → |m * n| ≤ 2 ^ 50 := by
    intro m n hm hn
    rw [abs_mul]
    calc |m| * |n| ≤ 2 ^ 25 * 2 ^ 25 := mul_le_mul hm hn (abs_nonneg _) (by norm_num)
      _ = 2 ^ 50 := by norm_num
  have hadd : ∀ {m n : ℤ} {B : ℤ}, |m| ≤ B → |n| ≤ B → B ≤ 2 ^ 51 → |m + n| < 2 ^ 53 ∧ |m - n| < 2 ^ 53 := by
    intro m n B hm hn hB
    have := abs_add_le m n
    have := abs_sub m n
    constructor <;> (have : (2 : ℤ) ^ 51 + 2 ^ 51 < 2 ^ 53 := by norm_num) <;> omega
  have h25 : (2 : ℤ) ^ 25 ≤ 2 ^ 51 := by norm_num
  have h50 : (2 : ℤ) ^ 50 ≤ 2 ^ 51 := by norm_num
  have h53 : ∀ {m n : ℤ}, |m * n| ≤ 2 ^ 50 → |m * n| < 2 ^ 53 := fun h => lt_of_le_of_lt h (by norm_num)
  unfold add sub mul neg conjugate ofInts Arith.double
  simp only
  refine ⟨?_, ?_, ?_, ?_, ?_⟩
  · rw [Dbl.add_int (hadd ha hc h25).1, Dbl.add_int (hadd hb hd h25).1]
  · rw [Dbl.sub_int (hadd ha hc h25).2, Dbl.sub_int (hadd hb hd h25).2]
  · rw [Dbl.mul_int (h53 (hp a c ha hc)), Dbl.mul_int (h53 (hp b d hb hd)), Dbl.mul_int (h53 (hp a d ha hd)),
      Dbl.mul_int (h53 (hp b c hb hc)), Dbl.sub_int (hadd (hp a c ha hc) (hp b d hb hd) h50).2,
      Dbl.add_int (hadd (hp a d ha hd) (hp b c hb hc) h50).1]
  · unfold Dbl.neg; push_cast; rfl
  · unfold Dbl.neg; push_cast; rfl

example : |(3 : ℤ)| ≤ 2 ^ 25 ∧ |(-33554432 : ℤ)| ≤ 2 ^ 25 := by decide

/-- With `double`s a division can lose everything: `x / x` for `x = 2^600` is not a number, because the squares overflow. -/
theorem C56_double_div_overflow :
    div Arith.double ⟨.fin (2 ^ 600), .fin 0⟩ ⟨.fin (2 ^ 600), .fin 0⟩ = .ok ⟨.nan, .fin 0⟩ := by
  decide +kernel

/-! ## Equality -/

/-- The comparison of one component. -/
def Dbl.close (a b : Dbl) : Bool := Dbl.lt (Dbl.abs (Dbl.sub a b)) Dbl.epsilon

theorem Cx.eq_double (x y : Cx Dbl) : eq Arith.double x y = (Dbl.close x.re y.re && Dbl.close x.im y.im) := by
  have h : ∀ b : Bool, @decide (b = true) (instDecidableEqBool b true) = b := fun b => by cases b <;> rfl
  have h1 := h (Dbl.close x.re y.re)
  have h2 := h (Dbl.close x.im y.im)
  unfold eq
  exact congrArg₂ and h1 h2

theorem Dbl.close_fin (p q : ℚ) : Dbl.close (.fin p) (.fin q) = decide (|Dbl.rnd (p - q)| < 1 / 2 ^ 52) := by
  unfold Dbl.close
  rw [Dbl.sub_fin]
  unfold Dbl.ofRat
  split
  · next h =>
    symm
    rw [decide_eq_false]
    · rfl
    · intro hc
      have h1 : (1 : ℚ) / 2 ^ 52 < 2 ^ 52 := by norm_num
      have h2 : (2 : ℚ) ^ 52 < 2 ^ 1024 := pow_lt_pow_right₀ (by norm_num) (by norm_num)
      exact absurd (lt_of_le_of_lt h (hc.trans (h1.trans h2))) (lt_irrefl _)
  · rfl

/-- A finite number. -/
def Dbl.Fin : Dbl → Prop
  | .fin _ => True
  | _ => False

/-- C57: `x == x` exactly if both components are finite. Missing: infinities and NaN (`C57_equal_not`). -/
theorem C57_reflexive_partial (x : Cx Dbl) : eq Arith.double x x = true ↔ x.re.Fin ∧ x.im.Fin := by
  have key : ∀ a : Dbl, Dbl.close a a = true ↔ a.Fin := by
    intro a
    cases a with
    | nan => simp [Dbl.close, Dbl.sub, Dbl.add, Dbl.abs, Dbl.lt, Dbl.Fin]
    | inf s => cases s <;> simp [Dbl.close, Dbl.sub, Dbl.neg, Dbl.add, Dbl.abs, Dbl.lt, Dbl.Fin]
    | fin q =>
      rw [Dbl.close_fin, sub_self, Dbl.rnd_zero]
      simp [Dbl.Fin]
  rw [eq_double, Bool.and_eq_true, key, key]

/-- C57: `==` is symmetric. -/
theorem C57_symmetric (x y : Cx Dbl) : eq Arith.double x y = eq Arith.double y x := by
  have key : ∀ a b : Dbl, Dbl.close a b = Dbl.close b a := by
    intro a b
    cases a with
    | nan => cases b <;> rfl
    | inf s => cases b <;> cases s <;> (try rfl) <;> (rename_i t; cases t <;> rfl)
    | fin p =>
      cases b with
      | nan => rfl
      | inf t => cases t <;> rfl
      | fin q => rw [Dbl.close_fin, Dbl.close_fin, ← neg_sub q p, Dbl.rnd_neg, abs_neg]
  rw [eq_double, eq_double, key, key y.im]

/-- Multiples of 2^-52. -/
def Dbl.Grid (a : Dbl) : Prop := ∃ n : ℤ, a = .fin (n / 2 ^ 52)

/-- Among them are zero and every finite `double` of absolute value at least 1. -/
theorem Dbl.grid_of_one_le {q : ℚ} (h : Dbl.IsFinite q) (h1 : q = 0 ∨ 1 ≤ |q|) : Dbl.Grid (.fin q) := by
  rcases h1 with rfl | h1
  · exact ⟨0, by simp⟩
  · have hl : 0 ≤ Int.log 2 |q| := by
      have := Int.log_mono_right (b := 2) (by norm_num : (0 : ℚ) < 1) h1
      rwa [Int.log_one_right] at this
    obtain ⟨k, hk⟩ := Int.eq_ofNat_of_zero_le hl
    have hu : Dbl.ulp q = 2 ^ k / 2 ^ 52 := by
      unfold Dbl.ulp
      rw [max_eq_left (by omega), zpow_sub₀ (by norm_num), hk]
      norm_cast
    have h2 := h.1
    unfold Dbl.rnd at h2
    refine ⟨Dbl.roundEven (q / Dbl.ulp q) * 2 ^ k, ?_⟩
    congr 1
    generalize Dbl.roundEven (q / Dbl.ulp q) = r at h2 ⊢
    rw [← h2, hu]
    push_cast
    ring

theorem Dbl.close_grid {a b : Dbl} (ha : a.Grid) (hb : b.Grid) : Dbl.close a b = true ↔ a = b := by
  obtain ⟨m, rfl⟩ := ha
  obtain ⟨n, rfl⟩ := hb
  rw [Dbl.close_fin, decide_eq_true_iff]
  constructor
  · intro h
    by_contra hne
    have hmn : m - n ≠ 0 := by
      intro h0
      apply hne
      rw [show m = n by omega]
    have h1 : (1 : ℚ) ≤ |((m - n : ℤ) : ℚ)| := by exact_mod_cast Int.one_le_abs hmn
    have e : (m : ℚ) / 2 ^ 52 - n / 2 ^ 52 = ((m - n : ℤ) : ℚ) / 2 ^ 52 := by push_cast; ring
    rw [e] at h
    have key : ∀ q : ℚ, 1 ≤ q → (1 : ℚ) / 2 ^ 52 ≤ Dbl.rnd (q / 2 ^ 52) := by
      intro q hq
      have e : (2 : ℚ) ^ (-52 : ℤ) = 1 / 2 ^ 52 := by rw [zpow_neg, one_div]; norm_cast
      rw [← e]
      apply Dbl.rnd_ge_pow (by norm_num)
      rw [e]
      exact div_le_div_of_nonneg_right hq (by norm_num)
    rcases abs_choice ((m - n : ℤ) : ℚ) with h2 | h2
    · rw [h2] at h1
      have := key _ h1
      exact absurd (lt_of_le_of_lt (this.trans (le_abs_self _)) h) (lt_irrefl _)
    · rw [h2] at h1
      have := key _ h1
      rw [neg_div, Dbl.rnd_neg] at this
      exact absurd (lt_of_le_of_lt (this.trans (neg_le_abs _)) h) (lt_irrefl _)
  · intro h
    injection h with h
    rw [h, sub_self, Dbl.rnd_zero]; norm_num

/-- C57 for numbers whose components are multiples of 2^-52 (zero and everything of absolute value 1 or more, see
`Dbl.grid_of_one_le`): `==` holds exactly for identical numbers, so it is an equivalence and respects every hash. -/
theorem C57_equal_partial (x y : Cx Dbl) (hx : x.re.Grid ∧ x.im.Grid) (hy : y.re.Grid ∧ y.im.Grid) :
    (eq Arith.double x y = true ↔ x = y) ∧
    (eq Arith.double x y = true → ∀ h : Dbl → BitVec 64, Cx.hash h x = Cx.hash h y) := by
  have key : eq Arith.double x y = true ↔ x = y := by
    rw [eq_double, Bool.and_eq_true, Dbl.close_grid hx.1 hy.1, Dbl.close_grid hx.2 hy.2]
    exact ⟨fun h => Cx.ext h.1 h.2, fun h => by rw [h]; exact ⟨rfl, rfl⟩⟩
  exact ⟨key, fun h _ => by rw [key.1 h]⟩

example : (Dbl.fin (1 / 2)).Grid ∧ (Dbl.fin 0).Grid := ⟨⟨2 ^ 51, by norm_num⟩, ⟨0, by norm_num⟩⟩

/-- C57 fails: `==` is not transitive, an infinite number is not equal to itself, and equal numbers have different hashes
unless the hash of `double` happens to agree on 0 and 3 * 2^-54. -/
theorem C57_equal_not :
    (∃ x y z : Cx Dbl, eq Arith.double x y = true ∧ eq Arith.double y z = true ∧ eq Arith.double x z = false) ∧
    (∃ x : Cx Dbl, eq Arith.double x x = false) ∧
    (∃ x y : Cx Dbl, eq Arith.double x y = true ∧
      ∀ h : Dbl → BitVec 64, h (.fin 0) ≠ h (.fin (3 / 2 ^ 54)) → Cx.hash h x ≠ Cx.hash h y) := by
  refine ⟨⟨⟨.fin 0, .fin 0⟩, ⟨.fin (3 / 2 ^ 54), .fin 0⟩, ⟨.fin (3 / 2 ^ 53), .fin 0⟩, ?_, ?_, ?_⟩,
    ⟨⟨.inf false, .fin 0⟩, ?_⟩, ⟨⟨.fin 0, .fin 0⟩, ⟨.fin (3 / 2 ^ 54), .fin 0⟩, ?_, ?_⟩⟩
  · decide +kernel
  · decide +kernel
  · decide +kernel
  · decide +kernel
  · decide +kernel
  · intro h hne e
    unfold Cx.hash at e
    simp only at e
    exact hne (by simpa using e)

/-- The numbers of `C57_equal_not` are `double`s. -/
example : Dbl.rnd (3 / 2 ^ 54) = 3 / 2 ^ 54 ∧ Dbl.rnd (3 / 2 ^ 53) = 3 / 2 ^ 53 := by decide +kernel

end Pyincpp
