import Verif.Props.Complex
import Verif.Proof.Decimal

/-! # What `==` of complex numbers says (C57) -/

namespace Pyincpp

open Dbl

/-- Rounding gives less than `2^-52` exactly below the middle between `2^-52` and the `double` before it. -/
theorem Dbl.rnd_lt_eps (q : ℚ) : |rnd q| < 1 / 2 ^ 52 ↔ |q| < 1 / 2 ^ 52 - 1 / 2 ^ 106 := by
  rw [rnd_abs]
  have hq : 0 ≤ |q| := abs_nonneg q
  generalize |q| = x at hq ⊢
  have r52 : rnd (1 / 2 ^ 52) = 1 / 2 ^ 52 := by
    have := rnd_rep (m := 1) (e := -52) (by norm_num) (by norm_num)
    norm_num at this ⊢
    exact this
  have r53 : rnd (1 / 2 ^ 53) = 1 / 2 ^ 53 := by
    have := rnd_rep (m := 1) (e := -53) (by norm_num) (by norm_num)
    norm_num at this ⊢
    exact this
  by_cases h1 : 1 / 2 ^ 52 ≤ x
  · refine iff_of_false ?_ ?_
    · have h := rnd_nearest x _ r52
      rw [abs_sub_comm (1 / 2 ^ 52 : ℚ) x, abs_of_nonneg (sub_nonneg.2 h1), _root_.abs_le] at h
      linarith [h.1]
    · have : (0 : ℚ) < 1 / 2 ^ 106 := by positivity
      linarith
  by_cases h2 : x < 1 / 2 ^ 53
  · refine iff_of_true ?_ ?_
    · have h := rnd_nearest x _ r53
      rw [abs_of_nonneg (sub_nonneg.2 h2.le), _root_.abs_le] at h
      have : (1 / 2 ^ 53 : ℚ) < 1 / 2 ^ 52 := by norm_num
      linarith [h.2]
    · have : (1 / 2 ^ 53 : ℚ) < 1 / 2 ^ 52 - 1 / 2 ^ 106 := by norm_num
      linarith
  have h1 := not_le.1 h1
  have h2 := not_lt.1 h2
  have hx : 0 < x := lt_of_lt_of_le (by positivity) h2
  have z52 : (2 : ℚ) ^ (-52 : ℤ) = 1 / 2 ^ 52 := by norm_num
  have z53 : (2 : ℚ) ^ (-53 : ℤ) = 1 / 2 ^ 53 := by norm_num
  have hl : Int.log 2 |x| = -53 := by
    rw [abs_of_pos hx]
    apply le_antisymm
    · have := log_lt (q := x) (k := -52) hx.ne' (by rw [abs_of_pos hx, z52]; exact h1)
      rw [abs_of_pos hx] at this
      omega
    · rw [← Int.zpow_le_iff_le_log (by norm_num) hx]
      push_cast
      rw [z53]
      exact h2
  have hu : ulp x = 1 / 2 ^ 105 := by
    unfold ulp
    rw [hl]
    norm_num
  have hup : (0 : ℚ) < 1 / 2 ^ 105 := by positivity
  have e1 : (1 / 2 ^ 52 : ℚ) = (2 * (2 ^ 52 : ℤ) : ℤ) * (1 / 2 ^ 105) := by norm_num
  have e2 : (1 / 2 ^ 106 : ℚ) = 1 / 2 * (1 / 2 ^ 105) := by norm_num
  unfold rnd
  rw [hu, e1, e2]
  generalize (1 / 2 ^ 105 : ℚ) = U at *
  rw [← sub_mul, mul_lt_mul_iff_left₀ hup, ← div_lt_iff₀ hup]
  constructor
  · intro h
    by_contra hc
    have := roundEven_even_le (m := (2 ^ 52 : ℤ)) (x := x / U) (by push_cast at hc ⊢; linarith)
    have h' : roundEven (x / U) < (2 * 2 ^ 52 : ℤ) := by exact_mod_cast h
    omega
  · intro h
    have := roundEven_lt (m := 2 * (2 ^ 52 : ℤ)) h
    exact_mod_cast this

/-- C57, what `==` says: all components are finite, and they differ by less than `2^-52 - 2^-106`. -/
theorem C57_equal_exact (x y : Cx Dbl) : Cx.eq Arith.double x y = true ↔
    ∃ a b c d : ℚ, x = ⟨.fin a, .fin b⟩ ∧ y = ⟨.fin c, .fin d⟩ ∧ |a - c| < 1 / 2 ^ 52 - 1 / 2 ^ 106 ∧ |b - d| < 1 / 2 ^ 52 - 1 / 2 ^ 106 := by
  have key : ∀ a b : Dbl, Dbl.close a b = true ↔ ∃ p q : ℚ, a = .fin p ∧ b = .fin q ∧ |p - q| < 1 / 2 ^ 52 - 1 / 2 ^ 106 := by
    intro a b
    cases a with
    | nan => cases b <;> simp [Dbl.close, Dbl.sub, Dbl.add, Dbl.abs, Dbl.lt]
    | inf s => cases b with
      | inf t => cases s <;> cases t <;> simp [Dbl.close, Dbl.sub, Dbl.neg, Dbl.add, Dbl.abs, Dbl.lt, Dbl.epsilon]
      | nan => simp [Dbl.close, Dbl.sub, Dbl.neg, Dbl.add, Dbl.abs, Dbl.lt]
      | fin q => simp [Dbl.close, Dbl.sub, Dbl.neg, Dbl.add, Dbl.abs, Dbl.lt, Dbl.epsilon]
    | fin p => cases b with
      | inf t => simp [Dbl.close, Dbl.sub, Dbl.neg, Dbl.add, Dbl.abs, Dbl.lt, Dbl.epsilon]
      | nan => simp [Dbl.close, Dbl.sub, Dbl.neg, Dbl.add, Dbl.abs, Dbl.lt]
      | fin q =>
        rw [Dbl.close_fin, decide_eq_true_iff, Dbl.rnd_lt_eps]
        constructor
        · intro h; exact ⟨p, q, rfl, rfl, h⟩
        · rintro ⟨p', q', h1, h2, h⟩
          injection h1 with h1; injection h2 with h2
          subst h1 h2
          exact h
  rw [Cx.eq_double, Bool.and_eq_true, key, key]
  constructor
  · rintro ⟨⟨a, c, h1, h2, h3⟩, ⟨b, d, h4, h5, h6⟩⟩
    refine ⟨a, b, c, d, ?_, ?_, h3, h6⟩
    · cases x; simp_all
    · cases y; simp_all
  · rintro ⟨a, b, c, d, rfl, rfl, h3, h6⟩
    exact ⟨⟨a, c, rfl, rfl, h3⟩, ⟨b, d, rfl, rfl, h6⟩⟩

/-- The two sides of the limit: `2^-52` less one unit in the last place is equal to zero, `2^-52` less `2^-1074` is not, and neither is `2^-52`. -/
example : Cx.eq Arith.double ⟨.fin (1 / 2 ^ 52 - 1 / 2 ^ 105), .fin 0⟩ ⟨.fin 0, .fin 0⟩ = true ∧
    Cx.eq Arith.double ⟨.fin (1 / 2 ^ 52), .fin 0⟩ ⟨.fin (1 / 2 ^ 1074), .fin 0⟩ = false := by
  constructor
  · rw [C57_equal_exact]
    refine ⟨_, _, _, _, rfl, rfl, ?_, ?_⟩
    · rw [sub_zero, abs_of_nonneg (by norm_num)]; norm_num
    · norm_num
  · rw [Bool.eq_false_iff, ne_eq, C57_equal_exact]
    rintro ⟨a, b, c, d, h1, h2, h3, -⟩
    injection h1 with h1 _; injection h1 with h1
    injection h2 with h2 _; injection h2 with h2
    subst h1 h2
    rw [abs_of_nonneg (by
      have : (1 / 2 ^ 1074 : ℚ) ≤ 1 / 2 ^ 52 := one_div_le_one_div_of_le (by positivity) (pow_le_pow_right₀ (by norm_num) (by norm_num))
      exact sub_nonneg.2 this)] at h3
    have : (1 / 2 ^ 1074 : ℚ) ≤ 1 / 2 ^ 106 := one_div_le_one_div_of_le (by positivity) (pow_le_pow_right₀ (by norm_num) (by norm_num))
    exact absurd h3 (not_lt.2 (sub_le_sub_left this _))

/-- A number that `==` takes for zero. -/
def Cx.Negligible (x : Cx Dbl) : Prop :=
  ∃ a b : ℚ, x = ⟨.fin a, .fin b⟩ ∧ |a| < 1 / 2 ^ 52 - 1 / 2 ^ 106 ∧ |b| < 1 / 2 ^ 52 - 1 / 2 ^ 106

/-- C58 for `double`, when `pow` answers 1, throws or computes, whatever the functions of `<cmath>` are. -/
theorem C58_double_exact (M : CMath Dbl) (b e : Cx Dbl) :
    (e.Negligible → Cx.pow Arith.double M b e = .ok ⟨.fin 1, .fin 0⟩) ∧
    (¬ e.Negligible → b.Negligible → Cx.pow Arith.double M b e = .throw "Error: Math domain error.") ∧
    (¬ e.Negligible → ¬ b.Negligible → ∃ r, Cx.pow Arith.double M b e = .ok r) := by
  have key : ∀ x : Cx Dbl, Cx.eq Arith.double x ⟨Arith.double.zero, Arith.double.zero⟩ = true ↔ x.Negligible := by
    intro x
    rw [C57_equal_exact]
    constructor
    · rintro ⟨a, b, c, d, rfl, h, h1, h2⟩
      obtain ⟨rfl, rfl⟩ : 0 = c ∧ 0 = d := by
        obtain ⟨e1, e2⟩ := Cx.mk.inj h
        exact ⟨Dbl.fin.inj e1, Dbl.fin.inj e2⟩
      exact ⟨a, b, rfl, by rwa [sub_zero] at h1, by rwa [sub_zero] at h2⟩
    · rintro ⟨a, b, rfl, h1, h2⟩
      exact ⟨a, b, 0, 0, rfl, rfl, by rwa [sub_zero], by rwa [sub_zero]⟩
  unfold Cx.pow
  refine ⟨fun h => ?_, fun h1 h2 => ?_, fun h1 h2 => ?_⟩
  · rw [if_pos ((key e).2 h)]
    rfl
  · rw [if_neg (fun h => h1 ((key e).1 h)), if_pos ((key b).2 h2)]
  · rw [if_neg (fun h => h1 ((key e).1 h)), if_neg (fun h => h2 ((key b).1 h))]
    exact ⟨_, rfl⟩

example : Cx.Negligible ⟨.fin 0, .fin (1 / 2 ^ 60)⟩ ∧ ¬ Cx.Negligible ⟨.fin 1, .fin 0⟩ := by
  refine ⟨⟨0, 1 / 2 ^ 60, rfl, by norm_num, by rw [abs_of_pos (by norm_num)]; norm_num⟩, ?_⟩
  rintro ⟨a, b, h, h1, -⟩
  obtain rfl := Dbl.fin.inj (Cx.mk.inj h).1
  norm_num at h1

end Pyincpp
