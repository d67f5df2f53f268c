import Verif.Proof.ComplexRounding
import Verif.Props.Complex

/-! # C74: complex arithmetic in doubles

The error of each operation for components up to `2^500` in absolute value, compared with Mathlib's complex numbers. -/

namespace Pyincpp
open Dbl

/-- The complex number of two finite doubles. -/
def Cx.ofRats (a b : ℚ) : Cx Dbl := ⟨.fin a, .fin b⟩

/-- The complex number with rational parts. -/
def ratC (a b : ℚ) : ℂ := ⟨(a : ℝ), (b : ℝ)⟩

namespace CxRound

theorem norm_le {k e f A B : ℝ} (hk : 0 ≤ k) (h1 : |e| ≤ k * |A|) (h2 : |f| ≤ k * |B|) : ‖(⟨e, f⟩ : ℂ)‖ ≤ k * ‖(⟨A, B⟩ : ℂ)‖ := by
  have h : ‖(⟨e, f⟩ : ℂ)‖ ^ 2 ≤ (k * ‖(⟨A, B⟩ : ℂ)‖) ^ 2 := by
    rw [mul_pow, ← Complex.normSq_eq_norm_sq, ← Complex.normSq_eq_norm_sq, Complex.normSq_mk, Complex.normSq_mk]
    have e1 : e * e ≤ (k * |A|) * (k * |A|) := by
      rw [← abs_mul_abs_self e]; exact mul_self_le_mul_self (abs_nonneg _) h1
    have f1 : f * f ≤ (k * |B|) * (k * |B|) := by
      rw [← abs_mul_abs_self f]; exact mul_self_le_mul_self (abs_nonneg _) h2
    have := abs_mul_abs_self A
    have := abs_mul_abs_self B
    calc e * e + f * f ≤ (k * |A|) * (k * |A|) + (k * |B|) * (k * |B|) := add_le_add e1 f1
      _ = k ^ 2 * (|A| * |A| + |B| * |B|) := by ring
      _ = k ^ 2 * (A * A + B * B) := by rw [abs_mul_abs_self, abs_mul_abs_self]
  exact (pow_le_pow_iff_left₀ (norm_nonneg _) (mul_nonneg hk (norm_nonneg _)) (by norm_num)).1 h

theorem cast_abs {p q : ℚ} (h : |p| ≤ q) : |(p : ℝ)| ≤ (q : ℝ) := by exact_mod_cast h

theorem ofRat_ok {q : ℚ} (k : ℕ) (hk : k ≤ 1023) (h : |q| ≤ 2 ^ k) : ofRat q = fin (rnd q) :=
  ofRat_fin (h.trans (pow_le_pow_right₀ (by norm_num) hk))

theorem pow_split (k j : ℕ) : (2 : ℚ) ^ (k + j) = 2 ^ k * 2 ^ j := pow_add 2 k j

/-- Rounding does not leave a power of two. -/
theorem rnd_le_pow {q : ℚ} (k : ℕ) (h : |q| ≤ 2 ^ k) : |rnd q| ≤ 2 ^ (k + 1) := by
  have h1 := rnd_abs_err q
  have h2 := abs_add_le (rnd q - q) q
  rw [sub_add_cancel] at h2
  have hus := u_small
  have he : eta ≤ 1 / 2 := by
    have := zpow_le_zpow_right₀ (by norm_num : (1 : ℚ) ≤ 2) (by norm_num : (-1075 : ℤ) ≤ -1)
    rw [zpow_neg_one] at this
    unfold eta; linarith
  have h3 : (1 : ℚ) ≤ 2 ^ k := one_le_pow₀ (by norm_num)
  have h4 : u * |q| ≤ 1 / 10000 * |q| := mul_le_mul_of_nonneg_right hus (abs_nonneg q)
  rw [pow_succ]
  generalize (2 : ℚ) ^ k = B at *
  linarith

/-- The real part of a product: two products, rounded, and their rounded sum. -/
theorem prod_sum {a b c d : ℚ} (ha : |a| ≤ 2 ^ 500) (hb : |b| ≤ 2 ^ 500) (hc : |c| ≤ 2 ^ 500) (hd : |d| ≤ 2 ^ 500) :
    Dbl.add (Dbl.mul (fin a) (fin c)) (Dbl.mul (fin b) (fin d)) = fin (rnd (rnd (a * c) + rnd (b * d))) ∧
    Dbl.sub (Dbl.mul (fin a) (fin c)) (Dbl.mul (fin b) (fin d)) = fin (rnd (rnd (a * c) - rnd (b * d))) := by
  have hm {p q : ℚ} (hp : |p| ≤ 2 ^ 500) (hq : |q| ≤ 2 ^ 500) : |p * q| ≤ 2 ^ 1000 := by
    rw [abs_mul, show 1000 = 500 + 500 by norm_num, pow_split]
    exact mul_le_mul hp hq (abs_nonneg _) (pow_nonneg (by norm_num) _)
  have h1 := hm ha hc
  have h2 := hm hb hd
  have r1 := rnd_le_pow _ h1
  have r2 := rnd_le_pow _ h2
  have hs : |rnd (a * c) + rnd (b * d)| ≤ 2 ^ 1002 := by
    rw [pow_succ (n := 1001), mul_two]
    exact (abs_add_le _ _).trans (add_le_add r1 r2)
  have hs' : |rnd (a * c) - rnd (b * d)| ≤ 2 ^ 1002 := by
    rw [pow_succ (n := 1001), mul_two]
    exact (abs_sub _ _).trans (add_le_add r1 r2)
  constructor
  · simp only [Dbl.mul]
    rw [ofRat_ok 1000 (by norm_num) h1, ofRat_ok 1000 (by norm_num) h2]
    simp only [Dbl.add]
    rw [ofRat_ok 1002 (by norm_num) hs]
  · simp only [Dbl.mul]
    rw [ofRat_ok 1000 (by norm_num) h1, ofRat_ok 1000 (by norm_num) h2, Dbl.sub_fin, ofRat_ok 1002 (by norm_num) hs']

theorem three_u : 2 * u + u ^ 2 ≤ 3 * u := by
  have := u_pos; have := u_small; nlinarith

/-- `|ac| + |bd|` in terms of the norms. -/
theorem cauchy_norm (a b c d : ℚ) : ((|a * c| + |b * d| : ℚ) : ℝ) ≤ ‖ratC a b‖ * ‖ratC c d‖ := by
  have h := cauchy2 a b c d
  have h' : ((|a * c| + |b * d| : ℚ) : ℝ) ^ 2 ≤ (‖ratC a b‖ * ‖ratC c d‖) ^ 2 := by
    rw [mul_pow, ← Complex.normSq_eq_norm_sq, ← Complex.normSq_eq_norm_sq, ratC, ratC, Complex.normSq_mk, Complex.normSq_mk]
    have : ((|a * c| + |b * d|) ^ 2 : ℚ) ≤ (a * a + b * b) * (c * c + d * d) := by
      convert h using 2 <;> ring
    exact_mod_cast this
  exact (pow_le_pow_iff_left₀ (by positivity) (by positivity) (by norm_num)).1 h'

theorem eta_le : 10 * eta ≤ u * 2 ^ (-104 : ℤ) := by
  have h := zpow_le_zpow_right₀ (by norm_num : (1 : ℚ) ≤ 2) (by norm_num : (-1075 : ℤ) ≤ -161)
  have e : u * 2 ^ (-104 : ℤ) = 2 ^ (-161 : ℤ) * 16 := by unfold u; norm_num
  rw [e]
  unfold eta
  have := zpow_pos (by norm_num : (0 : ℚ) < 2) (-161)
  linarith

/-- A rounded quotient of sums of products. -/
theorem quot {a b c d N N' : ℚ} (ha : |a| ≤ 2 ^ 500) (hb : |b| ≤ 2 ^ 500) (hD : (2 : ℚ) ^ (-104 : ℤ) ≤ c * c + d * d)
    (hM : |N| ≤ |a * c| + |b * d|) (hN : |N' - N| ≤ (2 * u + u ^ 2) * (|a * c| + |b * d|) + 3 * eta) :
    Dbl.div (fin N') (fin (rnd (rnd (c * c) + rnd (d * d)))) = fin (rnd (N' / rnd (rnd (c * c) + rnd (d * d)))) ∧
    |rnd (N' / rnd (rnd (c * c) + rnd (d * d))) - N / (c * c + d * d)| ≤
      9 * u * ((|a * c| + |b * d|) / (c * c + d * d)) + 2 ^ (-968 : ℤ) := by
  have hu := u_pos
  have hus := u_small
  have he := eta_pos
  have hel := eta_le
  have hD0 : 0 < c * c + d * d := lt_of_lt_of_le (zpow_pos (by norm_num) _) hD
  have hM0 : 0 ≤ |a * c| + |b * d| := by positivity
  have hDD : |rnd (rnd (c * c) + rnd (d * d)) - (c * c + d * d)| ≤ 3 * u * (c * c + d * d) := by
    have h := rnd_rnd_sum (c * c) (d * d)
    rw [abs_mul_self c, abs_mul_self d] at h
    have h1 := mul_le_mul_of_nonneg_left hD hu.le
    have h2 : u ^ 2 * (c * c + d * d) ≤ 1 / 10000 * (u * (c * c + d * d)) := by
      rw [pow_two, mul_assoc]
      exact mul_le_mul_of_nonneg_right hus (mul_nonneg hu.le hD0.le)
    generalize c * c + d * d = D at *
    have h3 : 0 ≤ u * D := mul_nonneg hu.le hD0.le
    linarith
  have hNN : |N' - N| ≤ 3 * u * (|a * c| + |b * d|) + 3 * eta :=
    hN.trans (add_le_add_left (mul_le_mul_of_nonneg_right three_u hM0) _)
  obtain ⟨q1, q2⟩ := rnd_quot hM hNN hD0 hDD
  have hDne : rnd (rnd (c * c) + rnd (d * d)) ≠ 0 := by
    intro h0
    rw [h0, zero_sub, abs_neg, abs_of_pos hD0] at hDD
    nlinarith
  have ht : eta / (c * c + d * d) ≤ 2 ^ (-971 : ℤ) := by
    rw [div_le_iff₀ hD0]
    have e : eta = 2 ^ (-971 : ℤ) * 2 ^ (-104 : ℤ) := by
      unfold eta; rw [← zpow_add₀ (by norm_num)]; norm_num
    rw [e]
    exact mul_le_mul_of_nonneg_left hD (zpow_nonneg (by norm_num) _)
  have hMD : (|a * c| + |b * d|) / (c * c + d * d) ≤ 2 ^ 553 := by
    have h1 : ((|a * c| + |b * d|) / (c * c + d * d)) ^ 2 ≤ (2 ^ 553) ^ 2 := by
      rw [div_pow, div_le_iff₀ (by positivity)]
      refine (cauchy2 a b c d).trans ?_
      have hab : a ^ 2 + b ^ 2 ≤ 2 ^ 1001 := by
        have e : (2 : ℚ) ^ 1001 = 2 ^ 500 * 2 ^ 500 + 2 ^ 500 * 2 ^ 500 := by
          rw [← pow_add, ← mul_two, ← pow_succ]
        rw [e, ← sq_abs a, ← sq_abs b, pow_two, pow_two]
        exact add_le_add (mul_self_le_mul_self (abs_nonneg _) ha) (mul_self_le_mul_self (abs_nonneg _) hb)
      have e2 : c ^ 2 + d ^ 2 = c * c + d * d := by ring
      have e3 : ((2 : ℚ) ^ 553) ^ 2 * (2 ^ (-104 : ℤ)) = 2 ^ (1002 : ℕ) := by
        rw [← pow_mul, ← zpow_natCast, ← zpow_natCast, ← zpow_add₀ (by norm_num)]; norm_num
      have h2 : (2 : ℚ) ^ (1001 : ℕ) ≤ (2 ^ 553) ^ 2 * (c * c + d * d) := by
        calc (2 : ℚ) ^ (1001 : ℕ) ≤ 2 ^ (1002 : ℕ) := pow_le_pow_right₀ (by norm_num) (by norm_num)
          _ = (2 ^ 553) ^ 2 * (2 ^ (-104 : ℤ)) := e3.symm
          _ ≤ (2 ^ 553) ^ 2 * (c * c + d * d) := mul_le_mul_of_nonneg_left hD (by positivity)
      rw [e2, pow_two (c * c + d * d), ← mul_assoc]
      exact mul_le_mul_of_nonneg_right (hab.trans h2) hD0.le
    exact (pow_le_pow_iff_left₀ (by positivity) (by positivity) (by norm_num)).1 h1
  constructor
  · simp only [Dbl.div]
    rw [if_neg hDne]
    apply ofRat_ok 555 (by norm_num)
    refine q1.trans ?_
    have h1 : (2 : ℚ) ^ (-971 : ℤ) ≤ 1 := zpow_le_one_of_nonpos₀ (by norm_num) (by norm_num)
    have h2 : (2 : ℚ) ^ 555 = 2 ^ 553 * 4 := by rw [pow_add 2 553 2]; norm_num
    have h3 : (4 : ℚ) ≤ 2 ^ 553 := by
      rw [show (4 : ℚ) = 2 ^ 2 by norm_num]
      exact pow_le_pow_right₀ (by norm_num) (by norm_num)
    rw [h2]
    have h4 := ht.trans h1
    clear h2
    generalize (2 : ℚ) ^ 553 = B at *
    linarith
  · refine q2.trans ?_
    have e1 : (2 : ℚ) ^ (-968 : ℤ) = 2 ^ (-971 : ℤ) * 8 := by
      rw [show (-968 : ℤ) = -971 + 3 by norm_num, zpow_add₀ (by norm_num)]; norm_num
    have e2 : eta ≤ 2 ^ (-971 : ℤ) := zpow_le_zpow_right₀ (by norm_num) (by norm_num)
    rw [e1]
    generalize (2 : ℚ) ^ (-971 : ℤ) = B at *
    linarith

end CxRound

open CxRound

/-- C74: a sum of complex doubles is the exact sum with a relative error of at most `2^-53`, unless it overflows. -/
theorem C74_add {a b c d : ℚ} (ha : IsFinite a) (hb : IsFinite b) (hc : IsFinite c) (hd : IsFinite d)
    (h1 : |a + c| ≤ 2 ^ 1023) (h2 : |b + d| ≤ 2 ^ 1023) :
    ∃ p q, Cx.add Arith.double (Cx.ofRats a b) (Cx.ofRats c d) = Cx.ofRats p q ∧
      ‖ratC p q - (ratC a b + ratC c d)‖ ≤ 1 / 2 ^ 53 * ‖ratC a b + ratC c d‖ := by
  refine ⟨rnd (a + c), rnd (b + d), ?_, ?_⟩
  · unfold Cx.add Cx.ofRats Arith.double
    simp only [Dbl.add]
    rw [ofRat_fin h1, ofRat_fin h2]
  · have e1 := cast_abs (rnd_sum ha.1 hc.1)
    have e2 := cast_abs (rnd_sum hb.1 hd.1)
    have hs : ratC a b + ratC c d = ⟨((a + c : ℚ) : ℝ), ((b + d : ℚ) : ℝ)⟩ := by
      unfold ratC; apply Complex.ext <;> simp
    have hdiff : ratC (rnd (a + c)) (rnd (b + d)) - ⟨((a + c : ℚ) : ℝ), ((b + d : ℚ) : ℝ)⟩ =
        ⟨((rnd (a + c) - (a + c) : ℚ) : ℝ), ((rnd (b + d) - (b + d) : ℚ) : ℝ)⟩ := by
      unfold ratC; apply Complex.ext <;> simp
    rw [hs, hdiff]
    have hk : ((u : ℚ) : ℝ) = 1 / 2 ^ 53 := by unfold u; push_cast; rfl
    rw [← hk]
    apply norm_le (by exact_mod_cast u_pos.le)
    · push_cast at e1 ⊢; exact e1
    · push_cast at e2 ⊢; exact e2

/-- C74: the same for differences. -/
theorem C74_sub {a b c d : ℚ} (ha : IsFinite a) (hb : IsFinite b) (hc : IsFinite c) (hd : IsFinite d)
    (h1 : |a - c| ≤ 2 ^ 1023) (h2 : |b - d| ≤ 2 ^ 1023) :
    ∃ p q, Cx.sub Arith.double (Cx.ofRats a b) (Cx.ofRats c d) = Cx.ofRats p q ∧
      ‖ratC p q - (ratC a b - ratC c d)‖ ≤ 1 / 2 ^ 53 * ‖ratC a b - ratC c d‖ := by
  have hneg : ∀ {q : ℚ}, IsFinite q → IsFinite (-q) := fun h => ⟨by rw [rnd_neg, h.1], by rw [abs_neg]; exact h.2⟩
  obtain ⟨p, q, e, h⟩ := C74_add ha hb (hneg hc) (hneg hd) (by rw [← sub_eq_add_neg]; exact h1)
    (by rw [← sub_eq_add_neg]; exact h2)
  refine ⟨p, q, ?_, ?_⟩
  · rw [← e]; rfl
  · have : ratC a b - ratC c d = ratC a b + ratC (-c) (-d) := by
      unfold ratC; apply Complex.ext <;> simp [sub_eq_add_neg]
    rw [this]; exact h

/-- C74: a product of complex doubles with components up to `2^500` is the exact product up to `6 * 2^-53` times the product of
the norms, and a term for underflow. -/
theorem C74_mul {a b c d : ℚ} (ha : |a| ≤ 2 ^ 500) (hb : |b| ≤ 2 ^ 500) (hc : |c| ≤ 2 ^ 500) (hd : |d| ≤ 2 ^ 500) :
    ∃ p q, Cx.mul Arith.double (Cx.ofRats a b) (Cx.ofRats c d) = Cx.ofRats p q ∧
      ‖ratC p q - ratC a b * ratC c d‖ ≤ 6 / 2 ^ 53 * ‖ratC a b * ratC c d‖ + 2 ^ (-1072 : ℤ) := by
  refine ⟨_, _, congrArg₂ Cx.mk (prod_sum ha hb hc hd).2 (prod_sum ha hb hd hc).1, ?_⟩
  have e1 := rnd_rnd_diff (a * c) (b * d)
  have e2 := rnd_rnd_sum (a * d) (b * c)
  set p := rnd (rnd (a * c) - rnd (b * d))
  set q := rnd (rnd (a * d) + rnd (b * c))
  have hm1 : 0 ≤ |a * c| + |b * d| := by positivity
  have hm2 : 0 ≤ |a * d| + |b * c| := by positivity
  have c1 := cauchy_norm a b c d
  have c2 := cauchy_norm a b d c
  have hsw : ‖ratC d c‖ = ‖ratC c d‖ := by
    unfold ratC
    rw [Complex.norm_def, Complex.norm_def, Complex.normSq_mk, Complex.normSq_mk, add_comm]
  rw [hsw] at c2
  have f1 := cast_abs (e1.trans (add_le_add_left (mul_le_mul_of_nonneg_right three_u hm1) _))
  have f2 := cast_abs (e2.trans (add_le_add_left (mul_le_mul_of_nonneg_right three_u hm2) _))
  have hpr : ratC a b * ratC c d = ⟨((a * c - b * d : ℚ) : ℝ), ((a * d + b * c : ℚ) : ℝ)⟩ := by
    unfold ratC; apply Complex.ext <;> simp
  have hdiff : ratC p q - ratC a b * ratC c d = ⟨((p - (a * c - b * d) : ℚ) : ℝ), ((q - (a * d + b * c) : ℚ) : ℝ)⟩ := by
    rw [hpr]; unfold ratC; apply Complex.ext <;> simp
  rw [hdiff, norm_mul]
  refine (Complex.norm_le_abs_re_add_abs_im _).trans ?_
  simp only
  have hk : ((u : ℚ) : ℝ) = 1 / 2 ^ 53 := by unfold u; push_cast; rfl
  have hu0 : (0 : ℝ) ≤ (u : ℚ) := by exact_mod_cast u_pos.le
  have he : ((eta : ℚ) : ℝ) * 8 = 2 ^ (-1072 : ℤ) := by
    unfold eta
    push_cast
    rw [show (-1072 : ℤ) = -1075 + 3 by norm_num, zpow_add₀ (by norm_num)]; norm_num
  have he0 : (0 : ℝ) ≤ (eta : ℚ) := by exact_mod_cast eta_pos.le
  have g1 := mul_le_mul_of_nonneg_left c1 hu0
  have g2 := mul_le_mul_of_nonneg_left c2 hu0
  rw [← he, show (6 : ℝ) / 2 ^ 53 = 6 * ((u : ℚ) : ℝ) by rw [hk]; ring]
  generalize ‖ratC a b‖ * ‖ratC c d‖ = R at *
  push_cast at f1 f2 g1 g2 ⊢
  linarith

/-- C74: the divisors that are refused are exactly those with both components below `2^-52`; a quotient by any other one, with
components up to `2^500`, is the exact quotient up to a relative error of `18 * 2^-53` and a term for underflow. -/
theorem C74_div_partial {a b c d : ℚ} (ha : |a| ≤ 2 ^ 500) (hb : |b| ≤ 2 ^ 500) (hc : |c| ≤ 2 ^ 500) (hd : |d| ≤ 2 ^ 500)
    (hcf : IsFinite c) (hdf : IsFinite d) :
    (|c| < 1 / 2 ^ 52 ∧ |d| < 1 / 2 ^ 52 →
      Cx.div Arith.double (Cx.ofRats a b) (Cx.ofRats c d) = .throw "Error: Divide by zero.") ∧
    (¬ (|c| < 1 / 2 ^ 52 ∧ |d| < 1 / 2 ^ 52) →
      ∃ p q, Cx.div Arith.double (Cx.ofRats a b) (Cx.ofRats c d) = .ok (Cx.ofRats p q) ∧
        ‖ratC p q - ratC a b / ratC c d‖ ≤ 18 / 2 ^ 53 * ‖ratC a b / ratC c d‖ + 2 ^ (-967 : ℤ)) := by
  have hz : Cx.eq Arith.double (Cx.ofRats c d) ⟨Arith.double.zero, Arith.double.zero⟩ =
      decide (|c| < 1 / 2 ^ 52 ∧ |d| < 1 / 2 ^ 52) := by
    rw [Cx.eq_double]
    change (Dbl.close (fin c) (fin 0) && Dbl.close (fin d) (fin 0)) = _
    rw [Dbl.close_fin, Dbl.close_fin, sub_zero, sub_zero, hcf.1, hdf.1, Bool.decide_and]
  unfold Cx.div
  rw [hz]
  constructor
  · intro h; rw [decide_eq_true h]; rfl
  · intro h
    rw [decide_eq_false h]
    have hD : (2 : ℚ) ^ (-104 : ℤ) ≤ c * c + d * d := by
      have e : (2 : ℚ) ^ (-104 : ℤ) = 1 / 2 ^ 52 * (1 / 2 ^ 52) := by norm_num
      rw [e]
      rcases not_and_or.1 h with h | h
      · have := mul_self_le_mul_self (by norm_num) (not_lt.1 h)
        rw [abs_mul_abs_self] at this
        linarith [mul_self_nonneg d]
      · have := mul_self_le_mul_self (by norm_num) (not_lt.1 h)
        rw [abs_mul_abs_self] at this
        linarith [mul_self_nonneg c]
    have hM1 : |a * c + b * d| ≤ |a * c| + |b * d| := abs_add_le _ _
    have hM2 : |b * c - a * d| ≤ |b * c| + |a * d| := abs_sub _ _
    obtain ⟨q1, r1⟩ := quot ha hb hD hM1 (rnd_rnd_sum (a * c) (b * d))
    obtain ⟨q2, r2⟩ := quot hb ha hD hM2 (rnd_rnd_diff (b * c) (a * d))
    set D' := rnd (rnd (c * c) + rnd (d * d)) with hD'
    set p := rnd (rnd (rnd (a * c) + rnd (b * d)) / D')
    set q := rnd (rnd (rnd (b * c) - rnd (a * d)) / D')
    refine ⟨p, q, ?_, ?_⟩
    · change Res.ok (Cx.mk (Dbl.div (Dbl.add (Dbl.mul (fin a) (fin c)) (Dbl.mul (fin b) (fin d)))
          (Dbl.add (Dbl.mul (fin c) (fin c)) (Dbl.mul (fin d) (fin d))))
        (Dbl.div (Dbl.sub (Dbl.mul (fin b) (fin c)) (Dbl.mul (fin a) (fin d)))
          (Dbl.add (Dbl.mul (fin c) (fin c)) (Dbl.mul (fin d) (fin d))))) = _
      rw [(prod_sum ha hb hc hd).1, (prod_sum hc hd hc hd).1, (prod_sum hb ha hc hd).2, q1, q2]
      rfl
    · have hquo : ratC a b / ratC c d = ⟨(((a * c + b * d) / (c * c + d * d) : ℚ) : ℝ), (((b * c - a * d) / (c * c + d * d) : ℚ) : ℝ)⟩ := by
        unfold ratC
        apply Complex.ext
        · rw [Complex.div_re, Complex.normSq_mk]; push_cast; ring
        · rw [Complex.div_im, Complex.normSq_mk]; push_cast; ring
      have hdiff : ratC p q - ratC a b / ratC c d =
          ⟨((p - (a * c + b * d) / (c * c + d * d) : ℚ) : ℝ), ((q - (b * c - a * d) / (c * c + d * d) : ℚ) : ℝ)⟩ := by
        rw [hquo]; unfold ratC; apply Complex.ext <;> simp
      rw [hdiff, norm_div]
      refine (Complex.norm_le_abs_re_add_abs_im _).trans ?_
      simp only
      have hsw : ‖ratC b a‖ = ‖ratC a b‖ := by
        unfold ratC
        rw [Complex.norm_def, Complex.norm_def, Complex.normSq_mk, Complex.normSq_mk, add_comm]
      have hy2 : ((c * c + d * d : ℚ) : ℝ) = ‖ratC c d‖ * ‖ratC c d‖ := by
        rw [← pow_two ‖ratC c d‖, ← Complex.normSq_eq_norm_sq]
        unfold ratC
        rw [Complex.normSq_mk]; push_cast; rfl
      have hD0 : 0 < c * c + d * d := lt_of_lt_of_le (zpow_pos (by norm_num) _) hD
      have hD0' : (0 : ℝ) < ((c * c + d * d : ℚ) : ℝ) := by exact_mod_cast hD0
      have hy0 : 0 < ‖ratC c d‖ := by
        rcases (norm_nonneg (ratC c d)).lt_or_eq with h | h
        · exact h
        · rw [hy2, ← h] at hD0'; simp at hD0'
      have quo {m : ℚ} (hm : ((m : ℚ) : ℝ) ≤ ‖ratC a b‖ * ‖ratC c d‖) :
          ((m / (c * c + d * d) : ℚ) : ℝ) ≤ ‖ratC a b‖ / ‖ratC c d‖ := by
        rw [Rat.cast_div, hy2, div_le_div_iff₀ (mul_pos hy0 hy0) hy0, ← mul_assoc]
        exact mul_le_mul_of_nonneg_right hm hy0.le
      have g1 := quo (cauchy_norm a b c d)
      have g2 := quo (m := |b * c| + |a * d|) (by have := cauchy_norm b a c d; rwa [hsw] at this)
      have f1 := cast_abs r1
      have f2 := cast_abs r2
      have hk : ((u : ℚ) : ℝ) = 1 / 2 ^ 53 := by unfold u; push_cast; rfl
      have hu0 : (0 : ℝ) ≤ (u : ℚ) := by exact_mod_cast u_pos.le
      have he : (2 : ℝ) ^ (-967 : ℤ) = 2 ^ (-968 : ℤ) * 2 := by
        rw [show (-967 : ℤ) = -968 + 1 by norm_num, zpow_add₀ (by norm_num), zpow_one]
      rw [he, show (18 : ℝ) / 2 ^ 53 = 18 * ((u : ℚ) : ℝ) by rw [hk]; ring]
      rw [Rat.cast_add, Rat.cast_mul, Rat.cast_mul] at f1 f2
      have g1' := mul_le_mul_of_nonneg_left g1 hu0
      have g2' := mul_le_mul_of_nonneg_left g2 hu0
      have e968 : (((2 : ℚ) ^ (-968 : ℤ) : ℚ) : ℝ) = 2 ^ (-968 : ℤ) := by
        rw [Rat.cast_zpow]; norm_num
      rw [e968] at f1 f2
      have e9 : ((9 : ℚ) : ℝ) = 9 := by norm_num
      rw [e9] at f1 f2
      generalize (2 : ℝ) ^ (-968 : ℤ) = B at *
      generalize ‖ratC a b‖ / ‖ratC c d‖ = R at *
      linarith

/-- C74 fails for the components: a component of a product can be lost altogether. With `a = c = 1 + 2^-27`, `b = 1`,
`d = 1 + 2^-26` the real part is `2^-54` and the computed one is 0. -/
theorem C74_component_not :
    ∃ a b c d : ℚ, IsFinite a ∧ IsFinite b ∧ IsFinite c ∧ IsFinite d ∧ a * c - b * d = 1 / 2 ^ 54 ∧
      (Cx.mul Arith.double (Cx.ofRats a b) (Cx.ofRats c d)).re = fin 0 :=
  ⟨1 + 1 / 2 ^ 27, 1, 1 + 1 / 2 ^ 27, 1 + 1 / 2 ^ 26, ⟨by decide +kernel, by decide +kernel⟩, ⟨by decide +kernel, by decide +kernel⟩,
    ⟨by decide +kernel, by decide +kernel⟩, ⟨by decide +kernel, by decide +kernel⟩, by decide +kernel, by decide +kernel⟩

/-- C74 fails beyond `2^512`: the squares of the divisor overflow, and `2^600 / 2^600` is not a number, `2^400 / 2^600` is 0. -/
theorem C74_range_not :
    Cx.div Arith.double (Cx.ofRats (2 ^ 600) 0) (Cx.ofRats (2 ^ 600) 0) = .ok ⟨.nan, .fin 0⟩ ∧
    Cx.div Arith.double (Cx.ofRats (2 ^ 400) 0) (Cx.ofRats (2 ^ 600) 0) = .ok (Cx.ofRats 0 0) := by
  constructor <;> decide +kernel

-- 1/3 and 1/10 as doubles
example : IsFinite (rnd (1 / 3)) ∧ IsFinite (rnd (1 / 10)) ∧ |rnd (1 / 3)| ≤ 2 ^ 500 ∧ ¬ (|rnd (1 / 3)| < 1 / 2 ^ 52 ∧ |rnd (1 / 10)| < 1 / 2 ^ 52) :=
  ⟨⟨by decide +kernel, by decide +kernel⟩, ⟨by decide +kernel, by decide +kernel⟩, by decide +kernel, by decide +kernel⟩
example : ∃ p q, Cx.div Arith.double (Cx.ofRats 1 0) (Cx.ofRats 3 0) = .ok (Cx.ofRats p q) ∧ p = rnd (1 / 3) ∧ q = 0 :=
  ⟨_, _, by decide +kernel, rfl, rfl⟩

end Pyincpp
