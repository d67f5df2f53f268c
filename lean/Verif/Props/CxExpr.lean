import Verif.Spec.CxExpr
import Verif.Props.ComplexRounding

/-! # C108: expressions of complex doubles -/

namespace Pyincpp
open Dbl

namespace CxRound

theorem finite_ofRat {q r : ℚ} (h : ofRat q = fin r) : IsFinite r := by
  unfold ofRat at h
  split at h
  · cases h
  · rename_i hb
    cases h
    exact ⟨rnd_idem q, not_le.1 hb⟩

theorem finite_zero : IsFinite 0 := ⟨rnd_zero, by norm_num⟩

theorem finite_add {x y : Dbl} {r : ℚ} (h : Dbl.add x y = fin r) : IsFinite r := by
  cases x with
  | nan => cases y <;> cases h
  | inf s => cases y with
    | nan => cases h
    | inf t =>
      simp only [Dbl.add] at h
      split at h <;> cases h
    | fin q => cases h
  | fin p => cases y with
    | nan => cases h
    | inf t => cases h
    | fin q => exact finite_ofRat h

theorem finite_sub {x y : Dbl} {r : ℚ} (h : Dbl.sub x y = fin r) : IsFinite r := finite_add h

theorem finite_div {x y : Dbl} {r : ℚ} (h : Dbl.div x y = fin r) : IsFinite r := by
  cases x with
  | nan => cases y <;> cases h
  | inf s => cases y <;> cases h
  | fin p => cases y with
    | nan => cases h
    | inf t => cases h; exact finite_zero
    | fin q =>
      simp only [Dbl.div] at h
      split at h
      · split at h <;> cases h
      · exact finite_ofRat h

theorem cx_add_finite {x y : Cx Dbl} {p q : ℚ} (e : Cx.add Arith.double x y = Cx.ofRats p q) : IsFinite p ∧ IsFinite q :=
  ⟨finite_add (x := x.re) (y := y.re) (congrArg Cx.re e), finite_add (x := x.im) (y := y.im) (congrArg Cx.im e)⟩

theorem cx_sub_finite {x y : Cx Dbl} {p q : ℚ} (e : Cx.sub Arith.double x y = Cx.ofRats p q) : IsFinite p ∧ IsFinite q :=
  ⟨finite_sub (x := x.re) (y := y.re) (congrArg Cx.re e), finite_sub (x := x.im) (y := y.im) (congrArg Cx.im e)⟩

theorem cx_mul_finite {x y : Cx Dbl} {p q : ℚ} (e : Cx.mul Arith.double x y = Cx.ofRats p q) : IsFinite p ∧ IsFinite q :=
  ⟨finite_sub (x := x.re.mul y.re) (y := x.im.mul y.im) (congrArg Cx.re e),
    finite_add (x := x.re.mul y.im) (y := x.im.mul y.re) (congrArg Cx.im e)⟩

theorem comp_le (p q : ℚ) {B : ℚ} (h : ‖ratC p q‖ ≤ (B : ℝ)) : |p| ≤ B ∧ |q| ≤ B := by
  constructor
  · have := (Complex.abs_re_le_norm (ratC p q)).trans h
    have e : |(p : ℝ)| ≤ (B : ℝ) := this
    exact_mod_cast e
  · have := (Complex.abs_im_le_norm (ratC p q)).trans h
    have e : |(q : ℝ)| ≤ (B : ℝ) := this
    exact_mod_cast e

theorem ratC_add (a b c d : ℚ) : ratC a b + ratC c d = ratC (a + c) (b + d) := by
  apply Complex.ext <;> simp [ratC]

theorem ratC_sub (a b c d : ℚ) : ratC a b - ratC c d = ratC (a - c) (b - d) := by
  apply Complex.ext <;> simp [ratC]

/-- The norm of a value that is near to another. -/
theorem near_norm {x y : ℂ} {e : ℝ} (h : ‖x - y‖ ≤ e) : ‖x‖ ≤ ‖y‖ + e := by
  have := norm_add_le (x - y) y
  rw [sub_add_cancel] at this
  linarith

theorem near_norm' {x y : ℂ} {e : ℝ} (h : ‖x - y‖ ≤ e) : ‖y‖ - e ≤ ‖x‖ := by
  have := norm_sub_le x (x - y)
  rw [sub_sub_cancel] at this
  linarith

end CxRound

open CxRound

theorem CxExpr.bound_nonneg (e : CxExpr) : e.Safe → 0 ≤ e.bound := by
  induction e with
  | val a b => exact fun _ => le_refl _
  | add x y hx hy =>
    rintro ⟨h1, h2, -⟩
    have := hx h1
    have := hy h2
    unfold CxExpr.bound
    positivity
  | sub x y hx hy =>
    rintro ⟨h1, h2, -⟩
    have := hx h1
    have := hy h2
    unfold CxExpr.bound
    positivity
  | mul x y hx hy =>
    rintro ⟨h1, h2, -⟩
    have := hx h1
    have := hy h2
    unfold CxExpr.bound
    positivity
  | div x y hx hy =>
    rintro ⟨h1, h2, -, -, h3⟩
    have := hx h1
    have := hy h2
    have h4 : (0 : ℝ) < 2 / 2 ^ 52 := by norm_num
    have h5 : 0 < ‖y.exact‖ - y.bound := lt_of_lt_of_le h4 h3
    unfold CxExpr.bound
    positivity

/-- C108: a safe expression gives finite doubles, and their distance from the exact value is at most the running bound. -/
theorem C108_running_partial (e : CxExpr) (h : e.Safe) :
    ∃ p q, e.eval = .ok (Cx.ofRats p q) ∧ IsFinite p ∧ IsFinite q ∧ ‖ratC p q - e.exact‖ ≤ e.bound := by
  have big : ((2 ^ 500 : ℚ) : ℝ) = 2 ^ 500 := by push_cast; rfl
  have big' : ((2 ^ 1023 : ℚ) : ℝ) = 2 ^ 1023 := by push_cast; rfl
  induction e with
  | val a b =>
    refine ⟨a, b, rfl, h.1, h.2, ?_⟩
    have : ratC a b - (CxExpr.val a b).exact = 0 := sub_self _
    rw [this, norm_zero]
    exact le_refl _
  | add x y hx hy =>
    obtain ⟨h1, h2, h3⟩ := h
    obtain ⟨a, b, ex, fa, fb, dx⟩ := hx h1
    obtain ⟨c, d, ey, fc, fd, dy⟩ := hy h2
    have hs : ‖(ratC a b + ratC c d) - (x.exact + y.exact)‖ ≤ x.bound + y.bound := by
      rw [add_sub_add_comm]
      exact (norm_add_le _ _).trans (add_le_add dx dy)
    have hn := near_norm hs
    have hm : ‖ratC (a + c) (b + d)‖ ≤ ((2 ^ 1023 : ℚ) : ℝ) := by
      rw [← ratC_add, big']
      linarith
    obtain ⟨p, q, e, he⟩ := C74_add fa fb fc fd (comp_le _ _ hm).1 (comp_le _ _ hm).2
    refine ⟨p, q, ?_, (cx_add_finite e).1, (cx_add_finite e).2, ?_⟩
    · simp only [CxExpr.eval, ex, ey, Res.ok_bind, e]
    · have h4 : (1 : ℝ) / 2 ^ 53 * ‖ratC a b + ratC c d‖ ≤ 1 / 2 ^ 53 * (‖x.exact + y.exact‖ + (x.bound + y.bound)) :=
        mul_le_mul_of_nonneg_left hn (by positivity)
      have h5 := norm_sub_le_norm_sub_add_norm_sub (ratC p q) (ratC a b + ratC c d) (x.exact + y.exact)
      unfold CxExpr.exact CxExpr.bound
      rw [add_assoc ‖_‖]
      linarith
  | sub x y hx hy =>
    obtain ⟨h1, h2, h3⟩ := h
    obtain ⟨a, b, ex, fa, fb, dx⟩ := hx h1
    obtain ⟨c, d, ey, fc, fd, dy⟩ := hy h2
    have hs : ‖(ratC a b - ratC c d) - (x.exact - y.exact)‖ ≤ x.bound + y.bound := by
      rw [sub_sub_sub_comm]
      exact (norm_sub_le _ _).trans (add_le_add dx dy)
    have hn := near_norm hs
    have hm : ‖ratC (a - c) (b - d)‖ ≤ ((2 ^ 1023 : ℚ) : ℝ) := by
      rw [← ratC_sub, big']
      linarith
    obtain ⟨p, q, e, he⟩ := C74_sub fa fb fc fd (comp_le _ _ hm).1 (comp_le _ _ hm).2
    refine ⟨p, q, ?_, (cx_sub_finite e).1, (cx_sub_finite e).2, ?_⟩
    · simp only [CxExpr.eval, ex, ey, Res.ok_bind, e]
    · have h4 : (1 : ℝ) / 2 ^ 53 * ‖ratC a b - ratC c d‖ ≤ 1 / 2 ^ 53 * (‖x.exact - y.exact‖ + (x.bound + y.bound)) :=
        mul_le_mul_of_nonneg_left hn (by positivity)
      have h5 := norm_sub_le_norm_sub_add_norm_sub (ratC p q) (ratC a b - ratC c d) (x.exact - y.exact)
      unfold CxExpr.exact CxExpr.bound
      rw [add_assoc ‖_‖]
      linarith
  | mul x y hx hy =>
    obtain ⟨h1, h2, h3, h4⟩ := h
    obtain ⟨a, b, ex, fa, fb, dx⟩ := hx h1
    obtain ⟨c, d, ey, fc, fd, dy⟩ := hy h2
    have bx := x.bound_nonneg h1
    have by' := y.bound_nonneg h2
    have nx := near_norm dx
    have ny := near_norm dy
    have hmx : ‖ratC a b‖ ≤ ((2 ^ 500 : ℚ) : ℝ) := by rw [big]; linarith
    have hmy : ‖ratC c d‖ ≤ ((2 ^ 500 : ℚ) : ℝ) := by rw [big]; linarith
    obtain ⟨p, q, e, he⟩ := C74_mul (comp_le _ _ hmx).1 (comp_le _ _ hmx).2 (comp_le _ _ hmy).1 (comp_le _ _ hmy).2
    refine ⟨p, q, ?_, (cx_mul_finite e).1, (cx_mul_finite e).2, ?_⟩
    · simp only [CxExpr.eval, ex, ey, Res.ok_bind, e]
    · have h5 := norm_sub_le_norm_sub_add_norm_sub (ratC p q) (ratC a b * ratC c d) (x.exact * y.exact)
      have h6 : ‖ratC a b * ratC c d - x.exact * y.exact‖ ≤ x.bound * ‖y.exact‖ + ‖x.exact‖ * y.bound + x.bound * y.bound := by
        have e1 : ratC a b * ratC c d - x.exact * y.exact =
            (ratC a b - x.exact) * y.exact + x.exact * (ratC c d - y.exact) + (ratC a b - x.exact) * (ratC c d - y.exact) := by ring
        rw [e1]
        refine (norm_add_le _ _).trans (add_le_add ((norm_add_le _ _).trans (add_le_add ?_ ?_)) ?_)
        · rw [norm_mul]; exact mul_le_mul_of_nonneg_right dx (norm_nonneg _)
        · rw [norm_mul]; exact mul_le_mul_of_nonneg_left dy (norm_nonneg _)
        · rw [norm_mul]; exact mul_le_mul dx dy (norm_nonneg _) bx
      have h7 : 6 / 2 ^ 53 * ‖ratC a b * ratC c d‖ ≤ 6 / 2 ^ 53 * ((‖x.exact‖ + x.bound) * (‖y.exact‖ + y.bound)) := by
        rw [norm_mul]
        exact mul_le_mul_of_nonneg_left (mul_le_mul nx ny (norm_nonneg _) (by positivity)) (by positivity)
      unfold CxExpr.exact CxExpr.bound
      linarith
  | div x y hx hy =>
    obtain ⟨h1, h2, h3, h4, h0⟩ := h
    obtain ⟨a, b, ex, fa, fb, dx⟩ := hx h1
    obtain ⟨c, d, ey, fc, fd, dy⟩ := hy h2
    have bx := x.bound_nonneg h1
    have by' := y.bound_nonneg h2
    have nx := near_norm dx
    have ny := near_norm dy
    have ny' := near_norm' dy
    have hpos : (0 : ℝ) < 2 / 2 ^ 52 := by norm_num
    have hy0 : 0 < ‖y.exact‖ - y.bound := lt_of_lt_of_le hpos h0
    have hmx : ‖ratC a b‖ ≤ ((2 ^ 500 : ℚ) : ℝ) := by rw [big]; linarith
    have hmy : ‖ratC c d‖ ≤ ((2 ^ 500 : ℚ) : ℝ) := by rw [big]; linarith
    have hne : ¬ (|c| < 1 / 2 ^ 52 ∧ |d| < 1 / 2 ^ 52) := by
      rintro ⟨hc, hd⟩
      have e1 : |(c : ℝ)| < 1 / 2 ^ 52 := by
        have := (Rat.cast_lt (K := ℝ)).2 hc
        push_cast at this
        exact this
      have e2 : |(d : ℝ)| < 1 / 2 ^ 52 := by
        have := (Rat.cast_lt (K := ℝ)).2 hd
        push_cast at this
        exact this
      have e3 := Complex.norm_le_abs_re_add_abs_im (ratC c d)
      have e4 : |(ratC c d).re| = |(c : ℝ)| := rfl
      have e5 : |(ratC c d).im| = |(d : ℝ)| := rfl
      rw [e4, e5] at e3
      have : (2 : ℝ) / 2 ^ 52 = 1 / 2 ^ 52 + 1 / 2 ^ 52 := by norm_num
      linarith
    obtain ⟨p, q, e, he⟩ := (C74_div_partial (comp_le _ _ hmx).1 (comp_le _ _ hmx).2 (comp_le _ _ hmy).1 (comp_le _ _ hmy).2 fc fd).2 hne
    have hfin : IsFinite p ∧ IsFinite q := by
      unfold Cx.div at e
      cases hz : checkZero (Cx.eq Arith.double (Cx.ofRats c d) ⟨Arith.double.zero, Arith.double.zero⟩) with
      | ok t =>
        rw [hz] at e
        have e' := Res.ok.inj e
        exact ⟨finite_div (congrArg Cx.re e'), finite_div (congrArg Cx.im e')⟩
      | throw m => rw [hz] at e; cases e
      | ub u => rw [hz] at e; cases e
      | fuel => rw [hz] at e; cases e
    refine ⟨p, q, ?_, hfin.1, hfin.2, ?_⟩
    · simp only [CxExpr.eval, ex, ey, Res.ok_bind, e]
    · have h5 := norm_sub_le_norm_sub_add_norm_sub (ratC p q) (ratC a b / ratC c d) (x.exact / y.exact)
      have hcd : ratC c d ≠ 0 := by
        intro h
        rw [h, norm_zero] at ny'
        linarith
      have hye : y.exact ≠ 0 := by
        intro h
        rw [h, norm_zero] at hy0
        linarith
      have h6 : ‖ratC a b / ratC c d - x.exact / y.exact‖ ≤ (x.bound + ‖x.exact / y.exact‖ * y.bound) / (‖y.exact‖ - y.bound) := by
        have e1 : ratC a b / ratC c d - x.exact / y.exact =
            ((ratC a b - x.exact) - x.exact / y.exact * (ratC c d - y.exact)) / ratC c d := by
          field_simp
          ring
        rw [e1, norm_div]
        refine div_le_div₀ (by positivity) ?_ hy0 ny'
        refine (norm_sub_le _ _).trans (add_le_add dx ?_)
        rw [norm_mul]
        exact mul_le_mul_of_nonneg_left dy (norm_nonneg _)
      have h7 : 18 / 2 ^ 53 * ‖ratC a b / ratC c d‖ ≤ 18 / 2 ^ 53 * ((‖x.exact‖ + x.bound) / (‖y.exact‖ - y.bound)) := by
        rw [norm_div]
        exact mul_le_mul_of_nonneg_left (div_le_div₀ (by positivity) nx hy0 ny') (by positivity)
      unfold CxExpr.exact CxExpr.bound
      linarith

-- (1 + 2i) / (3 - 4i)
example : (CxExpr.div (.val 1 2) (.val 3 (-4))).Safe := by
  have fin : ∀ n : ℤ, |n| < 10 → IsFinite (n : ℚ) := fun n hn => by
    refine ⟨rnd_int (hn.trans (by norm_num)), ?_⟩
    have h1 : |(n : ℚ)| < 10 := by exact_mod_cast hn
    have h2 : (10 : ℚ) ≤ 2 ^ 10 := by norm_num
    exact lt_of_lt_of_le h1 (h2.trans (pow_le_pow_right₀ (by norm_num) (by norm_num)))
  have small : ∀ z : ℂ, |z.re| + |z.im| ≤ 7 → ‖z‖ + 0 ≤ 2 ^ 500 := fun z hz => by
    have h1 := (Complex.norm_le_abs_re_add_abs_im z).trans hz
    have h2 : (7 : ℝ) ≤ 2 ^ 3 := by norm_num
    have h3 : (2 : ℝ) ^ 3 ≤ 2 ^ 500 := pow_le_pow_right₀ (by norm_num) (by norm_num)
    rw [add_zero]
    exact h1.trans (h2.trans h3)
  refine ⟨⟨by simpa using fin 1 (by norm_num), by simpa using fin 2 (by norm_num)⟩,
    ⟨by simpa using fin 3 (by norm_num), by simpa using fin (-4) (by norm_num)⟩, small _ ?_, small _ ?_, ?_⟩
  · simp [CxExpr.exact]; norm_num
  · simp [CxExpr.exact]; norm_num
  · have := Complex.abs_re_le_norm (CxExpr.val 3 (-4)).exact
    have h3 : |(CxExpr.val 3 (-4)).exact.re| = 3 := by simp [CxExpr.exact]
    have h4 : (CxExpr.val 3 (-4)).bound = 0 := rfl
    rw [h4, sub_zero]
    rw [h3] at this
    exact le_trans (by norm_num) this

/-- C108 for sums: the error is at most `(1 + 2^-53)^n - 1` times the sum of the absolute values. -/
theorem C108_sum_partial (a b : ℚ) (xs : List (ℚ × ℚ)) (ha : IsFinite a) (hb : IsFinite b)
    (hx : ∀ x ∈ xs, IsFinite x.1 ∧ IsFinite x.2)
    (hbig : (1 + 1 / 2 ^ 53 : ℝ) ^ xs.length * (‖ratC a b‖ + (xs.map (fun x => ‖ratC x.1 x.2‖)).sum) ≤ 2 ^ 1023) :
    ∃ p q, Cx.sum (Cx.ofRats a b) xs = Cx.ofRats p q ∧
      ‖ratC p q - (ratC a b + (xs.map (fun x => ratC x.1 x.2)).sum)‖ ≤
        ((1 + 1 / 2 ^ 53 : ℝ) ^ xs.length - 1) * (‖ratC a b‖ + (xs.map (fun x => ‖ratC x.1 x.2‖)).sum) := by
  have big' : ((2 ^ 1023 : ℚ) : ℝ) = 2 ^ 1023 := by push_cast; rfl
  set u : ℝ := 1 / 2 ^ 53 with hu
  have hu0 : 0 < u := by rw [hu]; norm_num
  have key : ∀ (xs : List (ℚ × ℚ)) (a b : ℚ) (s : ℂ) (A r : ℝ), IsFinite a → IsFinite b → (∀ x ∈ xs, IsFinite x.1 ∧ IsFinite x.2) →
      1 ≤ r → ‖s‖ ≤ A → ‖ratC a b - s‖ ≤ (r - 1) * A →
      (1 + u) ^ xs.length * r * (A + (xs.map (fun x => ‖ratC x.1 x.2‖)).sum) ≤ 2 ^ 1023 →
      ∃ p q, Cx.sum (Cx.ofRats a b) xs = Cx.ofRats p q ∧
        ‖ratC p q - (s + (xs.map (fun x => ratC x.1 x.2)).sum)‖ ≤
          ((1 + u) ^ xs.length * r - 1) * (A + (xs.map (fun x => ‖ratC x.1 x.2‖)).sum) := by
    intro xs
    induction xs with
    | nil =>
      intro a b s A r _ _ _ _ _ hd _
      exact ⟨a, b, rfl, by simpa using hd⟩
    | cons x xs ih =>
      intro a b s A r ha hb hx hr hA hd hbig
      obtain ⟨c, d⟩ := x
      obtain ⟨hc, hd'⟩ := hx (c, d) (by simp)
      rw [List.map_cons, List.sum_cons, List.length_cons] at hbig
      rw [List.map_cons, List.sum_cons, List.map_cons, List.sum_cons, List.length_cons]
      dsimp only at hc hd' hbig ⊢
      have hA0 : 0 ≤ A := (norm_nonneg _).trans hA
      have hsum : 0 ≤ (xs.map (fun x => ‖ratC x.1 x.2‖)).sum :=
        List.sum_nonneg (fun y hy => by obtain ⟨z, -, rfl⟩ := List.mem_map.1 hy; exact norm_nonneg _)
      set X := ‖ratC c d‖ with hX
      have hX0 : 0 ≤ X := norm_nonneg _
      set S := (xs.map (fun x => ‖ratC x.1 x.2‖)).sum with hS
      have hpow : 1 ≤ (1 + u) ^ xs.length := one_le_pow₀ (by linarith)
      have hab : ‖ratC a b + ratC c d‖ ≤ r * A + X := by
        have h1 := near_norm hd
        have h2 := norm_add_le (ratC a b) (ratC c d)
        nlinarith
      have hlim : r * A + X ≤ 2 ^ 1023 := by
        refine le_trans ?_ hbig
        rw [pow_succ]
        have h1 : r * A + X ≤ r * (A + (X + S)) := by nlinarith
        have h2 : r * (A + (X + S)) ≤ (1 + u) ^ xs.length * (1 + u) * (r * (A + (X + S))) := by
          refine le_mul_of_one_le_left (by positivity) ?_
          nlinarith
        calc r * A + X ≤ _ := h1
          _ ≤ _ := h2
          _ = _ := by ring
      have hm : ‖ratC (a + c) (b + d)‖ ≤ ((2 ^ 1023 : ℚ) : ℝ) := by
        rw [← ratC_add, big']
        exact hab.trans hlim
      obtain ⟨p, q, e, he⟩ := C74_add ha hb hc hd' (comp_le _ _ hm).1 (comp_le _ _ hm).2
      rw [← hu] at he
      have h1 : ‖ratC p q - (s + ratC c d)‖ ≤ ((1 + u) * r - 1) * (A + X) := by
        have h5 := norm_sub_le_norm_sub_add_norm_sub (ratC p q) (ratC a b + ratC c d) (s + ratC c d)
        rw [add_sub_add_right_eq_sub] at h5
        have h6 : u * ‖ratC a b + ratC c d‖ ≤ u * (r * A + X) := mul_le_mul_of_nonneg_left hab hu0.le
        have h7 : 0 ≤ (r - 1) * X := mul_nonneg (by linarith) hX0
        have h8 : 0 ≤ u * ((r - 1) * X) := mul_nonneg hu0.le h7
        nlinarith
      obtain ⟨p', q', e', he'⟩ := ih p q (s + ratC c d) (A + X) ((1 + u) * r) (cx_add_finite e).1 (cx_add_finite e).2
        (fun y hy => hx y (by simp [hy])) (by nlinarith) ((norm_add_le _ _).trans (add_le_add hA le_rfl)) h1
        (by
          refine le_trans (le_of_eq ?_) hbig
          rw [pow_succ]; ring)
      refine ⟨p', q', ?_, ?_⟩
      · rw [← e', ← e]; rfl
      · rw [← add_assoc]
        refine he'.trans (le_of_eq ?_)
        rw [pow_succ]; ring
  obtain ⟨p, q, e, h⟩ := key xs a b (ratC a b) ‖ratC a b‖ 1 ha hb hx le_rfl le_rfl (by simp) (by rw [mul_one]; exact hbig)
  exact ⟨p, q, e, by rwa [mul_one] at h⟩

example : (1 + 1 / 2 ^ 53 : ℝ) ^ [((0 : ℚ), (1 : ℚ))].length * (‖ratC 1 0‖ + ([((0 : ℚ), (1 : ℚ))].map (fun x => ‖ratC x.1 x.2‖)).sum) ≤ 2 ^ 1023 := by
  have h1 : ratC 1 0 = 1 := by apply Complex.ext <;> simp [ratC]
  have h2 : ratC 0 1 = Complex.I := by apply Complex.ext <;> simp [ratC]
  have h3 : (2 : ℝ) ^ 2 ≤ 2 ^ 1023 := pow_le_pow_right₀ (by norm_num) (by norm_num)
  refine le_trans ?_ h3
  simp only [List.length_cons, List.length_nil, List.map_cons, List.map_nil, List.sum_cons, List.sum_nil, h1, h2, norm_one, Complex.norm_I]
  norm_num

/-- C108 for products: the error is at most `(1 + 6 * 2^-53)^n - 1` times the absolute value of the product, and what underflow
loses: `2^-1072` in each step, multiplied by the factors that follow. -/
theorem C108_product_partial (a b : ℚ) (xs : List (ℚ × ℚ))
    (hbig : ∀ ys zs, xs = ys ++ zs → (1 + 6 / 2 ^ 53 : ℝ) ^ ys.length * (‖ratC a b‖ * (ys.map (fun x => ‖ratC x.1 x.2‖)).prod) +
      ys.foldl (fun w x => (1 + 6 / 2 ^ 53) * ‖ratC x.1 x.2‖ * w + 2 ^ (-1072 : ℤ)) 0 ≤ 2 ^ 500)
    (hx : ∀ x ∈ xs, |x.1| ≤ 2 ^ 500 ∧ |x.2| ≤ 2 ^ 500) :
    ∃ p q, Cx.product (Cx.ofRats a b) xs = Cx.ofRats p q ∧
      ‖ratC p q - ratC a b * (xs.map (fun x => ratC x.1 x.2)).prod‖ ≤
        ((1 + 6 / 2 ^ 53 : ℝ) ^ xs.length - 1) * (‖ratC a b‖ * (xs.map (fun x => ‖ratC x.1 x.2‖)).prod) +
        xs.foldl (fun w x => (1 + 6 / 2 ^ 53) * ‖ratC x.1 x.2‖ * w + 2 ^ (-1072 : ℤ)) 0 := by
  have big : ((2 ^ 500 : ℚ) : ℝ) = 2 ^ 500 := by push_cast; rfl
  induction xs using List.reverseRecOn with
  | nil => exact ⟨a, b, rfl, by simp⟩
  | append_singleton xs x ih =>
    obtain ⟨p, q, e, h⟩ := ih (fun ys zs hy => hbig ys (zs ++ [x]) (by rw [hy, List.append_assoc]))
      (fun y hy => hx y (by simp [hy]))
    obtain ⟨hx1, hx2⟩ := hx x (by simp)
    have hb := hbig xs [x] rfl
    clear hbig
    set v : ℝ := 6 / 2 ^ 53 with hv
    have hv0 : 0 < v := by rw [hv]; norm_num
    set P := ratC a b * (xs.map (fun x => ratC x.1 x.2)).prod with hP
    have hN : ‖P‖ = ‖ratC a b‖ * (xs.map (fun x => ‖ratC x.1 x.2‖)).prod := by
      rw [hP, norm_mul, List.norm_prod, List.map_map]
      rfl
    rw [← hN] at h hb
    set w := xs.foldl (fun w x => (1 + v) * ‖ratC x.1 x.2‖ * w + 2 ^ (-1072 : ℤ)) 0 with hw
    have hn := near_norm h
    have hm : ‖ratC p q‖ ≤ ((2 ^ 500 : ℚ) : ℝ) := by
      rw [big]
      linarith
    obtain ⟨p', q', e', h'⟩ := C74_mul (comp_le _ _ hm).1 (comp_le _ _ hm).2 hx1 hx2
    refine ⟨p', q', ?_, ?_⟩
    · rw [← e']
      unfold Cx.product at e ⊢
      rw [List.foldl_append, e]
      rfl
    · rw [← hv, norm_mul] at h'
      rw [List.map_append, List.prod_append, List.map_append, List.prod_append, List.foldl_append, List.length_append]
      simp only [List.map_cons, List.map_nil, List.prod_cons, List.prod_nil, mul_one, List.foldl_cons, List.foldl_nil, List.length_cons,
        List.length_nil, zero_add]
      rw [← mul_assoc (ratC a b), ← hP, ← mul_assoc ‖ratC a b‖, ← hN, pow_succ, ← hw]
      set X := ‖ratC x.1 x.2‖ with hX
      have hX0 : 0 ≤ X := norm_nonneg _
      set R := (1 + v) ^ xs.length
      have h5 := norm_sub_le_norm_sub_add_norm_sub (ratC p' q') (ratC p q * ratC x.1 x.2) (P * ratC x.1 x.2)
      have h6 : ‖ratC p q * ratC x.1 x.2 - P * ratC x.1 x.2‖ ≤ ((R - 1) * ‖P‖ + w) * X := by
        rw [← sub_mul, norm_mul]
        exact mul_le_mul_of_nonneg_right h hX0
      have h7 : v * (‖ratC p q‖ * X) ≤ v * ((‖P‖ + ((R - 1) * ‖P‖ + w)) * X) :=
        mul_le_mul_of_nonneg_left (mul_le_mul_of_nonneg_right hn hX0) hv0.le
      have e3 : (R * (1 + v) - 1) * (‖P‖ * X) + ((1 + v) * X * w + 2 ^ (-1072 : ℤ)) =
          v * ((‖P‖ + ((R - 1) * ‖P‖ + w)) * X) + 2 ^ (-1072 : ℤ) + ((R - 1) * ‖P‖ + w) * X := by ring
      rw [e3]
      linarith

example : ∀ ys zs, [((0 : ℚ), (1 : ℚ))] = ys ++ zs → (1 + 6 / 2 ^ 53 : ℝ) ^ ys.length * (‖ratC 1 0‖ * (ys.map (fun x => ‖ratC x.1 x.2‖)).prod) +
    ys.foldl (fun w x => (1 + 6 / 2 ^ 53) * ‖ratC x.1 x.2‖ * w + 2 ^ (-1072 : ℤ)) 0 ≤ 2 ^ 500 := by
  have h1 : ratC 1 0 = 1 := by apply Complex.ext <;> simp [ratC]
  have h2 : ratC 0 1 = Complex.I := by apply Complex.ext <;> simp [ratC]
  have h3 : (2 : ℝ) ^ 2 ≤ 2 ^ 500 := pow_le_pow_right₀ (by norm_num) (by norm_num)
  have h4 : (2 : ℝ) ^ (-1072 : ℤ) ≤ 1 := zpow_le_one_of_nonpos₀ (by norm_num) (by norm_num)
  intro ys zs h
  refine le_trans ?_ h3
  match ys with
  | [] => simp [h1]
  | [y] =>
    cases (List.cons.inj h).1
    simp only [List.length_cons, List.length_nil, List.map_cons, List.map_nil, List.prod_cons, List.prod_nil, List.foldl_cons, List.foldl_nil,
      h1, h2, norm_one, Complex.norm_I]
    have : (1 + 6 / 2 ^ 53 : ℝ) ^ (0 + 1) * (1 * (1 * 1)) ≤ 3 := by norm_num
    linarith
  | y :: z :: ys => simp at h

/-- C108 fails for the relative error: `2^53 + 1 - 2^53` is 0, the sum of three numbers with one that is too small to matter. -/
theorem C108_relative_not : (CxExpr.sub (.add (.val (2 ^ 53) 0) (.val 1 0)) (.val (2 ^ 53) 0)).eval = .ok (Cx.ofRats 0 0) ∧
    (CxExpr.sub (.add (.val (2 ^ 53) 0) (.val 1 0)) (.val (2 ^ 53) 0)).exact = 1 ∧
    (CxExpr.add (.sub (.val (2 ^ 53) 0) (.val (2 ^ 53) 0)) (.val 1 0)).eval = .ok (Cx.ofRats 1 0) := by
  refine ⟨by decide +kernel, ?_, by decide +kernel⟩
  simp only [CxExpr.exact]
  apply Complex.ext <;> simp

end Pyincpp
