import Verif.Proof.Fraction

/-! # Theorems about fractions (C49-C53) -/

namespace Pyincpp
open Frac

variable {x y : Frac}

/-! ## Construction -/

/-- C49, for arguments other than `INT_MIN`: a zero denominator throws, otherwise the result is `n / d` in lowest terms
with a positive denominator. Missing: `INT_MIN`, where the constructor has undefined behaviour (`C49_construct_not`). -/
theorem C49_construct_partial (n d : ℤ) (hn : IsInt n) (hd : IsInt d) :
    (d = 0 → make n d = .throw "Error: Divide by zero.") ∧
    (d ≠ 0 → n ≠ INT_MIN → d ≠ INT_MIN → ∃ f, make n d = .ok f ∧ f.Valid ∧ f.val = (n : ℚ) / d) :=
  ⟨fun h => h ▸ make_zero n, fun h0 h1 h2 => make_ok (abs_of_bound hn h1) (abs_of_bound hd h2) h0⟩

example : make 6 (-4) = .ok ⟨-3, 2⟩ := by decide
example : IsInt 6 ∧ IsInt (-4) ∧ (-4 : ℤ) ≠ 0 ∧ (6 : ℤ) ≠ INT_MIN ∧ (-4 : ℤ) ≠ INT_MIN := by decide

/-- C49 fails: with `INT_MIN` as numerator or denominator (the other not zero) the constructor has undefined behaviour. -/
theorem C49_construct_not : (∀ n d : ℤ, d ≠ 0 → n = INT_MIN ∨ d = INT_MIN → make n d = .ub .overflow) ∧
    ∃ n d : ℤ, IsInt n ∧ IsInt d ∧ d ≠ 0 ∧ make n d = .ub .overflow :=
  ⟨fun _ _ h0 h => make_min h0 h, INT_MIN, 2, by decide, by decide, by decide, make_min (by decide) (.inl rfl)⟩

/-- C49: lowest terms are a unique representation: equal rationals are equal objects. -/
theorem C49_unique (hx : x.Valid) (hy : y.Valid) : x.val = y.val ↔ x = y := ⟨hx.ext hy, fun h => h ▸ rfl⟩

example : (⟨-3, 2⟩ : Frac).Valid := ⟨by decide, by rw [Int.isCoprime_iff_gcd_eq_one]; decide, by decide, by decide⟩

/-! ## Arithmetic -/

/-- C50 for `+`: exactly when the two products fit, the sum has absolute value at most `INT_MAX` and the common denominator
fits, the sum is exact; otherwise there is a signed overflow. Missing: `C50_arithmetic_not`. -/
theorem C50_add_partial (hx : x.Valid) (hy : y.Valid) :
    ExactIf (IsInt (x.num * y.den) ∧ IsInt (x.den * y.num) ∧ |x.num * y.den + x.den * y.num| ≤ INT_MAX ∧ x.den * y.den ≤ INT_MAX)
      (x.val + y.val) (add x y) := add_exact hx hy

/-- C50 for `-`. -/
theorem C50_sub_partial (hx : x.Valid) (hy : y.Valid) :
    ExactIf (IsInt (x.num * y.den) ∧ IsInt (x.den * y.num) ∧ |x.num * y.den - x.den * y.num| ≤ INT_MAX ∧ x.den * y.den ≤ INT_MAX)
      (x.val - y.val) (sub x y) := sub_exact hx hy

/-- C50 for `*`. -/
theorem C50_mul_partial (hx : x.Valid) (hy : y.Valid) :
    ExactIf (|x.num * y.num| ≤ INT_MAX ∧ x.den * y.den ≤ INT_MAX) (x.val * y.val) (mul x y) := mul_exact hx hy

/-- C50 for `/`. -/
theorem C50_div_partial (hx : x.Valid) (hy : y.Valid) (h0 : y.val ≠ 0) :
    ExactIf (|x.num * y.den| ≤ INT_MAX ∧ |x.den * y.num| ≤ INT_MAX) (x.val / y.val) (div x y) := div_exact hx hy h0

/-- C50: dividing by zero throws. -/
theorem C50_div_zero (hx : x.Valid) (hy : y.Valid) (h0 : y.val = 0) : div x y = .throw "Error: Divide by zero." :=
  div_zero hx hy h0

/-- C50: unary minus and `abs` are always exact. -/
theorem C50_neg_abs (hx : x.Valid) :
    (∃ f, neg x = .ok f ∧ f.Valid ∧ f.val = -x.val) ∧ (∃ f, Frac.abs x = .ok f ∧ f.Valid ∧ f.val = |x.val|) :=
  ⟨neg_ok hx, abs_ok hx⟩

example : add ⟨1, 2⟩ ⟨1, 3⟩ = .ok ⟨5, 6⟩ ∧ sub ⟨1, 2⟩ ⟨1, 3⟩ = .ok ⟨1, 6⟩ ∧ mul ⟨2, 3⟩ ⟨3, 4⟩ = .ok ⟨1, 2⟩ ∧
    div ⟨2, 3⟩ ⟨-4, 3⟩ = .ok ⟨-1, 2⟩ ∧ neg ⟨1, 2⟩ = .ok ⟨-1, 2⟩ ∧ Frac.abs ⟨-1, 2⟩ = .ok ⟨1, 2⟩ := by decide

/-- A small whole number is a fraction. -/
theorem valid_int {n : ℤ} (h : |n| ≤ INT_MAX) : (⟨n, 1⟩ : Frac).Valid := ⟨by simp, isCoprime_one_right, h, by simp [INT_MAX]⟩

/-- C50 fails: `-2147483647 - 1`, `-65536 * 32768` and `32768 / (-1/65536)` compute only values within `int`, yet
undefined behaviour follows, since the constructor cannot take `INT_MIN`. -/
theorem C50_arithmetic_not :
    (∃ x y : Frac, x.Valid ∧ y.Valid ∧ IsInt (x.num * y.den) ∧ IsInt (x.den * y.num) ∧
      IsInt (x.num * y.den - x.den * y.num) ∧ IsInt (x.den * y.den) ∧ sub x y = .ub .overflow) ∧
    (∃ x y : Frac, x.Valid ∧ y.Valid ∧ IsInt (x.num * y.num) ∧ IsInt (x.den * y.den) ∧ mul x y = .ub .overflow) := by
  refine ⟨⟨⟨-2147483647, 1⟩, ⟨1, 1⟩, valid_int (by decide), valid_int (by decide), by decide, by decide, by decide, by decide, ?_⟩,
    ⟨⟨-65536, 1⟩, ⟨32768, 1⟩, valid_int (by decide), valid_int (by decide), by decide, by decide, ?_⟩⟩
  · exact (sub_exact (valid_int (by decide)) (valid_int (by decide))).2 (by decide)
  · exact (mul_exact (valid_int (by decide)) (valid_int (by decide))).2 (by decide)

/-- C50 for the compound assignments: they store the result of the operator; when it throws, or in case of undefined
behaviour, nothing is stored. The argument may be the object itself. -/
theorem C50_assign (o : Op) (rhs : Option Frac) (x : Frac) :
    (∀ f, o.run x (rhs.getD x) = .ok f → assignM o rhs x = (.ok (), f)) ∧
    (∀ m, o.run x (rhs.getD x) = .throw m → assignM o rhs x = (.throw m, x)) ∧
    (∀ u, o.run x (rhs.getD x) = .ub u → assignM o rhs x = (.ub u, x)) := by
  unfold assignM
  refine ⟨fun f h => ?_, fun m h => ?_, fun u h => ?_⟩ <;> rw [Meth.get_bind, h] <;> rfl

example : assignM .mul none ⟨-2, 3⟩ = (.ok (), ⟨4, 9⟩) := by decide

/-- C50 for `++` and `--`: exact as long as the new numerator has absolute value at most `INT_MAX`; otherwise a signed
overflow. -/
theorem C50_inc_dec_partial (hx : x.Valid) :
    (if |x.num + x.den| ≤ INT_MAX then ∃ f, incM x = (.ok (), f) ∧ f.Valid ∧ f.val = x.val + 1 else incM x = (.ub .overflow, x)) ∧
    (if |x.num - x.den| ≤ INT_MAX then ∃ f, decM x = (.ok (), f) ∧ f.Valid ∧ f.val = x.val - 1 else decM x = (.ub .overflow, x)) := by
  have v1 : (⟨1, 1⟩ : Frac).Valid := valid_int (by decide)
  have e1 : ofInt 1 = .ok ⟨1, 1⟩ := by decide
  have q1 : (⟨1, 1⟩ : Frac).val = 1 := by simp [val]
  have ha := add_exact hx v1
  have hs := sub_exact hx v1
  rw [q1] at ha hs
  simp only [mul_one] at ha hs
  have hn := (bound_of_abs hx.num_le).1
  have hd := (bound_of_abs hx.abs_den).1
  have hi : incM x = assignM .add (some ⟨1, 1⟩) x := by unfold incM; rw [e1]; rfl
  have hj : decM x = assignM .sub (some ⟨1, 1⟩) x := by unfold decM; rw [e1]; rfl
  rw [hi, hj]
  constructor
  · split
    · next h =>
      obtain ⟨f, e, v, q⟩ := ha.1 ⟨hn, hd, h, hx.den_le⟩
      exact ⟨f, (C50_assign .add (some ⟨1, 1⟩) x).1 f e, v, q⟩
    · next h => exact (C50_assign .add (some ⟨1, 1⟩) x).2.2 _ (ha.2 (fun hf => h hf.2.2.1))
  · split
    · next h =>
      obtain ⟨f, e, v, q⟩ := hs.1 ⟨hn, hd, h, hx.den_le⟩
      exact ⟨f, (C50_assign .sub (some ⟨1, 1⟩) x).1 f e, v, q⟩
    · next h => exact (C50_assign .sub (some ⟨1, 1⟩) x).2.2 _ (hs.2 (fun hf => h hf.2.2.1))

example : incM ⟨-1, 2⟩ = (.ok (), ⟨1, 2⟩) ∧ decM ⟨1, 2⟩ = (.ok (), ⟨-1, 2⟩) := by decide

/-! ## Remainder -/

/-- C51: `x % y` is `x - y * trunc(x / y)` if no `int` operation overflows, with the exact condition for that
(`INT_MIN % -1` is one of the overflows). -/
theorem C51_mod (hx : x.Valid) (hy : y.Valid) (h0 : y.val ≠ 0) :
    ExactIf (IsInt (x.num * y.den) ∧ IsInt (y.num * x.den) ∧ ¬ (x.num * y.den = INT_MIN ∧ y.num * x.den = -1) ∧ x.den * y.den ≤ INT_MAX)
      (x.val - y.val * truncQ (x.val / y.val)) (mod x y) := mod_exact hx hy h0

/-- C51: `x % 0` throws. -/
theorem C51_mod_zero (hy : y.Valid) (h0 : y.val = 0) : mod x y = .throw "Error: Divide by zero." := mod_zero hy h0

/-- C51: the remainder is smaller than the divisor and has the sign of the dividend. -/
theorem C51_mod_bound (hx : x.Valid) (hy : y.Valid) (h0 : y.val ≠ 0) {f : Frac} (h : mod x y = .ok f) :
    |f.val| < |y.val| ∧ 0 ≤ f.val * x.val := by
  have hv : f.val = x.val - y.val * truncQ (x.val / y.val) := by
    have := C51_mod hx hy h0
    by_cases hf : IsInt (x.num * y.den) ∧ IsInt (y.num * x.den) ∧ ¬ (x.num * y.den = INT_MIN ∧ y.num * x.den = -1) ∧ x.den * y.den ≤ INT_MAX
    · obtain ⟨g, e, -, q⟩ := this.1 hf
      rw [e] at h; rw [← Res.ok.inj h, q]
    · rw [this.2 hf] at h; simp at h
  generalize x.val = a at *
  generalize y.val = b at *
  rw [hv]
  have e : a - b * truncQ (a / b) = b * (a / b - truncQ (a / b)) := by field_simp
  have ha : a = b * (a / b) := by field_simp
  have hb : 0 < |b| := abs_pos.2 h0
  have e2 : (a - b * truncQ (a / b)) * a = (b * b) * ((a / b - truncQ (a / b)) * (a / b)) := by rw [e]; field_simp
  rw [e2, e, abs_mul]
  have hbb : 0 ≤ b * b := mul_self_nonneg b
  generalize a / b = q at *
  have h1 : |q - truncQ q| < 1 ∧ 0 ≤ (q - truncQ q) * q := by
    unfold truncQ
    split
    · next h =>
      have := Int.floor_le q
      have := Int.lt_floor_add_one q
      exact ⟨abs_lt.2 ⟨by linarith, by linarith⟩, mul_nonneg (by linarith) h⟩
    · next h =>
      have := Int.le_ceil q
      have := Int.ceil_lt_add_one q
      exact ⟨abs_lt.2 ⟨by linarith, by linarith⟩, mul_nonneg_of_nonpos_of_nonpos (by linarith) (by linarith)⟩
  exact ⟨by nlinarith, mul_nonneg hbb h1.2⟩

example : mod ⟨-7, 2⟩ ⟨2, 3⟩ = .ok ⟨-1, 6⟩ := by decide +kernel

/-! ## Comparison -/

/-- C52 for `<`, `<=`, `>`, `>=`: as the rationals compare, whenever the two products and their difference fit; otherwise
a signed overflow (`C52_less_not`). -/
theorem C52_less_partial (hx : x.Valid) (hy : y.Valid) :
    (IsInt (x.num * y.den) ∧ IsInt (x.den * y.num) ∧ IsInt (x.num * y.den - x.den * y.num) →
      lss x y = .ok (decide (x.val < y.val)) ∧ le x y = .ok (decide (x.val ≤ y.val)) ∧
      gtr x y = .ok (decide (x.val > y.val)) ∧ ge x y = .ok (decide (x.val ≥ y.val))) ∧
    (¬ (IsInt (x.num * y.den) ∧ IsInt (x.den * y.num) ∧ IsInt (x.num * y.den - x.den * y.num)) →
      lss x y = .ub .overflow ∧ le x y = .ub .overflow ∧ gtr x y = .ub .overflow ∧ ge x y = .ub .overflow) := by
  have hlt : x.val < y.val ↔ x.num * y.den - x.den * y.num < 0 := by
    unfold val
    rw [div_lt_div_iff₀ hx.den_pos hy.den_pos, sub_neg, mul_comm x.den]
    exact_mod_cast Iff.rfl
  have hle : x.val ≤ y.val ↔ x.num * y.den - x.den * y.num ≤ 0 := by
    unfold val
    rw [div_le_div_iff₀ hx.den_pos hy.den_pos, sub_nonpos, mul_comm x.den]
    exact_mod_cast Iff.rfl
  unfold lss le gtr ge Frac.cmp imul isub
  constructor
  · rintro ⟨h1, h2, h3⟩
    rw [ck_ok h1, Res.ok_bind, ck_ok h2, Res.ok_bind, ck_ok h3]
    simp only [Res.ok_bind, Res.pure_eq, gt_iff_lt, ge_iff_le, hlt, hle]
    refine ⟨trivial, trivial, ?_, ?_⟩
    · congr 1; rw [decide_eq_decide, ← not_le, ← not_le, hle]
    · congr 1; rw [decide_eq_decide, ← not_lt, ← not_lt, hlt]
  · intro h
    by_cases h1 : IsInt (x.num * y.den)
    · by_cases h2 : IsInt (x.den * y.num)
      · have h3 : ¬ IsInt (x.num * y.den - x.den * y.num) := fun h3 => h ⟨h1, h2, h3⟩
        rw [ck_ok h1, Res.ok_bind, ck_ok h2, Res.ok_bind, ck_ub h3]
        exact ⟨rfl, rfl, rfl, rfl⟩
      · rw [ck_ok h1, Res.ok_bind, ck_ub h2]
        exact ⟨rfl, rfl, rfl, rfl⟩
    · rw [ck_ub h1]
      exact ⟨rfl, rfl, rfl, rfl⟩

example : lss ⟨1, 3⟩ ⟨1, 2⟩ = .ok true ∧ ge ⟨1, 3⟩ ⟨1, 2⟩ = .ok false := by decide

/-- C52 fails for `<`: comparing 65536 with 1/65536 overflows. -/
theorem C52_less_not : ∃ x y : Frac, x.Valid ∧ y.Valid ∧ lss x y = .ub .overflow := by
  refine ⟨⟨65536, 1⟩, ⟨1, 65536⟩, valid_int (by decide), ⟨by decide, isCoprime_one_left, by decide, by decide⟩, by decide⟩

theorem Frac.eq_rnd (hx : x.Valid) (hy : y.Valid) : Frac.eq x y = decide (Dbl.rnd x.val = Dbl.rnd y.val) := by
  unfold Frac.eq
  rw [toDouble_eq hx, toDouble_eq hy]
  rfl

/-- C52 for `==`: equal rationals always compare equal, and different ones compare different if the products of the
comparison are not too large. Missing: `C52_equal_not`. -/
theorem C52_equal_partial (hx : x.Valid) (hy : y.Valid) :
    (x.val = y.val → Frac.eq x y = true) ∧
    (|x.num| * y.den + |y.num| * x.den < 2 ^ 53 → Frac.eq x y = decide (x.val = y.val)) := by
  rw [eq_rnd hx hy]
  refine ⟨fun h => by rw [h]; simp, fun hb => ?_⟩
  rw [decide_eq_decide]
  refine ⟨fun e => ?_, fun e => by rw [e]⟩
  by_cases hx0 : x.num = 0
  · rw [hx.val_eq_zero.2 hx0, Dbl.rnd_zero] at e
    rw [hx.val_eq_zero.2 hx0, hy.val_eq_zero.2 ((rnd_val_eq_zero hy).1 e.symm)]
  have hy0 : y.num ≠ 0 := fun h => hx0 ((rnd_val_eq_zero hx).1 (by rw [e, hy.val_eq_zero.2 h, Dbl.rnd_zero]))
  have r1 := Dbl.rnd_rel (toDouble_eq.val_ge hx (fun h => hx0 (hx.val_eq_zero.1 h)))
  have r2 := Dbl.rnd_rel (toDouble_eq.val_ge hy (fun h => hy0 (hy.val_eq_zero.1 h)))
  by_contra hne
  have hne' : x.num * y.den - y.num * x.den ≠ 0 := by
    intro h
    apply hne
    unfold val
    rw [div_eq_div_iff hx.den_ne hy.den_ne]
    exact_mod_cast sub_eq_zero.1 h
  have h1 : (1 : ℚ) ≤ |(x.num : ℚ) * y.den - y.num * x.den| := by exact_mod_cast Int.one_le_abs hne'
  have px := hx.den_pos
  have py := hy.den_pos
  have hd : |x.val - y.val| = |(x.num : ℚ) * y.den - y.num * x.den| / (x.den * y.den) := by
    unfold val
    rw [div_sub_div _ _ px.ne' py.ne', abs_div, abs_of_pos (mul_pos px py), mul_comm (x.den : ℚ) (y.num : ℚ)]
  have hs : |x.val| + |y.val| = (|(x.num : ℚ)| * y.den + |(y.num : ℚ)| * x.den) / (x.den * y.den) := by
    unfold val
    rw [abs_div, abs_div, abs_of_pos px, abs_of_pos py]
    field_simp
  have hle : |x.val - y.val| ≤ (|x.val| + |y.val|) / 2 ^ 53 := by
    have : x.val - y.val = (Dbl.rnd y.val - y.val) - (Dbl.rnd x.val - x.val) := by rw [e]; ring
    rw [this, add_div]
    have := abs_sub (Dbl.rnd y.val - y.val) (Dbl.rnd x.val - x.val)
    linarith
  have hbq : |(x.num : ℚ)| * y.den + |(y.num : ℚ)| * x.den < 2 ^ 53 := by exact_mod_cast hb
  rw [hd, hs, div_right_comm, div_le_div_iff_of_pos_right (mul_pos px py), le_div_iff₀ (by norm_num)] at hle
  nlinarith

example : Frac.eq ⟨1, 3⟩ ⟨1, 3⟩ = true ∧ Frac.eq ⟨1, 3⟩ ⟨33333, 100000⟩ = false := by decide +kernel

/-- C52 fails for `==`: it compares the values converted to `double`, and two different fractions convert to the same. -/
theorem C52_equal_not : ∃ x y : Frac, x.Valid ∧ y.Valid ∧ x.val ≠ y.val ∧ Frac.eq x y = true := by
  have hx : (⟨2147483647, 2147483646⟩ : Frac).Valid :=
    ⟨by decide, by rw [Int.isCoprime_iff_gcd_eq_one]; decide +kernel, by decide, by decide⟩
  have hy : (⟨2147483646, 2147483645⟩ : Frac).Valid :=
    ⟨by decide, by rw [Int.isCoprime_iff_gcd_eq_one]; decide +kernel, by decide, by decide⟩
  exact ⟨_, _, hx, hy, by unfold val; norm_num, by decide +kernel⟩

/-! ## Greatest common divisor and least common multiple -/

/-- C53: `gcd` always ends, with the greatest common divisor or with a signed overflow. -/
theorem C53_gcd (hx : x.Valid) (hy : y.Valid) :
    HitsUB (gcd x y) .overflow ∨ ∃ g, Returns (gcd x y) g ∧ g.Valid ∧ IsGcd g.val x.val y.val := by
  obtain ⟨e1, e2⟩ := common hx hy
  obtain ⟨r, h1, h2, -⟩ := gcd_spec hx hy (mul_pos hx.pos hy.pos) e1 e2
  rcases h2 with rfl | ⟨g, rfl, v, q⟩
  · exact .inl ⟨_, fun k hk => h1 k hk⟩
  · right
    refine ⟨g, ⟨_, fun k hk => h1 k hk⟩, v, ?_⟩
    rw [q]
    have := isGcd_div (x.num * y.den) (y.num * x.den) (mul_pos hx.pos hy.pos)
    rwa [← e1, ← e2] at this

/-- C53: over a common denominator `L`, `gcd` does not overflow when the numerators times `L` and `L` squared fit in
`int`; whole numbers never overflow. -/
theorem C53_gcd_fits (hx : x.Valid) (hy : y.Valid) {X Y L : ℤ} (hL : 0 < L) (ex : x.val = X / L) (ey : y.val = Y / L)
    (h1 : |X| * L ≤ INT_MAX) (h2 : |Y| * L ≤ INT_MAX) (h3 : L * L ≤ INT_MAX) :
    ∃ g, Returns (gcd x y) g ∧ g.Valid ∧ g.val = (Int.gcd X Y : ℤ) / L := by
  obtain ⟨r, k1, k2, k3⟩ := gcd_spec hx hy hL ex ey
  obtain ⟨g, rfl, v, q⟩ := k2.resolve_left (k3 h1 h2 h3)
  exact ⟨g, ⟨_, fun k hk => k1 k hk⟩, v, q⟩

example : gcd ⟨1, 2⟩ ⟨-1, 3⟩ 9 = .ok ⟨1, 6⟩ ∧ gcd ⟨0, 1⟩ ⟨0, 1⟩ 9 = .ok ⟨0, 1⟩ := by decide +kernel

example : (0 : ℤ) < 6 ∧ (⟨1, 2⟩ : Frac).val = (3 : ℤ) / (6 : ℤ) ∧ (⟨-1, 3⟩ : Frac).val = (-2 : ℤ) / (6 : ℤ) ∧
    |(3 : ℤ)| * 6 ≤ INT_MAX ∧ |(-2 : ℤ)| * 6 ≤ INT_MAX ∧ (6 : ℤ) * 6 ≤ INT_MAX :=
  ⟨by norm_num, by norm_num [val], by norm_num [val], by decide, by decide, by decide⟩

/-- The specification of C53 means what it says: every other common divisor is smaller, and there is only one. -/
theorem C53_gcd_greatest {g a b : ℚ} (h : IsGcd g a b) :
    (a ≠ 0 ∨ b ≠ 0 → ∀ d, Multiple a d → Multiple b d → d ≤ g) ∧ (a = 0 ∧ b = 0 → g = 0) ∧
    (∀ g', IsGcd g' a b → g' = g) := by
  obtain ⟨h0, ⟨i, hi⟩, ⟨j, hj⟩, hm⟩ := h
  have key : ∀ d, 0 < g → Multiple a d → Multiple b d → d ≤ g := by
    intro d hg ha hb
    obtain ⟨k, hk⟩ := hm d ha hb
    by_contra hc
    have hd : 0 < d := lt_trans hg (not_le.1 hc)
    have hk0 : 0 < k := by
      have : (0 : ℚ) < k := by
        by_contra hn
        have := mul_nonpos_of_nonpos_of_nonneg (not_lt.1 hn) hd.le
        linarith
      exact_mod_cast this
    have : (1 : ℚ) ≤ k := by exact_mod_cast hk0
    nlinarith
  have hzero : a = 0 ∧ b = 0 → g = 0 := by
    rintro ⟨rfl, rfl⟩
    obtain ⟨k, hk⟩ := hm 0 ⟨0, by simp⟩ ⟨0, by simp⟩
    simpa using hk
  have hpos : a ≠ 0 ∨ b ≠ 0 → 0 < g := by
    intro hab
    rcases h0.eq_or_lt with h | h
    · rw [← h] at hi hj; simp only [mul_zero] at hi hj; tauto
    · exact h
  refine ⟨fun hab d ha hb => key d (hpos hab) ha hb, hzero, ?_⟩
  rintro g' ⟨h0', ⟨i', hi'⟩, ⟨j', hj'⟩, hm'⟩
  by_cases hab : a = 0 ∧ b = 0
  · rw [hzero hab]
    obtain ⟨k, hk⟩ := hm' 0 ⟨0, by simp [hab.1]⟩ ⟨0, by simp [hab.2]⟩
    simpa using hk
  · have hab : a ≠ 0 ∨ b ≠ 0 := by tauto
    have hg := hpos hab
    have hle : g' ≤ g := key g' hg ⟨i', hi'⟩ ⟨j', hj'⟩
    obtain ⟨k, hk⟩ := hm' g ⟨i, hi⟩ ⟨j, hj⟩
    have hg' : 0 < g' := by
      rcases h0'.eq_or_lt with h | h
      · rw [← h] at hi' hj'; simp only [mul_zero] at hi' hj'; tauto
      · exact h
    have hk0 : 0 < k := by
      have : (0 : ℚ) < k := by
        by_contra hn
        have := mul_nonpos_of_nonpos_of_nonneg (not_lt.1 hn) hg.le
        linarith
      exact_mod_cast this
    have : (1 : ℚ) ≤ k := by exact_mod_cast hk0
    nlinarith

example : IsGcd (1 / 6) (1 / 2) (1 / 3) := by
  have := isGcd_div 3 2 (L := 6) (by norm_num)
  norm_num at this
  exact this

/-- C53: `lcm` is 0 if one of the numbers is; otherwise it always ends, with the least common multiple or with a signed
overflow. -/
theorem C53_lcm (hx : x.Valid) (hy : y.Valid) :
    (x.val = 0 ∨ y.val = 0 → Returns (lcm x y) ⟨0, 1⟩) ∧
    (x.val ≠ 0 → y.val ≠ 0 →
      HitsUB (lcm x y) .overflow ∨ ∃ l, Returns (lcm x y) l ∧ l.Valid ∧ IsLcm l.val x.val y.val) := by
  refine ⟨fun h => ⟨0, fun k _ => lcm_zero hx hy h k⟩, fun hx0 hy0 => ?_⟩
  obtain ⟨e1, e2⟩ := common hx hy
  have hX : x.num * y.den ≠ 0 := mul_ne_zero (fun h => hx0 (hx.val_eq_zero.2 h)) hy.pos.ne'
  have hY : y.num * x.den ≠ 0 := mul_ne_zero (fun h => hy0 (hy.val_eq_zero.2 h)) hx.pos.ne'
  obtain ⟨r, h1, h2, -⟩ := lcm_spec hx hy (mul_pos hx.pos hy.pos) hX hY e1 e2
  rcases h2 with rfl | ⟨g, rfl, v, q⟩
  · exact .inl ⟨_, fun k hk => h1 k hk⟩
  · right
    refine ⟨g, ⟨_, fun k hk => h1 k hk⟩, v, ?_⟩
    rw [q]
    have := isLcm_div (X := x.num * y.den) (Y := y.num * x.den) (mul_pos hx.pos hy.pos) hX hY
    rwa [← e1, ← e2] at this

/-- C53: a condition under which `lcm` does not overflow. -/
theorem C53_lcm_fits (hx : x.Valid) (hy : y.Valid) {X Y L : ℤ} (hL : 0 < L) (hX : X ≠ 0) (hY : Y ≠ 0)
    (ex : x.val = X / L) (ey : y.val = Y / L) (h1 : |X| * |Y| * L ≤ INT_MAX) (h2 : L * L * |X| ≤ INT_MAX) :
    ∃ l, Returns (lcm x y) l ∧ l.Valid ∧ l.val = (Int.lcm X Y : ℤ) / L := by
  obtain ⟨r, k1, k2, k3⟩ := lcm_spec hx hy hL hX hY ex ey
  obtain ⟨g, rfl, v, q⟩ := k2.resolve_left (k3 h1 h2)
  exact ⟨g, ⟨_, fun k hk => k1 k hk⟩, v, q⟩

example : lcm ⟨1, 2⟩ ⟨-1, 3⟩ 9 = .ok ⟨1, 1⟩ := by decide +kernel

example : |(3 : ℤ)| * |(-2 : ℤ)| * 6 ≤ INT_MAX ∧ (6 : ℤ) * 6 * |(3 : ℤ)| ≤ INT_MAX := by decide

/-! ## Operations that throw -/

/-- C61 for fractions: a compound assignment, `++` or `--` that throws leaves the fraction as it was. -/
theorem C61_fraction (x : Frac) (m : String) :
    (∀ o rhs, (assignM o rhs x).1 = .throw m → (assignM o rhs x).2 = x) ∧
    ((incM x).1 = .throw m → (incM x).2 = x) ∧ ((decM x).1 = .throw m → (decM x).2 = x) := by
  have key : ∀ o rhs, (assignM o rhs x).1 = .throw m → (assignM o rhs x).2 = x := by
    intro o rhs h
    obtain ⟨h1, h2, h3⟩ := C50_assign o rhs x
    cases hr : o.run x (rhs.getD x) with
    | ok f => rw [h1 f hr] at h; simp at h
    | throw m => rw [h2 m hr]
    | ub u => rw [h3 u hr]
    | fuel => unfold assignM; rw [Meth.get_bind, hr]; rfl
  have e1 : ofInt 1 = .ok ⟨1, 1⟩ := by decide
  have hi : incM x = assignM .add (some ⟨1, 1⟩) x := by unfold incM; rw [e1]; rfl
  have hj : decM x = assignM .sub (some ⟨1, 1⟩) x := by unfold decM; rw [e1]; rfl
  rw [hi, hj]
  exact ⟨key, key _ _, key _ _⟩

example : assignM .div (some ⟨0, 1⟩) ⟨1, 2⟩ = (.throw "Error: Divide by zero.", ⟨1, 2⟩) := by decide

end Pyincpp
