import Verif.Spec.Python
import Verif.Props.IntPow
import Verif.Props.FracExact

/-! # C101: numbers, compared with Python -/

namespace Pyincpp
open BInt

namespace Py

theorem floorDiv_int (x : ℤ) {y : ℤ} (hy : y ≠ 0) : floorDiv x y = x.fdiv y := by
  have pos : ∀ (x : ℤ) {y : ℤ}, 0 < y → ⌊(x : ℚ) / y⌋ = x.fdiv y := by
    intro x y hy
    have hq : (0 : ℚ) < y := by exact_mod_cast hy
    rw [Int.floor_eq_iff, le_div_iff₀ hq, div_lt_iff₀ hq]
    have h := Int.mul_fdiv_add_fmod x y
    have h1 := Int.fmod_nonneg_of_pos x hy
    have h2 := Int.fmod_lt_of_pos x hy
    constructor
    · have : x.fdiv y * y ≤ x := by rw [mul_comm]; omega
      exact_mod_cast this
    · have : x < (x.fdiv y + 1) * y := by rw [add_mul, one_mul, mul_comm]; omega
      exact_mod_cast this
  unfold floorDiv
  rcases lt_or_gt_of_ne hy with h | h
  · have := pos (-x) (show 0 < -y by omega)
    rw [Int.neg_fdiv_neg] at this
    rw [← this]
    congr 1
    push_cast
    rw [neg_div_neg_eq]
  · exact pos x h

theorem mod_int (x : ℤ) {y : ℤ} (hy : y ≠ 0) : mod x y = (x.fmod y : ℤ) := by
  unfold mod
  rw [floorDiv_int x hy, Int.fmod_def]
  push_cast
  ring

/-- `%` of the code against that of Python: the remainder of the absolute values, negated or not. -/
theorem mod_cases (X : ℤ) {m : ℤ} (hm : m ≠ 0) (flag : Prop) [Decidable flag] :
    (if X < 0 ∧ flag then -(|X| % |m|) else |X| % |m|) = X.fmod m ↔
      m ∣ X ∨ (0 ≤ X ∧ 0 < m) ∨ (X < 0 ∧ m < 0 ∧ flag) ∨ (X < 0 ∧ 0 < m ∧ ¬ flag ∧ 2 * (|X| % |m|) = |m|) := by
  have hM : 0 < |m| := abs_pos.2 hm
  have h0 := Int.emod_nonneg |X| hM.ne'
  have h1 := Int.emod_lt_of_pos |X| hM
  have hd : m ∣ X ↔ |X| % |m| = 0 := by rw [← abs_dvd, ← dvd_abs, Int.dvd_iff_emod_eq_zero]
  rw [hd]
  have hf : X.fmod m = if |X| % |m| = 0 then 0 else
      (if 0 < m then (if 0 ≤ X then |X| % |m| else |m| - |X| % |m|) else (if 0 ≤ X then |X| % |m| - |m| else -(|X| % |m|))) := by
    have e1 : X % m = X % |m| := (Int.emod_abs X m).symm
    have e2 : X % |m| = if 0 ≤ X then |X| % |m| else if |X| % |m| = 0 then 0 else |m| - |X| % |m| := by
      split
      · next h => rw [abs_of_nonneg h]
      · next h =>
        have : X = -|X| := by rw [abs_of_neg (by omega)]; ring
        conv_lhs => rw [this]
        rw [Int.neg_emod, Int.natCast_natAbs, abs_abs]
        simp only [Int.dvd_iff_emod_eq_zero]
    rw [Int.fmod_eq_emod, e1, e2]
    simp only [hd]
    have hm' : |m| = if 0 < m then m else -m := by split; exacts [abs_of_pos ‹_›, abs_of_neg (by omega)]
    generalize |X| % |m| = r at *
    generalize |m| = M at *
    clear e1 e2 hd
    split_ifs at * <;> omega
  rw [hf]
  have hm' : |m| = if 0 < m then m else -m := by split; exacts [abs_of_pos ‹_›, abs_of_neg (by omega)]
  clear hf hd
  generalize |X| % |m| = r at *
  generalize |m| = M at *
  by_cases hfl : flag
  · simp only [hfl, and_true, not_true, false_and, and_false, or_false]
    split_ifs at * <;> omega
  · simp only [hfl, and_false, if_false, not_false_iff, true_and, false_or]
    split_ifs at * <;> omega

theorem Digits.plain {ds : List UInt8} {n : ℕ} (h : Digits ds n) :
    ds ≠ [] ∧ (∀ c ∈ ds, IsDigit c ∨ c = 95) ∧ (95 ∉ ds → n = denoteNat ds) := by
  induction h with
  | one c hc => exact ⟨by simp, by simpa using .inl hc, fun _ => by simp [denoteNat]⟩
  | next ds n c _ hc ih =>
    refine ⟨by simp, ?_, fun h => ?_⟩
    · simp only [List.mem_append, List.mem_singleton]
      rintro d (hd | rfl)
      · exact ih.2.1 d hd
      · exact .inl hc
    · rw [ih.2.2 (fun h' => h (List.mem_append_left _ h'))]
      simp [denoteNat]
  | under ds n c _ hc ih =>
    refine ⟨by simp, ?_, fun h => absurd (by simp) h⟩
    simp only [List.mem_append, List.mem_cons, List.not_mem_nil, or_false]
    rintro d (hd | rfl | rfl)
    · exact ih.2.1 d hd
    · exact .inr rfl
    · exact .inl hc

theorem digits_of_plain {ds : List UInt8} (h0 : ds ≠ []) (h : ∀ c ∈ ds, IsDigit c) : Digits ds (denoteNat ds) := by
  induction ds using List.reverseRecOn with
  | nil => exact absurd rfl h0
  | append_singleton l c ih =>
    have hc : IsDigit c := h c (by simp)
    by_cases hl : l = []
    · subst hl; simpa [denoteNat] using Digits.one c hc
    · have := Digits.next l _ c (ih hl fun d hd => h d (by simp [hd])) hc
      simpa [denoteNat] using this

end Py

/-- C101: the quotient of `Int` is that of Python (`//`) exactly if the division leaves no remainder or the operands have the same sign. -/
theorem C101_floor_div (x y q : ℤ) (hy : y ≠ 0) (h : Returns (fun k => BInt.div .lenient k (enc x) (enc y)) (enc q)) :
    q = Py.floorDiv x y ↔ y ∣ x ∨ (0 ≤ x ∧ 0 < y) ∨ (x < 0 ∧ y < 0) := by
  rw [← enc_injective ((C07_div x y hy).unique h), Py.floorDiv_int x hy, Int.tdiv_eq_fdiv]
  by_cases hd : y ∣ x
  · simp [hd]
  · simp only [hd, false_or, add_eq_left, if_false]
    have hx : x ≠ 0 := by rintro rfl; exact hd (dvd_zero _)
    rcases lt_or_gt_of_ne hy with h1 | h1
    · rw [Int.sign_eq_neg_one_of_neg h1]
      rcases lt_or_gt_of_ne hx with h2 | h2
      · split_ifs <;> omega
      · split_ifs <;> omega
    · rw [Int.sign_eq_one_of_pos h1]
      rcases lt_or_gt_of_ne hx with h2 | h2
      · split_ifs <;> omega
      · split_ifs <;> omega

/-- `-7 / 2` is -3, in Python `-7 // 2` is -4. -/
theorem C101_floor_div_not : Returns (fun k => BInt.div .lenient k (enc (-7)) (enc 2)) (enc (-3)) ∧ Py.floorDiv (-7 : ℤ) (2 : ℤ) = -4 :=
  ⟨C07_div (-7) 2 (by norm_num), by rw [Py.floorDiv_int _ (by norm_num)]; rfl⟩

/-- C101: the remainder of `Int` is that of Python exactly if it is zero; or the dividend is not negative and the divisor is positive;
or both are negative and the dividend has fewer digits; or only the dividend is negative, it does not have fewer digits, and the
remainder is half the divisor. -/
theorem C101_mod (x y r : ℤ) (hy : y ≠ 0) (h : Returns (fun k => BInt.mod .lenient k (enc x) (enc y)) (enc r)) :
    (r : ℚ) = Py.mod x y ↔ y ∣ x ∨ (0 ≤ x ∧ 0 < y) ∨
      (x < 0 ∧ y < 0 ∧ (Nat.digits 10 x.natAbs).length < (Nat.digits 10 y.natAbs).length) ∨
      (x < 0 ∧ 0 < y ∧ ¬ (Nat.digits 10 x.natAbs).length < (Nat.digits 10 y.natAbs).length ∧ 2 * (|x| % |y|) = |y|) := by
  rw [← enc_injective ((C08_mod_exact x y hy).unique h), Py.mod_int x hy, Int.cast_inj, ← Py.mod_cases x hy]
  have e : ∀ z, (enc z).chunks.length = (Nat.digits 10 z.natAbs).length := fun z => by simp [enc]
  have hl : (enc x).chunks.length < (enc y).chunks.length → |x| % |y| = |x| := fun h => Int.emod_eq_of_lt (abs_nonneg x) (enc_len_lt h)
  simp only [e] at hl ⊢
  split
  · next h =>
    rw [hl h]
    by_cases hx : x < 0
    · simp [hx, h, abs_of_neg hx]
    · simp [hx, abs_of_nonneg (not_lt.1 hx)]
  · next h => simp [h]

/-- `-7 % 5` is 2, in Python 3; `7 % -5` is 2, in Python -3; but `-7 % 14` is -7, in Python 7. -/
theorem C101_mod_not :
    (Returns (fun k => BInt.mod .lenient k (enc (-7)) (enc 5)) (enc 2) ∧ Py.mod (-7 : ℤ) (5 : ℤ) = 3) ∧
    (Returns (fun k => BInt.mod .lenient k (enc 7) (enc (-5))) (enc 2) ∧ Py.mod (7 : ℤ) (-5 : ℤ) = -3) ∧
    (Returns (fun k => BInt.mod .lenient k (enc (-7)) (enc 14)) (enc (-7)) ∧ Py.mod (-7 : ℤ) (14 : ℤ) = 7) := by
  refine ⟨⟨?_, ?_⟩, ⟨?_, ?_⟩, ?_, ?_⟩
  · have := C08_mod_exact (-7) 5 (by norm_num); simpa [enc] using this
  · rw [Py.mod_int _ (by norm_num)]; rfl
  · have := C08_mod_exact 7 (-5) (by norm_num); simpa [enc] using this
  · have := Py.mod_int 7 (y := -5) (by norm_num); rw [this]; rfl
  · have := C08_mod_exact (-7) 14 (by norm_num); simpa [enc] using this
  · rw [Py.mod_int _ (by norm_num)]; rfl

/-- C101: `pow(b, e, m)` with a natural exponent and a modulus other than zero against that of Python, every case. -/
theorem C101_pow_mod (b m r : ℤ) (e : ℕ) (hm : m ≠ 0) (h : Returns (fun k => BInt.pow .lenient k (enc b) (enc e) (enc m)) (enc r)) :
    (r : ℚ) = Py.mod (b ^ e : ℤ) m ↔
      if |b| = 1 ∨ e = 0 then (b ^ e = 1 → 2 ≤ m) ∧ (b ^ e = -1 → m ≤ -2)
      else m ∣ b ^ e ∨ (0 ≤ b ^ e ∧ 0 < m) ∨
        (b ^ e < 0 ∧ m < 0 ∧ (powFactors b.natAbs m.natAbs e).prod < leastSameDigits m) ∨
        (b ^ e < 0 ∧ 0 < m ∧ ¬ (powFactors b.natAbs m.natAbs e).prod < leastSameDigits m ∧ 2 * (|b ^ e| % |m|) = |m|) := by
  rw [← enc_injective ((C18_exact b m e hm).unique h), Py.mod_int _ hm, Int.cast_inj]
  unfold powValue
  split
  · next hb =>
    have hv : b ^ e = 1 ∨ b ^ e = -1 := by
      rcases hb with hb | hb
      · rcases (abs_eq (by norm_num : (0:ℤ) ≤ 1)).1 hb with rfl | rfl
        · left; simp
        · exact neg_one_pow_eq_or ℤ e
      · left; rw [hb, pow_zero]
    rcases hv with hv | hv <;> rw [hv] <;> norm_num
    · have h1 := Int.mul_fdiv_add_fmod 1 m
      have hc := Py.mod_cases 1 hm True
      simp only [and_true, show ¬ ((1:ℤ) < 0) by norm_num, if_false, abs_one, false_and, or_false] at hc
      constructor
      · intro h
        by_contra hn
        rcases lt_or_gt_of_ne hm with h2 | h2
        · have := Int.fmod_nonneg_of_pos (-1) (show 0 < -m by omega); have h3 := Int.neg_fmod_neg (-1) (-m); rw [neg_neg, neg_neg] at h3; omega
        · have := Int.fmod_lt_of_pos 1 h2; omega
      · intro h
        rw [Int.fmod_eq_emod_of_nonneg _ (by omega), Int.emod_eq_of_lt (by norm_num) (by omega)]
    · constructor
      · intro h
        by_contra hn
        rcases lt_or_gt_of_ne hm with h2 | h2
        · have := Int.fmod_lt_of_pos 1 (show 0 < -m by omega); have h3 := Int.neg_fmod_neg 1 (-m); rw [neg_neg] at h3; omega
        · have := Int.fmod_nonneg_of_pos (-1) h2; omega
      · intro h
        have := Int.neg_fmod_neg 1 (-m)
        rw [neg_neg] at this
        rw [this, Int.fmod_eq_emod_of_nonneg _ (by omega), Int.emod_eq_of_lt (by norm_num) (by omega)]
  · next hb =>
    rw [← Py.mod_cases _ hm]
    have hs : (b < 0 ∧ e % 2 = 1) ↔ b ^ e < 0 := by
      rw [← Nat.odd_iff]
      constructor
      · exact fun h => h.2.pow_neg_iff.2 h.1
      · intro h
        rcases Nat.even_or_odd e with h' | h'
        · exact absurd (h'.pow_nonneg b) (not_le.2 h)
        · exact ⟨h'.pow_neg_iff.1 h, h'⟩
    rw [abs_pow]
    simp only [← and_assoc, hs]

/-- C101: `sqrt` of a natural number gives what `math.isqrt` gives, unless it runs for ever. -/
theorem C101_isqrt (n : ℕ) :
    (Returns (fun k => BInt.sqrt .lenient k (enc n)) (enc n.sqrt) ↔ ¬ (4 ≤ n ∧ ∃ m, n + 1 = m * m)) ∧
    (Diverges (fun k => BInt.sqrt .lenient k (enc n)) ↔ (4 ≤ n ∧ ∃ m, n + 1 = m * m)) := by
  have hD := (C16_sqrt_exact n).1
  have hR : ¬ (4 ≤ n ∧ ∃ m, n + 1 = m * m) → Returns (fun k => BInt.sqrt .lenient k (enc n)) (enc n.sqrt) := by
    intro h
    obtain ⟨r, h1, h2, h3⟩ := (C16_sqrt_exact n).2 h
    rwa [Nat.eq_sqrt.2 ⟨h1, h2⟩] at h3
  have hno : ∀ {v : BInt}, Returns (fun k => BInt.sqrt .lenient k (enc n)) v → ¬ Diverges (fun k => BInt.sqrt .lenient k (enc n)) := by
    rintro v ⟨N, h⟩ ⟨M, h'⟩
    have h1 := h (max N M) (le_max_left _ _)
    rw [h' _ (le_max_right _ _)] at h1
    cases h1
  exact ⟨⟨fun h hp => hno h (hD hp), hR⟩, ⟨fun h => by by_contra hp; exact hno (hR hp) h, hD⟩⟩

/-- C101: `Int(t)` accepts a text exactly if `int(t)` does and it has neither underscores nor white space; and then the values agree. -/
theorem C101_literal (t : List UInt8) :
    ((∃ z, BInt.ofChars t = .ok (enc z)) ↔ (∃ z, Py.IntText t z) ∧ ∀ c ∈ t, c ≠ 95 ∧ ¬ Py.IsSpace c) ∧
    ∀ z, BInt.ofChars t = .ok (enc z) → Py.IntText t z := by
  have hsp : ∀ c, IsDigit c → c ≠ 95 ∧ ¬ Py.IsSpace c := by
    intro c hc
    unfold IsDigit at hc
    unfold Py.IsSpace
    refine ⟨?_, by omega⟩
    rintro rfl
    exact absurd hc.2 (by decide)
  have h1 : ∀ z, Literal t z → Py.IntText t z ∧ ∀ c ∈ t, c ≠ 95 ∧ ¬ Py.IsSpace c := by
    intro z h
    cases h with
    | plain ds h0 hd =>
      refine ⟨?_, fun c hc => hsp c (hd c hc)⟩
      simpa using Py.IntText.plain [] t [] _ (by simp) (by simp) (Py.digits_of_plain h0 hd)
    | plus ds h0 hd =>
      refine ⟨?_, ?_⟩
      · simpa using Py.IntText.plus [] ds [] _ (by simp) (by simp) (Py.digits_of_plain h0 hd)
      · simp only [List.mem_cons]
        rintro c (rfl | hc)
        · exact ⟨by decide, by unfold Py.IsSpace; decide⟩
        · exact hsp c (hd c hc)
    | minus ds h0 hd =>
      refine ⟨?_, ?_⟩
      · simpa using Py.IntText.minus [] ds [] _ (by simp) (by simp) (Py.digits_of_plain h0 hd)
      · simp only [List.mem_cons]
        rintro c (rfl | hc)
        · exact ⟨by decide, by unfold Py.IsSpace; decide⟩
        · exact hsp c (hd c hc)
  have nospace : ∀ ws : List UInt8, (∀ c ∈ ws, Py.IsSpace c) → (∀ c ∈ ws, c ≠ 95 ∧ ¬ Py.IsSpace c) → ws = [] := by
    intro ws h h'
    cases ws with
    | nil => rfl
    | cons c l => exact absurd (h c (by simp)) (h' c (by simp)).2
  have dig : ∀ ds n, Py.Digits ds n → (∀ c ∈ ds, c ≠ 95 ∧ ¬ Py.IsSpace c) → ds ≠ [] ∧ (∀ c ∈ ds, IsDigit c) ∧ n = denoteNat ds := by
    intro ds n h h'
    obtain ⟨a, b, c⟩ := h.plain
    exact ⟨a, fun d hd => (b d hd).resolve_right (h' d hd).1, c fun hc => (h' 95 hc).1 rfl⟩
  have h2 : ∀ z, Py.IntText t z → (∀ c ∈ t, c ≠ 95 ∧ ¬ Py.IsSpace c) → Literal t z := by
    intro z h hc
    cases h with
    | plain ws ds ws' n g1 g2 g3 =>
      obtain rfl := nospace ws g1 fun c hc' => hc c (by simp [hc'])
      obtain rfl := nospace ws' g2 fun c hc' => hc c (by simp [hc'])
      obtain ⟨a, b, rfl⟩ := dig ds n g3 fun c hc' => hc c (by simp [hc'])
      simpa using Literal.plain ds a b
    | plus ws ds ws' n g1 g2 g3 =>
      obtain rfl := nospace ws g1 fun c hc' => hc c (by simp [hc'])
      obtain rfl := nospace ws' g2 fun c hc' => hc c (by simp [hc'])
      obtain ⟨a, b, rfl⟩ := dig ds n g3 fun c hc' => hc c (by simp [hc'])
      simpa using Literal.plus ds a b
    | minus ws ds ws' n g1 g2 g3 =>
      obtain rfl := nospace ws g1 fun c hc' => hc c (by simp [hc'])
      obtain rfl := nospace ws' g2 fun c hc' => hc c (by simp [hc'])
      obtain ⟨a, b, rfl⟩ := dig ds n g3 fun c hc' => hc c (by simp [hc'])
      simpa using Literal.minus ds a b
  have h3 : ∀ z, BInt.ofChars t = .ok (enc z) → Literal t z := by
    intro z h
    by_contra hn
    by_cases he : ∃ w, Literal t w
    · obtain ⟨w, hw⟩ := he
      rw [C01_parse_literal t w hw] at h
      exact hn (enc_injective (Res.ok.inj h) ▸ hw)
    · rw [C01_parse_rejects t he] at h; cases h
  exact ⟨⟨fun ⟨z, h⟩ => ⟨⟨z, (h1 z (h3 z h)).1⟩, (h1 z (h3 z h)).2⟩, fun ⟨⟨z, h⟩, hc⟩ => ⟨z, C01_parse_literal t z (h2 z h hc)⟩⟩,
    fun z h => (h1 z (h3 z h)).1⟩

/-- `" 1_0"` is 10 in Python; `Int` throws. -/
theorem C101_literal_not : BInt.ofChars [32, 49, 95, 48] = .throw "Error: Wrong integer literal." ∧ Py.IntText [32, 49, 95, 48] 10 := by
  have hd : ∀ c : UInt8, c = 48 ∨ c = 49 → IsDigit c := by rintro c (rfl | rfl) <;> exact ⟨by decide, by decide⟩
  have ht : Py.IntText [32, 49, 95, 48] 10 :=
    Py.IntText.plain [32] [49, 95, 48] [] 10 (by simp [Py.IsSpace]) (by simp) (Py.Digits.under [49] 1 48 (Py.Digits.one 49 (hd _ (.inr rfl))) (hd _ (.inl rfl)))
  refine ⟨C01_parse_rejects _ ?_, ht⟩
  rintro ⟨z, h⟩
  have := ((C101_literal [32, 49, 95, 48]).1.1 ⟨z, C01_parse_literal _ z h⟩).2 95 (by simp)
  exact this.1 rfl

namespace Frac

/-- C101: the remainder of two fractions, if no `int` overflows, is that of Python exactly if it is zero or the operands have the same sign. -/
theorem C101_fraction_mod {x y f : Frac} (hx : x.Valid) (hy : y.Valid) (h0 : y.val ≠ 0) (h : mod x y = .ok f) :
    f.val = Py.mod x.val y.val ↔ (∃ n : ℤ, x.val = n * y.val) ∨ 0 ≤ x.val / y.val := by
  have hv : f.val = x.val - y.val * truncQ (x.val / y.val) := by
    obtain ⟨h1, h2⟩ := C51_mod hx hy h0
    by_cases hf : IsInt (x.num * y.den) ∧ IsInt (y.num * x.den) ∧ ¬ (x.num * y.den = INT_MIN ∧ y.num * x.den = -1) ∧ x.den * y.den ≤ INT_MAX
    · obtain ⟨g, hg, _, hv⟩ := h1 hf
      rw [h] at hg; cases hg; exact hv
    · rw [h2 hf] at h; cases h
  rw [hv]
  unfold Py.mod Py.floorDiv truncQ
  have hi : (∃ n : ℤ, x.val = n * y.val) ↔ ∃ n : ℤ, (n : ℚ) = x.val / y.val := by
    simp only [eq_div_iff h0, eq_comm]
  rw [hi]
  generalize x.val / y.val = q
  rw [mul_comm, sub_right_inj, mul_left_inj' h0, Int.cast_inj]
  split
  · next h => simp [h]
  · next h =>
    simp only [h, or_false]
    constructor
    · intro he
      exact ⟨⌊q⌋, le_antisymm (Int.floor_le q) (he ▸ Int.le_ceil q)⟩
    · rintro ⟨n, rfl⟩; simp

end Frac

example : ∃ q, Returns (fun k => BInt.div .lenient k (enc 7) (enc 2)) (enc q) := ⟨_, C07_div 7 2 (by norm_num)⟩
example : ∃ r, Returns (fun k => BInt.pow .lenient k (enc (-3)) (enc (5 : ℕ)) (enc 7)) (enc r) := ⟨_, C18_exact (-3) 7 5 (by norm_num)⟩
/-- The two remainders are equal although only the dividend is negative: `-15 % 10` is 5. -/
example : Py.mod (-15 : ℤ) (10 : ℤ) = 5 := by rw [Py.mod_int _ (by norm_num)]; rfl
example : ∃ x y f : Frac, x.Valid ∧ y.Valid ∧ y.val ≠ 0 ∧ Frac.mod x y = .ok f ∧ f.val ≠ 0 := by
  have hx : Frac.Valid ⟨1, 2⟩ := by constructor <;> decide
  have hy : Frac.Valid ⟨1, 1⟩ := by constructor <;> decide
  obtain ⟨f, h, _, hv⟩ := (C51_mod hx hy (by norm_num [Frac.val])).1 (by decide)
  refine ⟨_, _, f, hx, hy, by norm_num [Frac.val], h, ?_⟩
  rw [hv]; norm_num [Frac.val, Frac.truncQ]

end Pyincpp
