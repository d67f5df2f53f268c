import Verif.Model.DoubleText
import Verif.Spec.DoubleText
import Verif.Proof.Decimal
import Verif.Proof.ComplexStream
import Verif.Proof.FractionStream

/-! # The text of a `double` denotes a nearest decimal of six digits -/

namespace Pyincpp
namespace Dbl

/-- The value of the significant digits. -/
def round6 (q : ℚ) : ℚ := (significant q).1 * 10 ^ ((significant q).2 - 5)

theorem significant_spec {q : ℚ} (hq : 0 < q) :
    100000 ≤ (significant q).1 ∧ (significant q).1 < 1000000 ∧
      round6 q = roundEven (q / (10 : ℚ) ^ (Int.log 10 q - 5)) * 10 ^ (Int.log 10 q - 5) := by
  set e := Int.log 10 q with he
  have h1 : (10 : ℚ) ^ e ≤ q := by
    have := Int.zpow_log_le_self (b := 10) (by norm_num) hq
    exact_mod_cast this
  have h2 : q < (10 : ℚ) ^ (e + 1) := by
    have := Int.lt_zpow_succ_log_self (b := 10) (by norm_num) q
    exact_mod_cast this
  have hS : (0 : ℚ) < 10 ^ (e - 5) := zpow_pos (by norm_num) _
  have e1 : (10 : ℚ) ^ e = 100000 * 10 ^ (e - 5) := by
    rw [zpow_sub₀ (by norm_num)]; norm_num; ring
  have e2 : (10 : ℚ) ^ (e + 1) = 1000000 * 10 ^ (e - 5) := by
    rw [zpow_add_one₀ (by norm_num), e1]; ring
  set r := roundEven (q / (10 : ℚ) ^ (e - 5)) with hr
  have hlo : (100000 : ℤ) ≤ r := le_roundEven (by push_cast; rw [le_div_iff₀ hS, ← e1]; exact h1)
  have hhi : r ≤ (1000000 : ℤ) := roundEven_le (by push_cast; rw [div_le_iff₀ hS, ← e2]; exact h2.le)
  have hs : significant q = if r.toNat = 1000000 then (100000, e + 1) else (r.toNat, e) := rfl
  unfold round6
  rw [hs]
  split
  · next h =>
    refine ⟨by norm_num, by norm_num, ?_⟩
    have : r = 1000000 := by omega
    rw [this]
    push_cast
    rw [show e + 1 - 5 = (e - 5) + 1 by ring, zpow_add_one₀ (by norm_num)]
    ring
  · next h =>
    refine ⟨by simp only; omega, by simp only; omega, ?_⟩
    have : ((r.toNat : ℕ) : ℚ) = r := by
      have : ((r.toNat : ℕ) : ℤ) = r := by omega
      exact_mod_cast this
    simp only [this]

theorem round6_sig {q : ℚ} (hq : 0 < q) : Sig6 (round6 q) := by
  obtain ⟨-, h, -⟩ := significant_spec hq
  exact ⟨(significant q).1, (significant q).2 - 5, by rw [abs_of_nonneg (by positivity)]; exact_mod_cast h, by unfold round6; push_cast; rfl⟩

theorem round6_nearest {q : ℚ} (hq : 0 < q) : Nearest6 q (round6 q) := by
  refine ⟨round6_sig hq, ?_⟩
  obtain ⟨-, -, h⟩ := significant_spec hq
  rw [h]
  set e := Int.log 10 q with he
  have h1 : (10 : ℚ) ^ e ≤ q := by
    have := Int.zpow_log_le_self (b := 10) (by norm_num) hq
    exact_mod_cast this
  have hS : (0 : ℚ) < 10 ^ (e - 5) := zpow_pos (by norm_num) _
  have e1 : (10 : ℚ) ^ e = 100000 * 10 ^ (e - 5) := by
    rw [zpow_sub₀ (by norm_num)]; norm_num; ring
  have key : ∀ k : ℤ, |(roundEven (q / 10 ^ (e - 5)) : ℚ) * 10 ^ (e - 5) - q| ≤ |(k : ℚ) * 10 ^ (e - 5) - q| := by
    intro k
    have := roundEven_nearest (q / 10 ^ (e - 5)) k
    have f : ∀ x : ℚ, |x * 10 ^ (e - 5) - q| = |x - q / 10 ^ (e - 5)| * 10 ^ (e - 5) := by
      intro x
      rw [← abs_of_pos hS, ← abs_mul, abs_of_pos hS, sub_mul, div_mul_cancel₀ _ hS.ne']
    rw [f, f]
    exact mul_le_mul_of_nonneg_right this hS.le
  rintro p ⟨m, k, hm, rfl⟩
  by_cases hk : e - 5 ≤ k
  · have : (m : ℚ) * 10 ^ k = ((m * 10 ^ (k - (e - 5)).toNat : ℤ) : ℚ) * 10 ^ (e - 5) := by
      push_cast
      rw [← zpow_natCast, mul_assoc, ← zpow_add₀ (by norm_num), show ((k - (e - 5)).toNat : ℤ) + (e - 5) = k by omega]
    rw [this]
    exact key _
  · have hp : (m : ℚ) * 10 ^ k ≤ 10 ^ e := by
      have a1 : (m : ℚ) ≤ 1000000 := by
        have := (abs_lt.1 hm).2
        exact_mod_cast this.le
      calc (m : ℚ) * 10 ^ k ≤ 1000000 * 10 ^ k := mul_le_mul_of_nonneg_right a1 (zpow_pos (by norm_num) _).le
        _ = 10 ^ (k + 6) := by rw [zpow_add₀ (by norm_num)]; norm_num; ring
        _ ≤ 10 ^ e := zpow_le_zpow_right₀ (by norm_num) (by omega)
    have := key 100000
    push_cast at this
    rw [← e1] at this
    refine this.trans ?_
    rw [abs_of_nonpos (by linarith), abs_of_nonpos (by linarith)]
    linarith

/-- The error is at most half a unit of the sixth digit. -/
theorem round6_err {q : ℚ} (hq : 0 < q) : |round6 q - q| ≤ q / 200000 := by
  obtain ⟨-, -, h⟩ := significant_spec hq
  rw [h]
  set e := Int.log 10 q with he
  have h1 : (10 : ℚ) ^ e ≤ q := by
    have := Int.zpow_log_le_self (b := 10) (by norm_num) hq
    exact_mod_cast this
  have hS : (0 : ℚ) < 10 ^ (e - 5) := zpow_pos (by norm_num) _
  have e1 : (10 : ℚ) ^ e = 100000 * 10 ^ (e - 5) := by
    rw [zpow_sub₀ (by norm_num)]; norm_num; ring
  have := roundEven_err (q / 10 ^ (e - 5))
  have f : |(roundEven (q / 10 ^ (e - 5)) : ℚ) * 10 ^ (e - 5) - q| =
      |(roundEven (q / 10 ^ (e - 5)) : ℚ) - q / 10 ^ (e - 5)| * 10 ^ (e - 5) := by
    rw [← abs_of_pos hS, ← abs_mul, abs_of_pos hS, sub_mul, div_mul_cancel₀ _ hS.ne']
  rw [f]
  have := mul_le_mul_of_nonneg_right this hS.le
  linarith

/-! ## The text -/

theorem sixDigits_digit (m : ℕ) : ∀ c ∈ sixDigits m, IsDigit c := by
  intro c hc
  unfold sixDigits at hc
  rw [List.mem_map] at hc
  obtain ⟨p, -, rfl⟩ := hc
  unfold IsDigit
  have : m / p % 10 < 10 := Nat.mod_lt _ (by norm_num)
  rw [Nat.toUInt8, UInt8.toNat_ofNat']
  omega

theorem sixDigits_length (m : ℕ) : (sixDigits m).length = 6 := rfl

theorem sixDigits_value {m : ℕ} (h : m < 1000000) : denoteNat (sixDigits m) = m := by
  have f : ∀ p, ((48 + m / p % 10).toUInt8).toNat - 48 = m / p % 10 := by
    intro p
    have : m / p % 10 < 10 := Nat.mod_lt _ (by norm_num)
    rw [Nat.toUInt8, UInt8.toNat_ofNat']
    omega
  unfold denoteNat sixDigits
  simp only [List.map_cons, List.map_nil, List.foldl_cons, List.foldl_nil, f]
  omega

theorem stripZeros_eq (l : List UInt8) : ∃ n, l = stripZeros l ++ List.replicate n 48 := by
  unfold stripZeros
  have h := List.takeWhile_append_dropWhile (p := fun c : UInt8 => c == 48) (l := l.reverse)
  refine ⟨(l.reverse.takeWhile (· == 48)).length, ?_⟩
  have e : l.reverse.takeWhile (· == 48) = List.replicate (l.reverse.takeWhile (· == 48)).length 48 :=
    List.eq_replicate_iff.2 ⟨rfl, fun c hc => by simpa using List.mem_takeWhile_imp hc⟩
  have h' := congrArg List.reverse h
  rw [List.reverse_append, List.reverse_reverse, e, List.reverse_replicate] at h'
  exact h'.symm

theorem denote_zeros (n : ℕ) : denoteNat (List.replicate n 48) = 0 := by
  induction n with
  | zero => rfl
  | succ n ih =>
    rw [List.replicate_succ', Cx.denote_append, ih]; rfl

/-- Zeros at the end of a fraction do not change its value. -/
theorem stripZeros_value (l : List UInt8) :
    (denoteNat (stripZeros l) : ℚ) / 10 ^ (stripZeros l).length = denoteNat l / 10 ^ l.length := by
  obtain ⟨n, h⟩ := stripZeros_eq l
  conv_rhs => rw [h]
  rw [Cx.denote_append, denote_zeros, List.length_append, List.length_replicate, add_zero, pow_add]
  push_cast
  rw [mul_div_mul_right _ _ (by positivity)]

theorem stripZeros_digit {l : List UInt8} (h : ∀ c ∈ l, IsDigit c) : ∀ c ∈ stripZeros l, IsDigit c := by
  obtain ⟨n, e⟩ := stripZeros_eq l
  intro c hc
  exact h c (by rw [e]; simp [hc])

/-- Digits with a fraction denote what they should. -/
theorem withPoint_mantissa {ip l : List UInt8} (h0 : ip ≠ []) (h1 : ∀ c ∈ ip, IsDigit c) (h2 : ∀ c ∈ l, IsDigit c) :
    CxMantissa (withPoint ip (stripZeros l)) (denoteNat (ip ++ l) / 10 ^ l.length) := by
  have hv : (denoteNat (ip ++ l) : ℚ) / 10 ^ l.length =
      denoteNat ip + denoteNat (stripZeros l) / 10 ^ (stripZeros l).length := by
    rw [stripZeros_value, Cx.denote_append]
    push_cast
    rw [add_div, mul_div_cancel_right₀ _ (by positivity)]
  rw [hv]
  unfold withPoint
  split
  · next h =>
    rw [h]
    simp only [List.append_nil, List.length_nil, pow_zero]
    have : (denoteNat ip : ℚ) + denoteNat [] / 1 = denoteNat ip := by simp [denoteNat]
    rw [this]
    exact .int ip h0 h1
  · exact .frac ip _ (.inl h0) h1 (stripZeros_digit h2)

theorem expText_literal (e : ℤ) : Literal (expText e) e := by
  unfold expText
  rw [Frac.toDigits_numeral]
  have hd : ∀ c ∈ (if e.natAbs < 10 then [48] else []) ++ natNumeral e.natAbs, IsDigit c := by
    intro c hc
    rw [List.mem_append] at hc
    rcases hc with hc | hc
    · split at hc
      · rw [List.mem_singleton] at hc; subst hc; decide
      · exact absurd hc (List.not_mem_nil)
    · exact natNumeral_digits _ c hc
  have hn : (if e.natAbs < 10 then [(48 : UInt8)] else []) ++ natNumeral e.natAbs ≠ [] := by
    intro h
    exact natNumeral_ne_nil _ (List.append_eq_nil_iff.1 h).2
  have hv : denoteNat ((if e.natAbs < 10 then [48] else []) ++ natNumeral e.natAbs) = e.natAbs := by
    rw [Cx.denote_append, denote_natNumeral]
    split <;> simp [denoteNat]
  split
  · have := Literal.minus _ hn hd
    rw [hv] at this
    rwa [show -((e.natAbs : ℕ) : ℤ) = e by omega] at this
  · have := Literal.plus _ hn hd
    rw [hv] at this
    rwa [show ((e.natAbs : ℕ) : ℤ) = e by omega] at this

theorem textPos_unsigned {q : ℚ} (hq : 0 < q) : CxUnsigned (textPos q) (round6 q) := by
  obtain ⟨-, hm, -⟩ := significant_spec hq
  unfold textPos round6
  generalize significant q = p at *
  obtain ⟨m, e⟩ := p
  simp only at hm ⊢
  have hd := sixDigits_digit m
  have hv := sixDigits_value hm
  have hl := sixDigits_length m
  split
  · next he =>
    apply CxUnsigned.plain
    split
    · next h0 =>
      have h := withPoint_mantissa (ip := (sixDigits m).take (e.toNat + 1)) (l := (sixDigits m).drop (e.toNat + 1))
        (by intro h; have := congrArg List.length h; rw [List.length_take, hl] at this; simp at this)
        (fun c hc => hd c (List.mem_of_mem_take hc)) (fun c hc => hd c (List.mem_of_mem_drop hc))
      rw [List.take_append_drop, hv, List.length_drop, hl] at h
      have : (m : ℚ) * 10 ^ (e - 5) = m / 10 ^ (6 - (e.toNat + 1)) := by
        rw [div_eq_mul_inv, ← zpow_natCast, ← zpow_neg]
        congr 2
        omega
      rw [this]
      exact h
    · next h0 =>
      have hd' : ∀ c ∈ List.replicate (-e - 1).toNat 48 ++ sixDigits m, IsDigit c := by
        intro c hc
        rw [List.mem_append] at hc
        rcases hc with hc | hc
        · rw [List.eq_of_mem_replicate hc]; decide
        · exact hd c hc
      have h := withPoint_mantissa (ip := [48]) (l := List.replicate (-e - 1).toNat 48 ++ sixDigits m)
        (by simp) (by intro c hc; rw [List.mem_singleton] at hc; subst hc; decide) hd'
      have e1 : denoteNat ([48] ++ (List.replicate (-e - 1).toNat 48 ++ sixDigits m)) = m := by
        rw [Cx.denote_append, Cx.denote_append, denote_zeros, hv]; simp [denoteNat]
      rw [e1, List.length_append, List.length_replicate, hl] at h
      have : (m : ℚ) * 10 ^ (e - 5) = m / 10 ^ ((-e - 1).toNat + 6) := by
        rw [div_eq_mul_inv, ← zpow_natCast, ← zpow_neg]
        congr 2
        omega
      rw [this]
      exact h
  · have h := withPoint_mantissa (ip := (sixDigits m).take 1) (l := (sixDigits m).drop 1)
      (by intro h; have := congrArg List.length h; rw [List.length_take, hl] at this; simp at this)
      (fun c hc => hd c (List.mem_of_mem_take hc)) (fun c hc => hd c (List.mem_of_mem_drop hc))
    rw [List.take_append_drop, hv, List.length_drop, hl] at h
    have : (m : ℚ) * 10 ^ (e - 5) = m / 10 ^ (6 - 1) * 10 ^ e := by
      rw [zpow_sub₀ (by norm_num)]; norm_num; ring
    rw [this]
    exact .exp _ _ _ _ _ h (.inl rfl) (expText_literal e)

end Dbl
end Pyincpp
