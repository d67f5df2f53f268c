import Verif.Props.IntMore
import Mathlib.Data.Nat.BitIndices

/-! # C18: what `pow(b, e, m)` is for every base

The remainder of a negative number is the number itself if it has fewer digits than the modulus, and positive otherwise (C08). So the
sign of a power depends on whether the intermediate products ever reach the number of digits of the modulus. -/

namespace Pyincpp

/-- The least number with as many digits as `m`. -/
def leastSameDigits (m : ℤ) : ℕ := 10 ^ ((Nat.digits 10 m.natAbs).length - 1)

/-- The factors the square-and-multiply method uses for `a ^ n` modulo `M`: those of the binary digits of `n` that are one. -/
def powFactors (a M n : ℕ) : List ℕ := n.bitIndices.map fun i => if i = 0 then a else a ^ 2 ^ i % M

theorem short_iff (x : ℕ) {m : ℤ} (hm : m ≠ 0) : (Nat.digits 10 x).length < (Nat.digits 10 m.natAbs).length ↔ x < leastSameDigits m := by
  unfold leastSameDigits
  have h : 0 < (Nat.digits 10 m.natAbs).length := List.length_pos_iff.2 (Nat.digits_ne_nil_iff_ne_zero.2 (by simpa using hm))
  rw [← Nat.digits_length_le_iff (by norm_num : 1 < 10) x]
  omega

theorem leastSameDigits_le {m : ℤ} (hm : m ≠ 0) : leastSameDigits m ≤ m.natAbs := by
  by_contra h
  exact absurd ((short_iff _ hm).2 (not_le.1 h)) (lt_irrefl _)

theorem codeMod_nat (x : ℕ) {m : ℤ} : codeMod x m = ((x % m.natAbs : ℕ) : ℤ) := by
  rw [codeMod_of_pos (Int.natCast_nonneg x), Int.natCast_mod, Int.natCast_natAbs, Int.emod_abs]

theorem codeMod_neg (x : ℕ) {m : ℤ} (hm : m ≠ 0) : codeMod (-(x : ℤ)) m = if x < leastSameDigits m then -(x : ℤ) else ((x % m.natAbs : ℕ) : ℤ) := by
  unfold codeMod enc
  simp only [List.length_map, Int.natAbs_neg, Int.natAbs_natCast, short_iff x hm, abs_neg, Nat.abs_cast]
  split
  · rfl
  · rw [Int.natCast_mod, Int.natCast_natAbs]

/-- Non-negative base and result. -/
theorem powCode_nat {m : ℤ} : ∀ (n a r : ℕ), powCode m a r n = ((if n = 0 then r else r * a ^ n % m.natAbs : ℕ) : ℤ) := by
  intro n
  induction n using Nat.strong_induction_on with
  | _ n ih =>
    intro a r
    by_cases hn : n = 0
    · subst hn; rw [powCode_zero, if_pos rfl]
    · rw [powCode_pos _ _ _ hn, if_neg hn]
      have e1 : codeMod ((a : ℤ) * a) m = ((a * a % m.natAbs : ℕ) : ℤ) := by rw [← Nat.cast_mul, codeMod_nat]
      have e2 : codeMod ((r : ℤ) * a) m = ((r * a % m.natAbs : ℕ) : ℤ) := by rw [← Nat.cast_mul, codeMod_nat]
      rw [e1, e2]
      have hp : ∀ q, q = n / 2 → (a * a % m.natAbs) ^ q ≡ a ^ (2 * q) [MOD m.natAbs] := fun q _ => by
        rw [pow_mul, pow_two]; exact (Nat.mod_modEq _ _).pow q
      by_cases ho : n % 2 = 1
      · rw [if_pos ho, ih _ (by omega)]
        congr 1
        by_cases h0 : n / 2 = 0
        · rw [if_pos h0]
          have : n = 1 := by omega
          rw [this, pow_one]
        · rw [if_neg h0]
          have : n = 2 * (n / 2) + 1 := by omega
          conv_rhs => rw [this, pow_succ, mul_comm (a ^ _), ← mul_assoc]
          exact ((Nat.mod_modEq (r * a) _).mul (hp _ rfl))
      · rw [if_neg ho, ih _ (by omega), if_neg (by omega)]
        congr 1
        have : n = 2 * (n / 2) := by omega
        conv_rhs => rw [this]
        exact (Nat.ModEq.refl r).mul (hp _ rfl)

theorem powFactors_odd (a M k : ℕ) : powFactors a M (2 * k + 1) = a :: powFactors (a * a % M) M k := by
  unfold powFactors
  rw [Nat.bitIndices_two_mul_add_one, List.map_cons, List.map_map, if_pos rfl]
  congr 1
  refine List.map_congr_left fun i _ => ?_
  simp only [Function.comp, Nat.add_eq_zero_iff, one_ne_zero, and_false, if_false]
  split
  · next h => subst h; norm_num; ring_nf
  · rw [← Nat.pow_mod, ← pow_two, ← pow_mul]; ring_nf

theorem powFactors_even (a M k : ℕ) : powFactors a M (2 * k) = powFactors (a * a % M) M k := by
  unfold powFactors
  rw [Nat.bitIndices_two_mul, List.map_map]
  refine List.map_congr_left fun i _ => ?_
  simp only [Function.comp, Nat.add_eq_zero_iff, one_ne_zero, and_false, if_false]
  split
  · next h => subst h; norm_num; ring_nf
  · rw [← Nat.pow_mod, ← pow_two, ← pow_mul]; ring_nf

/-- If a factor is zero, so is the power. -/
theorem powFactors_zero {a M n : ℕ} (h : (powFactors a M n).prod = 0) : a ^ n % M = 0 := by
  obtain ⟨i, hi, h⟩ := List.mem_map.1 (List.prod_eq_zero_iff.1 h)
  have hd : M ∣ a ^ 2 ^ i := by
    split at h
    · next h0 => subst h0; subst h; simp
    · exact Nat.dvd_of_mod_eq_zero h
  exact Nat.mod_eq_zero_of_dvd (hd.trans (pow_dvd_pow a (Nat.two_pow_le_of_mem_bitIndices hi)))

/-- Non-negative base, negative result so far. -/
theorem powCode_neg {m : ℤ} (hm : m ≠ 0) : ∀ (n a r : ℕ), r < leastSameDigits m → powCode m a (-(r : ℤ)) n =
    if r * (powFactors a m.natAbs n).prod < leastSameDigits m then -((r * a ^ n % m.natAbs : ℕ) : ℤ) else ((r * a ^ n % m.natAbs : ℕ) : ℤ) := by
  intro n
  induction n using Nat.strong_induction_on with
  | _ n ih =>
    intro a r hr
    have hrM : r < m.natAbs := lt_of_lt_of_le hr (leastSameDigits_le hm)
    by_cases hn : n = 0
    · subst hn
      rw [powCode_zero, if_pos (by simpa [powFactors] using hr), pow_zero, mul_one, Nat.mod_eq_of_lt hrM]
    · rw [powCode_pos _ _ _ hn]
      have e1 : codeMod ((a : ℤ) * a) m = ((a * a % m.natAbs : ℕ) : ℤ) := by rw [← Nat.cast_mul, codeMod_nat]
      rw [e1]
      have hp : (a * a % m.natAbs) ^ (n / 2) ≡ a ^ (2 * (n / 2)) [MOD m.natAbs] := by
        rw [pow_mul, pow_two]; exact (Nat.mod_modEq _ _).pow _
      by_cases ho : n % 2 = 1
      · have hn2 : n = 2 * (n / 2) + 1 := by omega
        have hpow : ∀ x, x ≡ r * a [MOD m.natAbs] → x * (a * a % m.natAbs) ^ (n / 2) % m.natAbs = r * a ^ n % m.natAbs := fun x hx => by
          conv_rhs => rw [hn2, pow_succ, mul_comm (a ^ _), ← mul_assoc]
          exact hx.mul hp
        have hprod : r * (powFactors a m.natAbs n).prod = r * a * (powFactors (a * a % m.natAbs) m.natAbs (n / 2)).prod := by
          conv_lhs => rw [hn2, powFactors_odd, List.prod_cons, ← mul_assoc]
        rw [if_pos ho, show -(r : ℤ) * a = -((r * a : ℕ) : ℤ) by push_cast; ring, codeMod_neg _ hm, hprod]
        by_cases ht : r * a < leastSameDigits m
        · rw [if_pos ht, ih _ (by omega) _ _ ht, hpow _ rfl]
        · rw [if_neg ht, powCode_nat]
          have hv : (if n / 2 = 0 then r * a % m.natAbs else r * a % m.natAbs * (a * a % m.natAbs) ^ (n / 2) % m.natAbs) = r * a ^ n % m.natAbs := by
            by_cases h0 : n / 2 = 0
            · rw [if_pos h0, hn2, h0]; simp
            · rw [if_neg h0, hpow _ (Nat.mod_modEq _ _)]
          rw [hv]
          split
          · next hlt =>
            have hz : (powFactors (a * a % m.natAbs) m.natAbs (n / 2)).prod = 0 := by
              by_contra h
              exact ht (lt_of_le_of_lt (Nat.le_mul_of_pos_right _ (Nat.pos_of_ne_zero h)) hlt)
            have h0 := powFactors_zero hz
            have : r * a ^ n % m.natAbs = 0 := by
              rw [← hpow _ rfl, Nat.mul_mod, h0, mul_zero, Nat.zero_mod]
            rw [this]; rfl
          · rfl
      · have hn2 : n = 2 * (n / 2) := by omega
        rw [if_neg ho, ih _ (by omega) _ _ hr]
        have e2 : (powFactors a m.natAbs n) = powFactors (a * a % m.natAbs) m.natAbs (n / 2) := by
          conv_lhs => rw [hn2, powFactors_even]
        have e3 : r * (a * a % m.natAbs) ^ (n / 2) % m.natAbs = r * a ^ n % m.natAbs := by
          conv_rhs => rw [hn2]
          exact (Nat.ModEq.refl r).mul hp
        rw [e2, e3]

/-- Negative base. -/
theorem powCode_neg_base {m : ℤ} (hm : m ≠ 0) {e a : ℕ} (he : e ≠ 0) : powCode m (-(a : ℤ)) 1 e =
    if e % 2 = 1 ∧ (powFactors a m.natAbs e).prod < leastSameDigits m then -((a ^ e % m.natAbs : ℕ) : ℤ) else ((a ^ e % m.natAbs : ℕ) : ℤ) := by
  have e1 : codeMod (-(a : ℤ) * -(a : ℤ)) m = ((a * a % m.natAbs : ℕ) : ℤ) := by
    rw [neg_mul_neg, ← Nat.cast_mul, codeMod_nat]
  have h1 : 1 ≤ leastSameDigits m := Nat.one_le_pow _ _ (by norm_num)
  by_cases ho : e % 2 = 1
  · rw [powCode_pos _ _ _ he, e1, if_pos ho, one_mul, codeMod_neg _ hm]
    -- the same with the result `-1` and the base `a`
    have key : powCode m (a * a % m.natAbs : ℕ) (if a < leastSameDigits m then -(a : ℤ) else ((a % m.natAbs : ℕ) : ℤ)) (e / 2) =
        if a * (powFactors (a * a % m.natAbs) m.natAbs (e / 2)).prod < leastSameDigits m then -((a ^ e % m.natAbs : ℕ) : ℤ) else ((a ^ e % m.natAbs : ℕ) : ℤ) := by
      have hp : (a * a % m.natAbs) ^ (e / 2) ≡ a ^ (2 * (e / 2)) [MOD m.natAbs] := by
        rw [pow_mul, pow_two]; exact (Nat.mod_modEq _ _).pow _
      have hpow : ∀ x, x ≡ a [MOD m.natAbs] → x * (a * a % m.natAbs) ^ (e / 2) % m.natAbs = a ^ e % m.natAbs := fun x hx => by
        conv_rhs => rw [show e = 2 * (e / 2) + 1 by omega, pow_succ, mul_comm (a ^ _)]
        exact hx.mul hp
      by_cases ht : a < leastSameDigits m
      · rw [if_pos ht, powCode_neg hm _ _ _ ht, hpow _ rfl]
      · rw [if_neg ht, powCode_nat]
        have hv : (if e / 2 = 0 then a % m.natAbs else a % m.natAbs * (a * a % m.natAbs) ^ (e / 2) % m.natAbs) = a ^ e % m.natAbs := by
          by_cases h0 : e / 2 = 0
          · rw [if_pos h0, show e = 1 by omega, pow_one]
          · rw [if_neg h0, hpow _ (Nat.mod_modEq _ _)]
        rw [hv]
        split
        · next hlt =>
          have hz : (powFactors (a * a % m.natAbs) m.natAbs (e / 2)).prod = 0 := by
            by_contra h
            exact ht (lt_of_le_of_lt (Nat.le_mul_of_pos_right _ (Nat.pos_of_ne_zero h)) hlt)
          have h0 := powFactors_zero hz
          have : a ^ e % m.natAbs = 0 := by
            rw [← hpow _ rfl, Nat.mul_mod, h0, mul_zero, Nat.zero_mod]
          rw [this]; rfl
        · rfl
    rw [key]
    have hprod : (powFactors a m.natAbs e).prod = a * (powFactors (a * a % m.natAbs) m.natAbs (e / 2)).prod := by
      conv_lhs => rw [show e = 2 * (e / 2) + 1 by omega, powFactors_odd, List.prod_cons]
    rw [hprod]
    simp [ho]
  · rw [powCode_pos _ _ _ he, e1, if_neg ho, show (1 : ℤ) = ((1 : ℕ) : ℤ) from rfl, powCode_nat, if_neg (by omega), if_neg (fun h => ho h.1), one_mul]
    congr 1
    conv_rhs => rw [show e = 2 * (e / 2) by omega, pow_mul, pow_two]
    exact (Nat.mod_modEq _ _).pow _

/-- The result of `pow(b, e, m)`. -/
def powValue (b m : ℤ) (e : ℕ) : ℤ :=
  if |b| = 1 ∨ e = 0 then b ^ e
  else if b < 0 ∧ e % 2 = 1 ∧ (powFactors b.natAbs m.natAbs e).prod < leastSameDigits m then -(|b| ^ e % |m|) else |b| ^ e % |m|

/-- C18, every base, exponent and modulus: the call ends and gives the power of the absolute value modulo `|m|`, which becomes negative
exactly if the base is negative, the exponent odd, and the product of the factors used has fewer digits than `m`. -/
theorem C18_exact (b m : ℤ) (e : ℕ) (hm : m ≠ 0) : Returns (fun k => BInt.pow .lenient k (enc b) (enc e) (enc m)) (enc (powValue b m e)) := by
  unfold powValue
  refine ⟨e + 11, fun k hk => ?_⟩
  beta_reduce
  rw [pow_shape]
  by_cases hb : |b| = 1
  · rw [if_pos hb, if_pos (show |b| = 1 ∨ e = 0 from .inl hb)]
    rcases (abs_eq (by norm_num : (0:ℤ) ≤ 1)).1 hb with rfl | rfl
    · simp
    · congr 2
      rcases Nat.even_or_odd e with h | h
      · rw [h.neg_one_pow, if_neg (by rw [Nat.even_iff] at h; omega)]
      · rw [h.neg_one_pow, if_pos ⟨rfl, by rw [Nat.odd_iff] at h; omega⟩]
  · obtain ⟨p, q, r, he1, -, -, -, he0, hr⟩ := pow_loop_mod (k := k) (b := b) (e := e) hm (by omega) (by have := size_le_self e; omega)
    rw [if_neg hb, if_neg (by omega), he1]
    show Res.ok (enc r) = _
    congr 2
    by_cases h0 : e = 0
    · rw [if_pos (.inr h0), he0 h0, h0, pow_zero]
    · rw [if_neg (by tauto), hr]
      have habs : |b| ^ e % |m| = ((b.natAbs ^ e % m.natAbs : ℕ) : ℤ) := by push_cast; rfl
      by_cases hneg : b < 0
      · have hb' : b = -(b.natAbs : ℤ) := by omega
        rw [habs]
        conv_lhs => rw [hb', powCode_neg_base hm h0]
        simp [hneg]
      · have hb' : b = (b.natAbs : ℤ) := by omega
        rw [if_neg (fun h => hneg h.1), habs]
        conv_lhs => rw [hb', show (1 : ℤ) = ((1 : ℕ) : ℤ) from rfl, powCode_nat, if_neg h0, one_mul]

theorem powFactors_le (a M n : ℕ) : (powFactors a M n).prod ≤ a ^ n := by
  conv_rhs => rw [← Nat.sum_map_two_pow_bitIndices n]
  unfold powFactors
  induction n.bitIndices with
  | nil => simp
  | cons i l ih =>
    rw [List.map_cons, List.prod_cons, List.map_cons, List.sum_cons, pow_add]
    refine Nat.mul_le_mul ?_ ih
    split
    · next h => subst h; simp
    · exact Nat.mod_le _ _

/-- C18, exactly when it holds: `pow(b, e, m)` is `b ** e % m` (as the two operators compute it) except if the power is 1 and `|m|` is 1,
or the power is -1 and `m` has one digit, or base and exponent are as above, the power has at least as many digits as `m`, the product
of the factors used has not, and `m` does not divide the power. -/
theorem C18_iff (b m : ℤ) (e : ℕ) (hm : m ≠ 0) (r s : ℤ) (hr : Returns (fun k => BInt.pow .lenient k (enc b) (enc e) (enc m)) (enc r))
    (hs : Returns (fun k => BInt.mod .lenient k (enc (b ^ e)) (enc m)) (enc s)) :
    r = s ↔ (b ^ e = 1 ∧ (|b| = 1 ∨ e = 0) → |m| ≠ 1) ∧ (b = -1 ∧ e % 2 = 1 → 10 ≤ |m|) ∧
      ¬ (b < -1 ∧ e % 2 = 1 ∧ (powFactors b.natAbs m.natAbs e).prod < leastSameDigits m ∧ leastSameDigits m ≤ b.natAbs ^ e ∧ ¬ m ∣ b ^ e) := by
  have h1 := enc_injective ((C18_exact b m e hm).unique hr)
  have h2 := enc_injective ((C08_mod_exact (b ^ e) m hm).unique hs)
  rw [← h1, ← h2]
  change powValue b m e = codeMod (b ^ e) m ↔ _
  have hM : m.natAbs ≠ 0 := by simpa using hm
  have hd : ∀ x : ℕ, (m ∣ (x : ℤ) ↔ x % m.natAbs = 0) := fun x => by rw [← Nat.dvd_iff_mod_eq_zero, ← Int.natAbs_dvd, Int.natCast_dvd_natCast]
  have ha : |m| = (m.natAbs : ℤ) := Int.abs_eq_natAbs m
  by_cases h : |b| = 1 ∨ e = 0
  · have hv : b ^ e = 1 ∨ (b = -1 ∧ e % 2 = 1 ∧ b ^ e = -1) := by
      rcases h with h | h
      · rcases (abs_eq (by norm_num : (0:ℤ) ≤ 1)).1 h with rfl | rfl
        · left; simp
        · rcases Nat.even_or_odd e with h | h
          · left; exact h.neg_one_pow
          · right; exact ⟨rfl, Nat.odd_iff.1 h, h.neg_one_pow⟩
      · left; rw [h, pow_zero]
    have hb : ¬ (b < -1 ∧ e % 2 = 1) := by
      rintro ⟨h1, h2⟩
      rcases h with h | h
      · rw [abs_of_neg (by omega)] at h; omega
      · omega
    unfold powValue
    rw [if_pos h]
    rcases hv with hv | ⟨rfl, ho, hv⟩
    · have h3 : codeMod (1 : ℤ) m = ((1 % m.natAbs : ℕ) : ℤ) := codeMod_nat 1
      rw [hv, h3]
      have hne : ¬ (b = -1 ∧ e % 2 = 1) := by
        rintro ⟨rfl, ho⟩
        rw [(Nat.odd_iff.2 ho).neg_one_pow] at hv
        exact absurd hv (by norm_num)
      have hlt : (1 : ℤ) = ((1 % m.natAbs : ℕ) : ℤ) ↔ |m| ≠ 1 := by
        rw [ha]
        by_cases h1 : m.natAbs = 1
        · simp [h1]
        · rw [Nat.mod_eq_of_lt (by omega)]; exact iff_of_true rfl (by omega)
      rw [hlt]
      exact ⟨fun h' => ⟨fun _ => h', fun h => absurd h hne, fun h => hb ⟨h.1, h.2.1⟩⟩, fun h' => h'.1 ⟨rfl, h⟩⟩
    · rw [hv]
      have h3 := codeMod_neg 1 hm
      rw [Nat.cast_one] at h3
      rw [h3]
      have hl : 1 < leastSameDigits m ↔ 10 ≤ |m| := by
        rw [← short_iff 1 hm, ha]
        have : (Nat.digits 10 1).length = 1 := by norm_num
        rw [this, Nat.lt_iff_add_one_le, ← not_lt, Nat.lt_succ_iff, Nat.digits_length_le_iff (by norm_num : 1 < 10)]
        omega
      constructor
      · intro h'
        refine ⟨fun h => absurd h.1 (by norm_num), fun _ => hl.1 ?_, fun h => absurd h.1 (by norm_num)⟩
        by_contra hn
        rw [if_neg hn] at h'
        have := Int.natCast_nonneg (1 % m.natAbs)
        omega
      · rintro ⟨-, h2, -⟩
        rw [if_pos (hl.2 (h2 ⟨rfl, ho⟩))]
  · have hone : ¬ (b ^ e = 1 ∧ (|b| = 1 ∨ e = 0)) := fun h' => h h'.2
    have hm1 : ¬ (b = -1 ∧ e % 2 = 1) := by rintro ⟨rfl, -⟩; exact h (.inl (by norm_num))
    have habs : |b| ^ e % |m| = ((b.natAbs ^ e % m.natAbs : ℕ) : ℤ) := by push_cast; rfl
    unfold powValue
    rw [if_neg h, habs]
    by_cases hn : b < 0 ∧ e % 2 = 1
    · have hb : b ^ e = -((b.natAbs ^ e : ℕ) : ℤ) := by
        conv_lhs => rw [show b = -(b.natAbs : ℤ) by omega, (Nat.odd_iff.2 hn.2).neg_pow]
        push_cast; rfl
      have hb1 : b < -1 := by
        have : b ≠ -1 := fun h' => hm1 ⟨h', hn.2⟩
        omega
      have hdv : m ∣ b ^ e ↔ b.natAbs ^ e % m.natAbs = 0 := by rw [hb, dvd_neg, hd]
      rw [hdv, hb, codeMod_neg _ hm]
      by_cases hlt : b.natAbs ^ e < leastSameDigits m
      · rw [if_pos hlt, if_pos ⟨hn.1, hn.2, lt_of_le_of_lt (powFactors_le _ _ _) hlt⟩,
          Nat.mod_eq_of_lt (lt_of_lt_of_le hlt (leastSameDigits_le hm))]
        exact iff_of_true rfl ⟨fun h' => absurd h'.2 h, fun h' => absurd h' hm1, fun h' => absurd h'.2.2.2.1 (not_le.2 hlt)⟩
      · rw [if_neg hlt]
        by_cases hp : (powFactors b.natAbs m.natAbs e).prod < leastSameDigits m
        · rw [if_pos ⟨hn.1, hn.2, hp⟩]
          constructor
          · intro h'
            exact ⟨fun h' => absurd h'.2 h, fun h' => absurd h' hm1, fun h'' => h''.2.2.2.2 (by omega)⟩
          · rintro ⟨-, -, h'⟩
            have : b.natAbs ^ e % m.natAbs = 0 := by
              by_contra h0
              exact h' ⟨hb1, hn.2, hp, not_lt.1 hlt, h0⟩
            rw [this]; rfl
        · rw [if_neg (fun h' => hp h'.2.2)]
          exact iff_of_true rfl ⟨fun h' => absurd h'.2 h, fun h' => absurd h' hm1, fun h' => hp h'.2.2.1⟩
    · have hb : b ^ e = ((b.natAbs ^ e : ℕ) : ℤ) := by
        push_cast
        rcases not_and_or.1 hn with h' | h'
        · rw [abs_of_nonneg (not_lt.1 h')]
        · exact ((Nat.even_iff.2 (by omega)).pow_abs b).symm
      rw [if_neg (fun h' => hn ⟨h'.1, h'.2.1⟩), hb, codeMod_nat]
      refine iff_of_true rfl ⟨fun h' => absurd h'.2 h, fun h' => absurd h' hm1, fun h' => hn ⟨by omega, h'.2.1⟩⟩

example : (100 : ℤ) ≠ 0 ∧ powFactors 2 100 17 = [2, 36] ∧ leastSameDigits 100 = 100 ∧ powValue (-2) 100 17 = -72 ∧ powValue (-2) 100 19 = 88 := by
  decide +kernel

end Pyincpp
