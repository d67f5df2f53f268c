import Verif.Proof.IntCostCount

/-! # Counting the steps of `Int`: increment, decrement, comparison -/

namespace Pyincpp
namespace BInt
open Steps

@[simp] theorem unit_apply (k j : Kind) (n : ℕ) : unit k n j = if j = k then n else 0 := rfl

theorem post_trimS (x : BInt) :
    Post (trimS x) (fun a c => a = trim x ∧ c = unit .round (x.chunks.length - (trim x).chunks.length)) :=
  post_bind (post_tick (post_pure ⟨rfl, add_zero _⟩))

theorem post_copyS (x : BInt) : Post (copyS x) (fun a c => a = x ∧ c = unit .written x.chunks.length) :=
  post_bind (post_tick (post_pure ⟨rfl, add_zero _⟩))

theorem trim_length_le (x : BInt) : (trim x).chunks.length ≤ x.chunks.length := by
  simp only [trim, List.length_reverse]
  exact le_trans (List.dropWhile_suffix _).length_le (by simp)

theorem vset_length {α : Type} {v w : List α} {i : ℕ} {x : α} (h : vset v i x = .ok w) : w.length = v.length := by
  unfold vset at h
  split at h
  · injection h with h; subst h; simp
  · exact absurd h (by simp)

/-- The loop that looks for the first digit other than `d` makes as many rounds as there are digits `d` before it. -/
theorem post_scan (v : List ℤ) (d : ℤ) (k : ℕ) :
    Post (Steps.whileF .round (fun i => do pure ((← liftM (vget v i)) == d)) (fun i => pure (i + 1)) k 0)
      (fun i c => (∀ l < i, vget v l = .ok d) ∧ (∃ e, vget v i = .ok e ∧ e ≠ d) ∧ c = unit .round i) := by
  have := post_whileF (kd := .round) (cond := fun i => do pure ((← (liftM (vget v i) : Steps ℤ)) == d)) (b := fun i => pure (i + 1))
    (fun i c => (∀ l < i, vget v l = .ok d) ∧ c = unit .round i)
    (fun i c => (∀ l < i, vget v l = .ok d) ∧ (∃ e, vget v i = .ok e ∧ e ≠ d) ∧ c = unit .round i) (by
      rintro i c ⟨h1, h2⟩
      refine post_bind (post_lift fun e he => post_pure ?_)
      by_cases hd : e = d
      · subst hd
        simp only [beq_self_eq_true, if_true]
        refine post_pure ⟨fun l hl => ?_, ?_⟩
        · rcases Nat.lt_succ_iff_lt_or_eq.mp hl with h | h
          · exact h1 l h
          · rw [h]; exact he
        · funext j; subst h2
          simp only [Pi.add_apply, Pi.zero_apply, unit_apply]
          split <;> rfl
      · rw [beq_eq_false_iff_ne.mpr hd]
        simp only [Bool.false_eq_true, if_false]
        exact ⟨h1, ⟨e, he, hd⟩, by simp [h2]⟩) k 0 0 ⟨by simp, by funext j; simp⟩
  simpa using this

theorem post_fill (d : ℤ) (i : ℕ) (v : List ℤ) :
    Post (Steps.forDown .round (fun j v => liftM (vset v j d)) i v) (fun w c => w.length = v.length ∧ c = unit .round i) := by
  have := post_forDown (kd := .round) (b := fun j w => (liftM (vset w j d) : Steps (List ℤ)))
    (fun j w c => w.length = v.length ∧ c = unit .round (i - j)) i v 0 ⟨rfl, by funext j; simp⟩ (by
      rintro j w c hj ⟨h1, h2⟩
      refine post_lift fun w' hw => ⟨by rw [vset_length hw, h1], ?_⟩
      funext l; subst h2
      simp only [Pi.add_apply, Pi.zero_apply, unit_apply]
      split <;> omega)
  simpa using this

/-- `i` is the number of digits `d` at the least significant end of `v`. -/
def Run (v : List ℤ) (d : ℤ) (i : ℕ) : Prop := (∀ l < i, vget v l = .ok d) ∧ ∃ e, vget v i = .ok e ∧ e ≠ d

theorem post_absIncS (x : BInt) :
    Post (absIncS x) (fun a c => ∃ i, Run (x.chunks ++ [0]) 9 i ∧ c .round + a.chunks.length = 2 * i + (x.chunks.length + 1) ∧
      c .written = 1 ∧ c .moved = 0 ∧ c .subtraction = 0) := by
  unfold absIncS
  refine post_bind (post_tick (post_bind ((post_scan _ 9 _).mono ?_)))
  rintro i c ⟨h1, h2, rfl⟩
  refine post_bind (post_lift fun d _ => post_bind (post_lift fun d' _ => post_bind (post_lift fun v hv => post_bind ((post_fill 0 i v).mono ?_))))
  rintro w c ⟨hw, rfl⟩
  refine (post_trimS _).mono ?_
  rintro a c ⟨rfl, rfl⟩
  have hl := trim_length_le { x with chunks := w }
  have hv' := vset_length hv
  simp only [List.length_append, List.length_singleton] at hv'
  refine ⟨i, ⟨h1, h2⟩, ?_, ?_, ?_, ?_⟩ <;> simp only [Pi.add_apply, Pi.zero_apply, unit_apply, reduceCtorEq, if_true, if_false] <;> simp only at hl <;> omega

theorem post_absDecS (x : BInt) :
    Post (absDecS x) (fun a c => ∃ i, Run x.chunks 0 i ∧ c .round + a.chunks.length = 2 * i + x.chunks.length ∧
      c .written = 0 ∧ c .moved = 0 ∧ c .subtraction = 0) := by
  unfold absDecS
  refine post_bind ((post_scan _ 0 _).mono ?_)
  rintro i c ⟨h1, h2, rfl⟩
  refine post_bind (post_lift fun d _ => post_bind (post_lift fun d' _ => post_bind (post_lift fun v hv => post_bind ((post_fill 9 i v).mono ?_))))
  rintro w c ⟨hw, rfl⟩
  refine (post_trimS _).mono ?_
  rintro a c ⟨rfl, rfl⟩
  have hl := trim_length_le { x with chunks := w }
  have hv' := vset_length hv
  refine ⟨i, ⟨h1, h2⟩, ?_, ?_, ?_, ?_⟩ <;> simp only [Pi.add_apply, Pi.zero_apply, unit_apply, reduceCtorEq, if_true, if_false] <;> simp only at hl <;> omega

/-! ## Trailing nines and zeros -/

theorem vget_enc (z : ℤ) {l : ℕ} (h : l < (enc z).chunks.length) : vget (enc z).chunks l = .ok ((z.natAbs / 10 ^ l % 10 : ℕ) : ℤ) := by
  rw [vget_ok h]
  congr 1
  simp only [enc, List.length_map] at h
  simp only [enc, List.getElem_map]
  rw [← Nat.getD_digits z.natAbs l (by norm_num : 2 ≤ 10), List.getD_eq_getElem?_getD, List.getElem?_eq_getElem h]; rfl

theorem enc_length (z : ℤ) : (enc z).chunks.length = digitCount z := by simp [enc, digitCount]

theorem natAbs_lt_pow (z : ℤ) : z.natAbs < 10 ^ digitCount z := Nat.lt_base_pow_length_digits (by norm_num)

theorem vget_enc_zero (z : ℤ) {l : ℕ} (h : l ≤ (enc z).chunks.length) :
    vget ((enc z).chunks ++ [0]) l = .ok ((z.natAbs / 10 ^ l % 10 : ℕ) : ℤ) := by
  rcases Nat.lt_or_ge l (enc z).chunks.length with h' | h'
  · rw [vget_ok (by simp; omega), List.getElem_append_left h', ← vget_enc z h', vget_ok h']
  · obtain rfl : l = (enc z).chunks.length := by omega
    rw [vget_ok (by simp), List.getElem_append_right le_rfl]
    have : z.natAbs < 10 ^ (enc z).chunks.length := by rw [enc_length]; exact natAbs_lt_pow z
    simp [Nat.div_eq_of_lt this]

/-- The digits of `n` end in exactly `i` nines iff `10^i` is the highest power of ten in `n + 1`. -/
theorem nines_iff : ∀ (i n : ℕ), ((∀ l < i, n / 10 ^ l % 10 = 9) ∧ n / 10 ^ i % 10 ≠ 9) ↔ (10 ^ i ∣ n + 1 ∧ ¬ 10 ^ (i + 1) ∣ n + 1)
  | 0, n => by simp; omega
  | i + 1, n => by
    have IH := nines_iff i (n / 10)
    have e : ∀ l, n / 10 / 10 ^ l = n / 10 ^ (l + 1) := fun l => by rw [Nat.div_div_eq_div_mul, pow_succ, mul_comm]
    simp only [e] at IH
    by_cases h9 : n % 10 = 9
    · have h1 : n + 1 = 10 * (n / 10 + 1) := by omega
      have h2 : ∀ j, 10 ^ (j + 1) ∣ n + 1 ↔ 10 ^ j ∣ n / 10 + 1 := fun j => by
        rw [h1, pow_succ, mul_comm]; exact Nat.mul_dvd_mul_iff_left (by norm_num)
      rw [h2, h2, ← IH]
      refine and_congr_left fun _ => ⟨fun h l hl => h (l + 1) (by omega), fun h l hl => ?_⟩
      rcases l with _ | l
      · simpa using h9
      · exact h l (by omega)
    · constructor
      · rintro ⟨h, -⟩; exact absurd (by simpa using h 0 (by omega)) h9
      · rintro ⟨h, -⟩
        have : 10 ∣ n + 1 := dvd_trans (dvd_pow_self 10 (by omega)) h
        omega

theorem zeros_iff : ∀ (i n : ℕ), ((∀ l < i, n / 10 ^ l % 10 = 0) ∧ n / 10 ^ i % 10 ≠ 0) ↔ (10 ^ i ∣ n ∧ ¬ 10 ^ (i + 1) ∣ n)
  | 0, n => by simp; omega
  | i + 1, n => by
    have IH := zeros_iff i (n / 10)
    have e : ∀ l, n / 10 / 10 ^ l = n / 10 ^ (l + 1) := fun l => by rw [Nat.div_div_eq_div_mul, pow_succ, mul_comm]
    simp only [e] at IH
    by_cases h9 : n % 10 = 0
    · have h1 : n = 10 * (n / 10) := by omega
      have h2 : ∀ j, 10 ^ (j + 1) ∣ n ↔ 10 ^ j ∣ n / 10 := fun j => by
        conv_lhs => rw [h1]
        rw [pow_succ, mul_comm]; exact Nat.mul_dvd_mul_iff_left (by norm_num)
      rw [h2, h2, ← IH]
      refine and_congr_left fun _ => ⟨fun h l hl => h (l + 1) (by omega), fun h l hl => ?_⟩
      rcases l with _ | l
      · simpa using h9
      · exact h l (by omega)
    · constructor
      · rintro ⟨h, -⟩; exact absurd (by simpa using h 0 (by omega)) h9
      · rintro ⟨h, -⟩
        have : 10 ∣ n := dvd_trans (dvd_pow_self 10 (by omega)) h
        omega

theorem run_nines {z : ℤ} {i : ℕ} (h : Run ((enc z).chunks ++ [0]) 9 i) : 10 ^ i ∣ z.natAbs + 1 ∧ ¬ 10 ^ (i + 1) ∣ z.natAbs + 1 := by
  obtain ⟨h1, e, h2, h3⟩ := h
  have hi : i ≤ (enc z).chunks.length := by
    by_contra hn
    rw [vget_ub (by simp; omega)] at h2
    exact absurd h2 (by simp)
  rw [← nines_iff]
  constructor
  · intro l hl
    have := h1 l hl
    rw [vget_enc_zero z (by omega)] at this
    injection this with this; exact_mod_cast this
  · intro h
    rw [vget_enc_zero z hi, h] at h2
    injection h2 with h2; exact h3 h2.symm

theorem run_zeros {z : ℤ} {i : ℕ} (h : Run (enc z).chunks 0 i) : 10 ^ i ∣ z.natAbs ∧ ¬ 10 ^ (i + 1) ∣ z.natAbs := by
  obtain ⟨h1, e, h2, h3⟩ := h
  have hi : i < (enc z).chunks.length := by
    by_contra hn
    rw [vget_ub (by omega)] at h2
    exact absurd h2 (by simp)
  rw [← zeros_iff]
  constructor
  · intro l hl
    have := h1 l hl
    rw [vget_enc z (by omega)] at this
    injection this with this; exact_mod_cast this
  · intro h
    rw [vget_enc z hi, h] at h2
    injection h2 with h2; exact h3 h2.symm

/-- Adding one changes the digit sum by 1 minus 9 for every nine at the end. -/
theorem sum_succ : ∀ (i n : ℕ), 10 ^ i ∣ n + 1 → ¬ 10 ^ (i + 1) ∣ n + 1 →
    (Nat.digits 10 (n + 1)).sum + 9 * i = (Nat.digits 10 n).sum + 1
  | 0, n, _, h => by
    rcases Nat.eq_zero_or_pos n with rfl | hn
    · simp
    rw [Nat.digits_def' (by norm_num) (Nat.succ_pos n), Nat.digits_def' (by norm_num) hn]
    have h' : ¬ 10 ∣ n + 1 := by simpa using h
    have e : (n + 1) / 10 = n / 10 := by omega
    rw [e]; simp; omega
  | i + 1, n, h, h' => by
    have h10 : 10 ∣ n + 1 := dvd_trans (dvd_pow_self 10 (by omega)) h
    have h1 : n + 1 = 10 * (n / 10 + 1) := by omega
    have h2 : ∀ j, 10 ^ (j + 1) ∣ n + 1 ↔ 10 ^ j ∣ n / 10 + 1 := fun j => by
      rw [h1, pow_succ, mul_comm]; exact Nat.mul_dvd_mul_iff_left (by norm_num)
    have IH := sum_succ i (n / 10) ((h2 i).mp h) (fun c => h' ((h2 (i + 1)).mpr c))
    rw [Nat.digits_def' (by norm_num) (Nat.succ_pos n), Nat.digits_def' (by norm_num) (by omega : 0 < n)]
    have e : (n + 1) / 10 = n / 10 + 1 := by omega
    rw [e, List.sum_cons, List.sum_cons]
    generalize (Nat.digits 10 (n / 10 + 1)).sum = A at *
    omega

end BInt
end Pyincpp
