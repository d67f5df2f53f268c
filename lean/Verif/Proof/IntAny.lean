import Verif.Model.IntAny
import Verif.Spec.IntAny
import Verif.Proof.IntRoot

/-! # Counting with `int`: loops, comparison, addition, subtraction -/

namespace Pyincpp

theorem iadd_count {i : ℕ} (h : i + 1 ≤ maxLen) : iadd (i : ℤ) 1 = .ok ((i + 1 : ℕ) : ℤ) := by
  unfold iadd
  rw [ck_ok (by unfold IsInt INT_MIN INT_MAX; unfold maxLen at h; omega)]
  push_cast; rfl

theorem iadd_count_ub {i : ℕ} (h : maxLen ≤ i) : iadd (i : ℤ) 1 = .ub .overflow := by
  unfold iadd
  rw [ck_ub (by unfold IsInt INT_MIN INT_MAX; unfold maxLen at h; omega)]

/-- As long as the counter fits, counting is the loop of `Cpp.lean`. -/
theorem countUp_eq {σ : Type} {body body' : ℕ → σ → Res σ} : ∀ (n i : ℕ) (s : σ), i + n ≤ maxLen →
    (∀ j s, i ≤ j → j < i + n → body j s = body' j s) → countUp body i n s = forUp body' i n s
  | 0, i, s, _, _ => rfl
  | n + 1, i, s, h, hb => by
    simp only [countUp, forUp]
    rw [hb i s le_rfl (by omega)]
    cases body' i s with
    | ok s' =>
      simp only [Res.ok_bind]
      rw [iadd_count (by omega)]
      simp only [Res.ok_bind]
      exact countUp_eq n (i + 1) s' (by omega) (fun j s hj hj' => hb j s (by omega) (by omega))
    | throw m => simp only [Res.throw_bind]
    | ub k => simp only [Res.ub_bind]
    | fuel => simp only [Res.fuel_bind]

/-- A loop that goes beyond `INT_MAX` fails there, if it gets so far and its body fails at `INT_MAX`. -/
theorem countUp_ub {σ : Type} {body : ℕ → σ → Res σ} (Inv : ℕ → σ → Prop) {e : UB}
    (hM : ∀ s, Inv maxLen s → body maxLen s = .ub e) : ∀ (n i : ℕ) (s : σ), i ≤ maxLen → maxLen < i + n → Inv i s →
    (∀ j s, i ≤ j → j < maxLen → Inv j s → ∃ s', body j s = .ok s' ∧ Inv (j + 1) s') →
    countUp body i n s = .ub e
  | 0, i, s, h1, h2, _, _ => by omega
  | n + 1, i, s, h1, h2, hI, hb => by
    simp only [countUp]
    by_cases hi : i = maxLen
    · subst hi
      rw [hM s hI]; rfl
    · obtain ⟨s', e', hI'⟩ := hb i s le_rfl (by omega) hI
      rw [e', iadd_count (by omega)]
      simp only [Res.ok_bind]
      exact countUp_ub Inv hM n (i + 1) s' (by omega) (by omega) hI' (fun j s hj => hb j s (by omega))

theorem countUpWhile_eq {σ : Type} {cond : ℕ → σ → Res Bool} {body body' : ℕ → σ → Res σ} (Inv : ℕ → σ → Prop) :
    ∀ (n i : ℕ) (s : σ), Inv i s →
    (∀ j s, i ≤ j → j < i + n → Inv j s → cond j s = .ok false ∨
      (cond j s = .ok true ∧ j + 1 ≤ maxLen ∧ body j s = body' j s ∧ ∃ s', body' j s = .ok s' ∧ Inv (j + 1) s')) →
    countUpWhile cond body i n s = forUpWhile cond body' i n s
  | 0, i, s, _, _ => rfl
  | n + 1, i, s, hI, hb => by
    simp only [countUpWhile, forUpWhile]
    rcases hb i s le_rfl (by omega) hI with hc | ⟨hc, hle, he, s', e', hI'⟩
    · simp only [hc, Res.ok_bind, Bool.false_eq_true, if_false]
    · simp only [hc, Res.ok_bind, if_true, he, e', iadd_count hle]
      exact countUpWhile_eq Inv n (i + 1) s' hI' (fun j s hj hj' => hb j s (by omega) (by omega))

theorem countUpWhile_ub {σ : Type} {cond : ℕ → σ → Res Bool} {body : ℕ → σ → Res σ} (Inv : ℕ → σ → Prop) {e : UB}
    (hM : ∀ s, Inv maxLen s → cond maxLen s = .ok true ∧ body maxLen s = .ub e) :
    ∀ (n i : ℕ) (s : σ), i ≤ maxLen → maxLen < i + n → Inv i s →
    (∀ j s, i ≤ j → j < maxLen → Inv j s → cond j s = .ok true ∧ ∃ s', body j s = .ok s' ∧ Inv (j + 1) s') →
    countUpWhile cond body i n s = .ub e
  | 0, i, s, h1, h2, _, _ => by omega
  | n + 1, i, s, h1, h2, hI, hb => by
    simp only [countUpWhile]
    by_cases hi : i = maxLen
    · subst hi
      obtain ⟨hc, he⟩ := hM s hI
      simp only [hc, Res.ok_bind, if_true, he]; rfl
    · obtain ⟨hc, s', e', hI'⟩ := hb i s le_rfl (by omega) hI
      simp only [hc, Res.ok_bind, if_true, e', iadd_count (show i + 1 ≤ maxLen by omega)]
      exact countUpWhile_ub Inv hM n (i + 1) s' (by omega) (by omega) hI' (fun j s hj => hb j s (by omega))

theorem forDown_congr {σ : Type} {body body' : ℕ → σ → Res σ} (Inv : ℕ → σ → Prop) : ∀ (n : ℕ) (s : σ), Inv n s →
    (∀ j s, j < n → Inv (j + 1) s → body j s = body' j s ∧ ∀ s', body' j s = .ok s' → Inv j s') →
    forDown body n s = forDown body' n s
  | 0, s, _, _ => rfl
  | n + 1, s, hI, hb => by
    simp only [forDown]
    obtain ⟨he, hI'⟩ := hb n s (by omega) hI
    rw [he]
    cases h : body' n s with
    | ok s' =>
      simp only [Res.ok_bind]
      exact forDown_congr Inv n s' (hI' s' h) (fun j s hj => hb j s (by omega))
    | throw m => rfl
    | ub k => rfl
    | fuel => rfl

theorem forUp_congr_inv {σ : Type} {body body' : ℕ → σ → Res σ} (Inv : ℕ → σ → Prop) : ∀ (n i : ℕ) (s : σ), Inv i s →
    (∀ j s, i ≤ j → j < i + n → Inv j s → body j s = body' j s ∧ ∀ s', body' j s = .ok s' → Inv (j + 1) s') →
    forUp body i n s = forUp body' i n s
  | 0, i, s, _, _ => rfl
  | n + 1, i, s, hI, hb => by
    simp only [forUp]
    obtain ⟨he, hI'⟩ := hb i s le_rfl (by omega) hI
    rw [he]
    cases h : body' i s with
    | ok s' =>
      simp only [Res.ok_bind]
      exact forUp_congr_inv Inv n (i + 1) s' (hI' s' h) (fun j s hj hj' => hb j s (by omega) (by omega))
    | throw m => rfl
    | ub k => rfl
    | fuel => rfl

theorem whileF_congr {σ : Type} {cond cond' : σ → Res Bool} {body body' : σ → Res σ} (Inv : σ → Prop)
    (hb : ∀ s, Inv s → cond s = cond' s ∧ (cond' s = .ok true → body s = body' s ∧ ∀ s', body' s = .ok s' → Inv s')) :
    ∀ (k : ℕ) (s : σ), Inv s → whileF cond body k s = whileF cond' body' k s
  | 0, s, _ => rfl
  | k + 1, s, hI => by
    simp only [whileF]
    obtain ⟨he, hs⟩ := hb s hI
    rw [he]
    cases hc : cond' s with
    | ok b =>
      cases b with
      | false => rfl
      | true =>
        obtain ⟨hbe, hI'⟩ := hs hc
        simp only [Res.ok_bind, if_true]
        rw [hbe]
        cases h : body' s with
        | ok s' =>
          simp only [Res.ok_bind]
          exact whileF_congr Inv hb k s' (hI' s' h)
        | throw m => rfl
        | ub k => rfl
        | fuel => rfl
    | throw m => rfl
    | ub k => rfl
    | fuel => rfl

/-! ## the number of digits -/

/-- What a loop that ended kept. -/
theorem whileF_ok_inv {σ : Type} {cond : σ → Res Bool} {body : σ → Res σ} (Inv : σ → Prop)
    (hb : ∀ s s', Inv s → cond s = .ok true → body s = .ok s' → Inv s') :
    ∀ (k : ℕ) (s s' : σ), Inv s → whileF cond body k s = .ok s' → Inv s'
  | 0, s, s', _, h => by simp only [whileF] at h; cases h
  | k + 1, s, s', hI, h => by
    simp only [whileF, Res.bind_eq_ok] at h
    obtain ⟨b, h1, h2⟩ := h
    cases b with
    | true =>
      simp only [if_true, Res.bind_eq_ok] at h2
      obtain ⟨t, h3, h4⟩ := h2
      exact whileF_ok_inv Inv hb k t s' (hb s t hI h1 h3) h4
    | false =>
      simp only [Bool.false_eq_true, if_false] at h2
      injection h2 with h2
      rw [← h2]; exact hI

theorem numDigits_eq (z : ℤ) : numDigits z = (enc z).chunks.length := by
  simp [numDigits, enc]

theorem short_len_iff (z : ℤ) : Short z ↔ (enc z).chunks.length ≤ maxLen := (enc_length_le_iff z maxLen).symm

theorem wrap32_count {n : ℕ} (h : n ≤ maxLen) : wrap32 n = n :=
  wrap32_eq (by unfold IsInt INT_MIN INT_MAX; unfold maxLen at h; omega)

theorem downFrom_eq {n : ℕ} (h : n ≤ maxLen + 1) : Big.downFrom n = n := by
  unfold Big.downFrom
  unfold maxLen at h
  rw [wrap32_eq (by unfold IsInt INT_MIN INT_MAX; omega)]
  omega

theorem downFrom_le (n : ℕ) : Big.downFrom n ≤ n := by
  unfold Big.downFrom wrap32
  omega

/-! ## comparison -/

theorem big_absCmp {x y : BInt} (h : x.chunks.length ≤ maxLen + 1) : Big.absCmp x y = BInt.absCmp x y := by
  unfold Big.absCmp BInt.absCmp
  rw [downFrom_eq h]

theorem big_cmp {x y : BInt} (h : x.chunks.length ≤ maxLen + 1) : Big.cmp x y = BInt.cmp x y := by
  unfold Big.cmp BInt.cmp
  rw [big_absCmp h]

theorem big_absCmp_len {x y : BInt} (h : x.chunks.length ≠ y.chunks.length) : Big.absCmp x y = BInt.absCmp x y := by
  unfold Big.absCmp BInt.absCmp
  rw [if_pos h, if_pos h]

theorem big_cmp_len {x y : BInt} (h : x.chunks.length ≠ y.chunks.length) : Big.cmp x y = BInt.cmp x y := by
  unfold Big.cmp BInt.cmp
  rw [big_absCmp_len h]

theorem val_take_mod {v : List ℤ} (h : Digs v) (n : ℕ) : val (v.take n) = val v % 10 ^ n := by
  by_cases hn : v.length ≤ n
  · rw [List.take_of_length_le hn, Int.emod_eq_of_lt (val_nonneg h)]
    exact lt_of_lt_of_le (val_lt h) (pow_le_pow_right₀ (by norm_num) hn)
  · have hl : (v.take n).length = n := by simp; omega
    have hv : val v = val (v.take n) + 10 ^ n * val (v.drop n) := by
      conv_lhs => rw [← List.take_append_drop n v]
      rw [val_append, hl]
    rw [hv, Int.add_mul_emod_self_left, Int.emod_eq_of_lt (val_nonneg (digs_take h n))]
    have := val_lt (digs_take h n)
    rwa [hl] at this

/-- Numbers of equally many digits are compared by their lowest digits. -/
theorem big_absCmp_low (x y : ℤ) (s t : ℤ) (h : (enc x).chunks.length = (enc y).chunks.length) :
    Big.absCmp ⟨s, (enc x).chunks⟩ ⟨t, (enc y).chunks⟩ =
      .ok (Int.sign (|x| % 10 ^ Big.downFrom (enc x).chunks.length - |y| % 10 ^ Big.downFrom (enc x).chunks.length)) := by
  unfold Big.absCmp
  simp only
  rw [if_neg (by simpa using h), absCmpLoop_spec (enc_digs x) (enc_digs y) _ (downFrom_le _) (by rw [← h]; exact downFrom_le _),
    val_take_mod (enc_digs x), val_take_mod (enc_digs y), enc_val, enc_val]

end Pyincpp
