import Verif.Spec.OutOfMemory
import Verif.Proof.IntDiv
import Verif.Proof.IntMul

namespace Pyincpp

open Oom

section
variable {σ α β : Type}

theorem Runs.mono {m : Meth (σ × ℕ) α} {s s' : σ} {v : α} {P Q : σ → Prop} (h : Runs m s v s' P) (hPQ : ∀ t, P t → Q t) : Runs m s v s' Q := by
  obtain ⟨N, h⟩ := h
  refine ⟨N, fun b => ⟨(h b).1, fun hb => ?_⟩⟩
  obtain ⟨t, ht, e⟩ := (h b).2 hb
  exact ⟨t, hPQ t ht, e⟩

theorem Runs.bind {m : Meth (σ × ℕ) α} {f : α → Meth (σ × ℕ) β} {s s1 s2 : σ} {v : α} {w : β} {P : σ → Prop}
    (h1 : Runs m s v s1 P) (h2 : Runs (f v) s1 w s2 P) : Runs (m >>= f) s w s2 P := by
  obtain ⟨N1, h1⟩ := h1
  obtain ⟨N2, h2⟩ := h2
  refine ⟨N1 + N2, fun b => ⟨fun hb => ?_, fun hb => ?_⟩⟩
  · have e1 := (h1 b).1 (by omega)
    have e2 := (h2 (b - N1)).1 (by omega)
    show Meth.bind m f (s, b) = _
    unfold Meth.bind
    rw [e1]
    simp only
    rw [e2, Nat.sub_sub]
  · show ∃ t, P t ∧ Meth.bind m f (s, b) = _
    unfold Meth.bind
    by_cases hb1 : b < N1
    · obtain ⟨t, ht, e⟩ := (h1 b).2 hb1
      exact ⟨t, ht, by rw [e]⟩
    · have e1 := (h1 b).1 (by omega)
      obtain ⟨t, ht, e⟩ := (h2 (b - N1)).2 (by omega)
      exact ⟨t, ht, by rw [e1]; exact e⟩

theorem Runs.pure (v : α) (s : σ) (P : σ → Prop) : Runs (Pure.pure v) s v s P :=
  ⟨0, fun _ => ⟨fun _ => rfl, fun h => absurd h (Nat.not_lt_zero _)⟩⟩

theorem Runs.read (s : σ) (P : σ → Prop) : Runs Oom.read s s s P :=
  ⟨0, fun _ => ⟨fun _ => rfl, fun h => absurd h (Nat.not_lt_zero _)⟩⟩

theorem Runs.write (t s : σ) (P : σ → Prop) : Runs (Oom.write t) s () t P :=
  ⟨0, fun _ => ⟨fun _ => rfl, fun h => absurd h (Nat.not_lt_zero _)⟩⟩

theorem Runs.lift {r : Res α} {v : α} (h : r = .ok v) (s : σ) (P : σ → Prop) : Runs (Meth.lift r) s v s P :=
  ⟨0, fun _ => ⟨fun _ => by rw [h]; rfl, fun h => absurd h (Nat.not_lt_zero _)⟩⟩

theorem Runs.request {s : σ} {P : σ → Prop} (h : P s) : Runs Oom.request s () s P := by
  refine ⟨1, fun b => ⟨fun hb => ?_, fun hb => ⟨s, h, ?_⟩⟩⟩
  · obtain ⟨b, rfl⟩ : ∃ c, b = c + 1 := ⟨b - 1, by omega⟩
    rfl
  · obtain rfl : b = 0 := by omega
    rfl

theorem Runs.requests {s : σ} {P : σ → Prop} (h : P s) : ∀ n, Runs (Oom.requests n) s () s P
  | 0 => Runs.pure () s P
  | n + 1 => (Runs.request h).bind (Runs.requests h n)

end

/-! ## The members of `Int` -/

theorem runs_setSign (s : ℤ) (x : Num) (P : Num → Prop) : Runs (setSign s) x () ⟨⟨s, x.val.chunks⟩, x.cap⟩ P :=
  (Runs.read x P).bind (Runs.write _ x P)

theorem runs_setVal (v : BInt) (x : Num) (P : Num → Prop) : Runs (setVal v) x () ⟨v, x.cap⟩ P :=
  (Runs.read x P).bind (Runs.write _ x P)

theorem runs_room {grow : ℕ → ℕ → ℕ} {x : Num} {n : ℕ} {P : Num → Prop} (h : x.cap < n → P x) :
    Runs (room grow n) x () ⟨x.val, if n ≤ x.cap then x.cap else grow x.cap n⟩ P := by
  refine (Runs.read x P).bind ?_
  by_cases hn : n ≤ x.cap
  · simp only [hn, if_true]
    exact Runs.pure () x P
  · simp only [hn, if_false]
    exact (Runs.request (h (by omega))).bind (Runs.write _ x P)

theorem runs_copyOf {v : List ℤ} {x : Num} {P : Num → Prop} (h : P x) : Runs (copyOf v) x () x P := by
  unfold copyOf
  split
  · exact Runs.pure () x P
  · exact Runs.request h

theorem runs_copyAssign (y : BInt) (x : Num) (P : Num → Prop) (h : x.cap < y.chunks.length → P ⟨⟨y.sign, x.val.chunks⟩, x.cap⟩) :
    Runs (copyAssign y) x () ⟨y, max x.cap y.chunks.length⟩ P := by
  unfold copyAssign
  refine (runs_setSign y.sign x P).bind ?_
  have h1 := runs_room (grow := fun _ n => n) (x := ⟨⟨y.sign, x.val.chunks⟩, x.cap⟩) (n := y.chunks.length) (P := P) h
  refine h1.bind ?_
  have h2 := runs_setVal y ⟨⟨y.sign, x.val.chunks⟩, if y.chunks.length ≤ x.cap then x.cap else y.chunks.length⟩ P
  have e : (if y.chunks.length ≤ x.cap then x.cap else y.chunks.length) = max x.cap y.chunks.length := by split <;> omega
  simp only [e] at h2 ⊢
  exact h2

variable {grow : ℕ → ℕ → ℕ}

theorem enc_neg_length (y : ℤ) : (enc (-y)).chunks.length = (enc y).chunks.length := by rw [enc_neg_chunks]

theorem enc_add_length (x y : ℤ) : (enc (x + y)).chunks.length ≤ max (enc x).chunks.length (enc y).chunks.length + 1 := by
  rw [enc_length_le_iff]
  have h1 := enc_abs_lt x
  have h2 := enc_abs_lt y
  have h3 : (10 : ℤ) ^ (enc x).chunks.length ≤ 10 ^ max (enc x).chunks.length (enc y).chunks.length := pow_le_pow_right₀ (by norm_num) (le_max_left _ _)
  have h4 : (10 : ℤ) ^ (enc y).chunks.length ≤ 10 ^ max (enc x).chunks.length (enc y).chunks.length := pow_le_pow_right₀ (by norm_num) (le_max_right _ _)
  have h5 := abs_add_le x y
  have h6 := abs_nonneg (x + y)
  rw [pow_succ]
  linarith

theorem room_le (hg : Grows grow) (c n : ℕ) : n ≤ if n ≤ c then c else grow c n := by
  split
  · assumption
  · exact hg c n

/-- `+=` and `-=` for operands that are not zero. -/
theorem runs_addSame (hg : Grows grow) {x y : ℤ} (hx : x ≠ 0) (hs : x.sign = y.sign) (k c : ℕ) (P : Num → Prop) (hP : P ⟨enc x, c⟩) :
    ∃ c', (enc (x + y)).chunks.length ≤ c' ∧ Runs (addAssign grow .lenient false (k + 1) (enc y)) ⟨enc x, c⟩ () ⟨enc (x + y), c'⟩ P := by
  have hy : y ≠ 0 := by rintro rfl; exact hx (Int.sign_eq_zero_iff_zero.1 hs)
  unfold addAssign
  refine ⟨_, (enc_add_length x y).trans (room_le hg c _), (Runs.read _ P).bind ?_⟩
  rw [if_neg (by simp only [enc_sign_eq_zero]; tauto), if_neg (by simpa [enc_sign] using hs)]
  refine (runs_room fun _ => hP).bind ?_
  refine (Runs.lift (addSame_enc .lenient hx hs) _ P).bind ?_
  exact runs_setVal _ _ P

theorem enc_sub_length {x y : ℤ} (hx : x ≠ 0) (hs : x.sign = y.sign) {c : ℕ} (hc : (enc x).chunks.length ≤ c) :
    (enc (x - y)).chunks.length ≤ if |x| < |y| then (enc y).chunks.length else c := by
  have h : |x - y| ≤ max |x| |y| := by
    rcases sign_cases hx with h | h <;> rw [h] at hs
    · have h1 := Int.sign_eq_one_iff_pos.1 h
      have h2 := Int.sign_eq_one_iff_pos.1 hs.symm
      rw [abs_of_pos h1, abs_of_pos h2, abs_le]
      omega
    · have h1 := Int.sign_eq_neg_one_iff_neg.1 h
      have h2 := Int.sign_eq_neg_one_iff_neg.1 hs.symm
      rw [abs_of_neg h1, abs_of_neg h2, abs_le]
      omega
  split
  · exact enc_len_le (by omega)
  · exact (enc_len_le (by omega)).trans hc

theorem runs_subSame {x y : ℤ} (hx : x ≠ 0) (hs : x.sign = y.sign) (k c : ℕ) (P : Num → Prop) (hP : P ⟨enc x, c⟩) :
    Runs (subAssign grow .lenient (k + 1) (enc y)) ⟨enc x, c⟩ () ⟨enc (x - y), if |x| < |y| then (enc y).chunks.length else c⟩ P := by
  have hy : y ≠ 0 := by rintro rfl; exact hx (Int.sign_eq_zero_iff_zero.1 hs)
  unfold subAssign
  refine (Runs.read _ P).bind ?_
  rw [if_neg (by simp only [enc_sign_eq_zero]; tauto), if_neg (by simpa [enc_sign] using hs)]
  refine (runs_copyOf hP).bind ?_
  have h1 := absCmp_enc x y x.sign y.sign
  rw [← enc_eta, ← enc_eta] at h1
  refine (Runs.lift h1 _ P).bind ?_
  refine (Runs.lift (subSame_enc' .lenient hx hs (.inl rfl)) _ P).bind ?_
  have e : (Int.sign (|x| - |y|) = -1) ↔ |x| < |y| := by rw [Int.sign_eq_neg_one_iff_neg]; omega
  simp only [e]
  exact Runs.write _ _ P

/-- `x += y`: zero is left with the sign of `y`, any other `x` unchanged. -/
theorem runs_add (hg : Grows grow) (x y : ℤ) (k : ℕ) {c : ℕ} (hc : (enc x).chunks.length ≤ c) :
    ∃ c', (enc (x + y)).chunks.length ≤ c' ∧ Runs (addAssign grow .lenient false (k + 2) (enc y)) ⟨enc x, c⟩ () ⟨enc (x + y), c'⟩
      (fun t => if x = 0 then t = ⟨⟨y.sign, []⟩, c⟩ ∧ c < (enc y).chunks.length else t = ⟨enc x, c⟩) := by
  by_cases hx : x = 0
  · subst hx
    simp only [if_true, zero_add]
    unfold addAssign
    refine ⟨max c (enc y).chunks.length, le_max_right _ _, (Runs.read _ _).bind ?_⟩
    rw [if_pos (by simp [enc_zero]), if_pos (by simp [enc_zero])]
    refine runs_copyAssign (enc y) ⟨enc 0, c⟩ _ ?_
    intro h
    rw [enc_zero]
    exact ⟨rfl, h⟩
  · simp only [hx, if_false]
    by_cases hy : y = 0
    · subst hy
      unfold addAssign
      refine ⟨c, by rwa [add_zero], (Runs.read _ _).bind ?_⟩
      rw [if_pos (by simp [enc_zero]), if_neg (by rw [enc_sign_eq_zero]; exact hx), add_zero]
      exact Runs.pure () _ _
    by_cases hs : x.sign = y.sign
    · exact runs_addSame hg hx hs (k + 1) c _ rfl
    · unfold addAssign
      have hs' := sign_ne_iff hx hy hs
      have h := runs_subSame (grow := grow) hx hs' k c (fun t => t = ⟨enc x, c⟩) rfl
      have hl := enc_sub_length hx hs' hc
      rw [sub_neg_eq_add] at h hl
      refine ⟨_, hl, (Runs.read _ _).bind ?_⟩
      rw [if_neg (by simp only [enc_sign_eq_zero]; tauto), if_pos (by simpa [enc_sign] using hs), neg_enc]
      exact (runs_copyOf (P := fun t => t = ⟨enc x, c⟩) rfl).bind h

/-- `x -= y` leaves `x` unchanged. -/
theorem runs_sub (hg : Grows grow) (x y : ℤ) (k : ℕ) {c : ℕ} (hc : (enc x).chunks.length ≤ c) :
    ∃ c', (enc (x - y)).chunks.length ≤ c' ∧ Runs (subAssign grow .lenient (k + 2) (enc y)) ⟨enc x, c⟩ () ⟨enc (x - y), c'⟩ (fun t => t = ⟨enc x, c⟩) := by
  by_cases hx : x = 0
  · subst hx
    unfold subAssign
    refine ⟨(enc y).chunks.length, by rw [zero_sub, enc_neg_length], (Runs.read _ _).bind ?_⟩
    rw [if_pos (by simp [enc_zero]), if_pos (by simp [enc_zero]), neg_enc, zero_sub]
    exact (runs_copyOf (P := fun t => t = ⟨enc 0, c⟩) rfl).bind (Runs.write _ _ _)
  · by_cases hy : y = 0
    · subst hy
      unfold subAssign
      refine ⟨c, by rwa [sub_zero], (Runs.read _ _).bind ?_⟩
      rw [if_pos (by simp [enc_zero]), if_neg (by rw [enc_sign_eq_zero]; exact hx), sub_zero]
      exact Runs.pure () _ _
    by_cases hs : x.sign = y.sign
    · exact ⟨_, enc_sub_length hx hs hc, runs_subSame hx hs (k + 1) c _ rfl⟩
    · have h := runs_addSame hg hx (sign_ne_iff hx hy hs) k c (fun t => t = ⟨enc x, c⟩) rfl
      rw [← sub_eq_add_neg] at h
      obtain ⟨c', hl, h⟩ := h
      unfold subAssign
      refine ⟨c', hl, (Runs.read _ _).bind ?_⟩
      rw [if_neg (by simp only [enc_sign_eq_zero]; tauto), if_pos (by simpa [enc_sign] using hs), neg_enc]
      exact (runs_copyOf (P := fun t => t = ⟨enc x, c⟩) rfl).bind h

theorem ofInt_zero : BInt.ofInt 0 = .ok (enc 0) := ofInt_small (by norm_num) (by norm_num)

/-- `x *= y` leaves `x` unchanged or with the sign of the product. -/
theorem runs_mul (x y : ℤ) (c : ℕ) :
    ∃ c', (enc (x * y)).chunks.length ≤ c' ∧ Runs (mulAssign (enc y)) ⟨enc x, c⟩ () ⟨enc (x * y), c'⟩
      (fun t => t = ⟨enc x, c⟩ ∨ t = ⟨enc (y.sign * x), c⟩) := by
  unfold mulAssign
  by_cases h0 : x = 0 ∨ y = 0
  · have e : x * y = 0 := by rcases h0 with rfl | rfl <;> simp
    rw [e]
    refine ⟨0, by simp [enc_zero], (Runs.read _ _).bind ?_⟩
    rw [if_pos (by simpa only [enc_sign_eq_zero] using h0)]
    exact (Runs.lift ofInt_zero _ _).bind (Runs.write _ _ _)
  · refine ⟨max c (enc (x * y)).chunks.length, le_max_right _ _, (Runs.read _ _).bind ?_⟩
    rw [if_neg (by simpa only [enc_sign_eq_zero] using h0)]
    refine (Runs.request (.inl rfl)).bind ((Runs.request (.inl rfl)).bind ?_)
    refine (Runs.lift (mul_enc x y) _ _).bind ?_
    refine runs_copyAssign _ _ _ ?_
    intro _
    right
    have e : (⟨(enc (x * y)).sign, (enc x).chunks⟩ : BInt) = enc (y.sign * x) := by
      push Not at h0
      rw [enc_sign, enc_eta (y.sign * x), Int.sign_mul, Int.sign_mul, mul_comm, Int.sign_sign]
      congr 1
      rcases sign_cases h0.2 with e | e <;> rw [e]
      · rw [one_mul]
      · rw [neg_one_mul, enc_neg_chunks]
    rw [e]

theorem enc_one_length {s : ℤ} (hs : s = 1 ∨ s = -1) : (enc s).chunks.length = 1 := by
  rcases hs with rfl | rfl <;> decide +kernel

theorem runs_absInc (hg : Grows grow) {x : ℤ} (hx : x ≠ 0) (c : ℕ) :
    ∃ c', (enc (x + x.sign)).chunks.length ≤ c' ∧ Runs (absInc grow) ⟨enc x, c⟩ () ⟨enc (x + x.sign), c'⟩ (fun t => t = ⟨enc x, c⟩) := by
  unfold Oom.absInc
  have h1 := enc_add_length x x.sign
  have h2 := enc_one_length (sign_cases hx)
  have h3 := enc_length_pos hx
  refine ⟨_, le_trans (by omega) (room_le hg c ((enc x).chunks.length + 1)), (Runs.read _ _).bind ?_⟩
  refine (runs_room (P := fun t => t = ⟨enc x, c⟩) fun _ => rfl).bind ?_
  exact (Runs.lift (absInc_enc hx) _ _).bind (runs_setVal _ _ _)

theorem runs_absDec {x : ℤ} (hx : x ≠ 0) {c : ℕ} (hc : (enc x).chunks.length ≤ c) (P : Num → Prop) :
    (enc (x - x.sign)).chunks.length ≤ c ∧ Runs absDec ⟨enc x, c⟩ () ⟨enc (x - x.sign), c⟩ P := by
  unfold Oom.absDec
  refine ⟨(enc_len_le ?_).trans hc, (Runs.read _ _).bind ?_⟩
  · rcases sign_cases hx with h | h <;> rw [h]
    · have := Int.sign_eq_one_iff_pos.1 h
      rw [abs_of_pos this, abs_le]
      omega
    · have := Int.sign_eq_neg_one_iff_neg.1 h
      rw [abs_of_neg this, abs_le]
      omega
  · exact (Runs.lift (absDec_enc hx) _ _).bind (runs_setVal _ _ _)

theorem runs_fromZero (hg : Grows grow) {s : ℤ} (hs : s = 1 ∨ s = -1) (c : ℕ) :
    ∃ c', (enc s).chunks.length ≤ c' ∧ Runs (fromZero grow s) ⟨enc 0, c⟩ () ⟨enc s, c'⟩ (fun t => t = ⟨⟨s, []⟩, c⟩ ∧ c = 0) := by
  unfold fromZero
  have e : enc s = ⟨s, [] ++ [1]⟩ := by rcases hs with rfl | rfl <;> decide +kernel
  have h1 := enc_one_length hs
  refine ⟨_, le_trans (by omega) (room_le hg c 1), ?_⟩
  rw [enc_zero, e]
  refine (runs_setSign _ _ _).bind ((Runs.read _ _).bind ?_)
  refine (runs_room (fun h => ⟨rfl, ?_⟩)).bind (runs_setVal _ _ _)
  simpa using h

theorem runs_inc (hg : Grows grow) (x : ℤ) {c : ℕ} (hc : (enc x).chunks.length ≤ c) :
    ∃ c', (enc (x + 1)).chunks.length ≤ c' ∧ Runs (inc grow) ⟨enc x, c⟩ () ⟨enc (x + 1), c'⟩
      (fun t => if x = 0 then t = ⟨⟨1, []⟩, c⟩ ∧ c = 0 else t = ⟨enc x, c⟩) := by
  unfold inc
  by_cases hx : x = 0
  · subst hx
    simp only [if_true, zero_add]
    obtain ⟨c', hl, h⟩ := runs_fromZero hg (s := 1) (.inl rfl) c
    refine ⟨c', hl, (Runs.read _ _).bind ?_⟩
    rw [if_pos (by simp [enc_zero])]
    exact h
  · simp only [hx, if_false]
    rcases sign_cases hx with hs | hs
    · have h := runs_absInc hg hx c
      rw [hs] at h
      obtain ⟨c', hl, h⟩ := h
      refine ⟨c', hl, (Runs.read _ _).bind ?_⟩
      rw [if_neg (by rw [enc_sign, hs]; simp), if_pos (by rw [enc_sign, hs])]
      exact h
    · have h := runs_absDec hx hc (fun t => t = ⟨enc x, c⟩)
      rw [hs, sub_neg_eq_add] at h
      refine ⟨c, h.1, (Runs.read _ _).bind ?_⟩
      rw [if_neg (by rw [enc_sign, hs]; simp), if_neg (by rw [enc_sign, hs]; simp)]
      exact h.2

theorem runs_dec (hg : Grows grow) (x : ℤ) {c : ℕ} (hc : (enc x).chunks.length ≤ c) :
    ∃ c', (enc (x - 1)).chunks.length ≤ c' ∧ Runs (dec grow) ⟨enc x, c⟩ () ⟨enc (x - 1), c'⟩
      (fun t => if x = 0 then t = ⟨⟨-1, []⟩, c⟩ ∧ c = 0 else t = ⟨enc x, c⟩) := by
  unfold dec
  by_cases hx : x = 0
  · subst hx
    simp only [if_true, zero_sub]
    obtain ⟨c', hl, h⟩ := runs_fromZero hg (s := -1) (.inr rfl) c
    refine ⟨c', hl, (Runs.read _ _).bind ?_⟩
    rw [if_pos (by simp [enc_zero])]
    exact h
  · simp only [hx, if_false]
    rcases sign_cases hx with hs | hs
    · have h := runs_absDec hx hc (fun t => t = ⟨enc x, c⟩)
      rw [hs] at h
      refine ⟨c, h.1, (Runs.read _ _).bind ?_⟩
      rw [if_neg (by rw [enc_sign, hs]; simp), if_pos (by rw [enc_sign, hs])]
      exact h.2
    · have h := runs_absInc hg hx c
      rw [hs, ← sub_eq_add_neg] at h
      obtain ⟨c', hl, h⟩ := h
      refine ⟨c', hl, (Runs.read _ _).bind ?_⟩
      rw [if_neg (by rw [enc_sign, hs]; simp), if_neg (by rw [enc_sign, hs]; simp)]
      exact h

/-! ## Division -/

/-- What is left within the loops that subtract multiples of `u` from `X`. -/
def Part (X u : ℤ) (c : ℕ) (t : Num) : Prop := ∃ Z, 0 ≤ Z ∧ Z ≤ X ∧ u ∣ X - Z ∧ t = ⟨enc Z, c⟩

theorem Part.of {X u : ℤ} (hX : 0 ≤ X) (c : ℕ) : Part X u c ⟨enc X, c⟩ := ⟨X, hX, le_refl X, by simp, rfl⟩

theorem Part.trans {X Y u v : ℤ} {c : ℕ} (h : u ∣ v) (hY : Y ≤ X) (hd : u ∣ X - Y) {t : Num} (ht : Part Y v c t) : Part X u c t := by
  obtain ⟨Z, h0, h1, h2, e⟩ := ht
  refine ⟨Z, h0, h1.trans hY, ?_, e⟩
  have := dvd_add hd (h.trans h2)
  rwa [sub_add_sub_cancel] at this

theorem runs_subStep {k : ℕ} {X t : ℤ} (ht : 0 < t) (h : t ≤ X) (c : ℕ) (P : Num → Prop) (hP : P ⟨enc X, c⟩) :
    Runs (subAssign grow .lenient (k + 1) (enc t)) ⟨enc X, c⟩ () ⟨enc (X - t), c⟩ P := by
  have hs : X.sign = t.sign := by rw [Int.sign_eq_one_of_pos ht, Int.sign_eq_one_of_pos (by omega)]
  have := runs_subSame (grow := grow) (x := X) (y := t) (by omega) hs k c P hP
  rwa [if_neg (by rw [abs_of_pos ht, abs_of_pos (by omega)]; omega)] at this

theorem ediv_step {X t : ℤ} (ht : 0 < t) : X / t = (X - t) / t + 1 := by
  have := Int.add_mul_ediv_right (X - t) 1 (c := t) (by omega)
  rw [← this]; congr 1; ring

theorem emod_step (X t : ℤ) : X % t = (X - t) % t := by rw [Int.sub_emod_right]

theorem emod_le_self {X t : ℤ} (hX : 0 ≤ X) (ht : 0 < t) : X % t ≤ X := by
  have h1 := Int.mul_ediv_add_emod X t
  have h2 := mul_nonneg ht.le (Int.ediv_nonneg hX ht.le)
  omega

theorem runs_divWhile {k : ℕ} {t : ℤ} (ht : 0 < t) (i : ℕ) (c : ℕ) : ∀ (n : ℕ) (X : ℤ) (r : List ℤ) (hi : i < r.length),
    0 ≤ X → X / t < n → 0 ≤ r[i] → r[i] + X / t < 1000 →
    Runs (divWhile grow .lenient (k + 1) i (enc t) n r) ⟨enc X, c⟩ (r.set i (r[i] + X / t)) ⟨enc (X % t), c⟩ (Part X t c)
  | 0, X, r, hi, hX, hn, hr, hb => by
    have := Int.ediv_nonneg hX ht.le
    omega
  | n + 1, X, r, hi, hX, hn, hr, hb => by
    unfold divWhile
    refine (Runs.read _ _).bind ((Runs.lift (ge_enc X t) _ _).bind ?_)
    by_cases hge : X ≥ t
    · rw [if_pos (by simpa using hge)]
      have hq := ediv_step (X := X) ht
      have hq0 : 0 ≤ (X - t) / t := Int.ediv_nonneg (by omega) ht.le
      have e : (do vset r i (← iadd (← vget r i) 1) : Res (List ℤ)) = .ok (r.set i (r[i] + 1)) := by
        rw [vget_ok hi]
        simp only [Res.ok_bind, iadd]
        rw [ck_ok (by unfold IsInt INT_MIN INT_MAX; omega)]
        simp only [Res.ok_bind]
        rw [vset_ok hi]
      refine (Runs.lift e _ _).bind ?_
      refine (runs_subStep ht hge c _ (Part.of hX c)).bind ?_
      have ih := runs_divWhile (k := k) ht i c n (X - t) (r.set i (r[i] + 1)) (by simpa using hi) (by omega) (by push_cast at hn; omega)
        (by rw [List.getElem_set_self]; omega) (by rw [List.getElem_set_self]; omega)
      rw [List.getElem_set_self, List.set_set, ← emod_step] at ih
      have e2 : r[i] + 1 + (X - t) / t = r[i] + X / t := by omega
      rw [e2] at ih
      exact ih.mono fun s hs => hs.trans (dvd_refl t) (by omega) (by simp)
    · rw [if_neg (by simpa using hge)]
      have h1 : X / t = 0 := Int.ediv_eq_zero_of_lt hX (by omega)
      have h2 : X % t = X := Int.emod_eq_of_lt hX (by omega)
      rw [h1, h2, add_zero, List.set_getElem_self]
      exact Runs.pure _ _ _

theorem runs_modWhile {k : ℕ} {t : ℤ} (ht : 0 < t) (c : ℕ) : ∀ (n : ℕ) (X : ℤ), 0 ≤ X → X / t < n →
    Runs (modWhile grow .lenient (k + 1) (enc t) n) ⟨enc X, c⟩ () ⟨enc (X % t), c⟩ (Part X t c)
  | 0, X, hX, hn => by
    have := Int.ediv_nonneg hX ht.le
    omega
  | n + 1, X, hX, hn => by
    unfold modWhile
    refine (Runs.read _ _).bind ((Runs.lift (ge_enc X t) _ _).bind ?_)
    by_cases hge : X ≥ t
    · rw [if_pos (by simpa using hge)]
      have hq := ediv_step (X := X) ht
      refine (runs_subStep ht hge c _ (Part.of hX c)).bind ?_
      have ih := runs_modWhile (k := k) ht c n (X - t) (by omega) (by push_cast at hn; omega)
      rw [← emod_step] at ih
      exact ih.mono fun s hs => hs.trans (dvd_refl t) (by omega) (by simp)
    · rw [if_neg (by simpa using hge)]
      rw [Int.emod_eq_of_lt hX (by omega)]
      exact Runs.pure _ _ _

theorem shifted {y : ℤ} (hy : 0 < |y|) (j : ℕ) : (⟨1, List.replicate j 0 ++ (enc y).chunks⟩ : BInt) = enc (|y| * 10 ^ j) := by
  rw [← enc_shift hy, ← enc_chunks_pos]

theorem runs_divLoop {k : ℕ} (hk : 10 ≤ k) {y : ℤ} (hy : y ≠ 0) (c : ℕ) : ∀ (i : ℕ) (X : ℤ) (r : List ℤ), 0 ≤ X → X < |y| * 10 ^ i → i ≤ r.length → Digs r →
    (∀ (j : ℕ) (h : j < r.length), j < i → r[j] = 0) →
    ∃ r', Runs (divLoop grow .lenient (k + 1) i (List.replicate i 0 ++ (enc y).chunks) r) ⟨enc X, c⟩ r' ⟨enc (X % |y|), c⟩ (Part X |y| c) ∧
      r'.length = r.length ∧ Digs r' ∧ val r' = val r + X / |y|
  | 0, X, r, hX, hlt, hl, hd, h0 => by
    rw [pow_zero, mul_one] at hlt
    rw [Int.emod_eq_of_lt hX hlt, Int.ediv_eq_zero_of_lt hX hlt, add_zero]
    exact ⟨r, Runs.pure _ _ _, rfl, hd, rfl⟩
  | i + 1, X, r, hX, hlt, hl, hd, h0 => by
    have hyp : 0 < |y| := abs_pos.mpr hy
    have ht : 0 < |y| * 10 ^ i := by positivity
    have hir : i < r.length := by omega
    have hXlt : X < |y| * 10 ^ i * 10 := by rw [pow_succ] at hlt; linarith
    have hq : X / (|y| * 10 ^ i) < 10 := Int.ediv_lt_of_lt_mul ht (by linarith)
    have hq0 : 0 ≤ X / (|y| * 10 ^ i) := Int.ediv_nonneg hX ht.le
    have hri := h0 i hir (by omega)
    have hw := runs_divWhile (grow := grow) (k := k) ht i c (k + 1) X r hir hX (by push_cast; omega) (by omega) (by omega)
    rw [hri, zero_add] at hw
    obtain ⟨r', hr, hlen, hdig, hval⟩ := runs_divLoop hk hy c i (X % (|y| * 10 ^ i)) (r.set i (X / (|y| * 10 ^ i))) (Int.emod_nonneg _ (by omega))
      (Int.emod_lt_of_pos _ ht) (by simpa using hir.le) (by
        intro j hj
        simp only [List.length_set] at hj
        by_cases hij : j = i
        · subst hij
          rw [List.getElem_set_self]
          omega
        · rw [List.getElem_set_ne (by omega)]; exact hd j hj) (by
        intro j hj hji
        simp only [List.length_set] at hj
        rw [List.getElem_set_ne (by omega)]
        exact h0 j hj (by omega))
    have hmm : X % (|y| * 10 ^ i) % |y| = X % |y| := Int.emod_emod_of_dvd _ (Dvd.intro _ rfl)
    refine ⟨r', ?_, by rw [hlen, List.length_set], hdig, ?_⟩
    · unfold divLoop
      rw [List.replicate_succ, List.cons_append]
      refine (Runs.lift rfl _ _).bind ?_
      rw [shifted hyp]
      refine (hw.mono fun s hs => hs.trans (Dvd.intro _ rfl) (le_refl _) (by simp)).bind ?_
      rw [hmm] at hr
      refine hr.mono fun s hs => hs.trans (dvd_refl _) (emod_le_self hX ht) ?_
      have : X - X % (|y| * 10 ^ i) = |y| * 10 ^ i * (X / (|y| * 10 ^ i)) := by
        have := Int.mul_ediv_add_emod X (|y| * 10 ^ i); omega
      rw [this, mul_assoc]
      exact Dvd.intro _ rfl
    · rw [hval, val_set _ _ _ hir, hri]
      have h1 := Int.mul_ediv_add_emod X (|y| * 10 ^ i)
      have h2 : X / |y| = (X / (|y| * 10 ^ i)) * 10 ^ i + (X % (|y| * 10 ^ i)) / |y| := by
        conv_lhs => rw [← h1]
        rw [show |y| * 10 ^ i * (X / (|y| * 10 ^ i)) + X % (|y| * 10 ^ i) = X % (|y| * 10 ^ i) + X / (|y| * 10 ^ i) * 10 ^ i * |y| by ring,
          Int.add_mul_ediv_right _ _ (by omega), add_comm]
      rw [h2]
      ring

theorem runs_modLoop {k : ℕ} (hk : 10 ≤ k) {y : ℤ} (hy : y ≠ 0) (c : ℕ) : ∀ (i : ℕ) (X : ℤ), 0 ≤ X → X < |y| * 10 ^ i →
    Runs (modLoop grow .lenient (k + 1) i (List.replicate i 0 ++ (enc y).chunks)) ⟨enc X, c⟩ () ⟨enc (X % |y|), c⟩ (Part X |y| c)
  | 0, X, hX, hlt => by
    rw [pow_zero, mul_one] at hlt
    rw [Int.emod_eq_of_lt hX hlt]
    exact Runs.pure _ _ _
  | i + 1, X, hX, hlt => by
    have hyp : 0 < |y| := abs_pos.mpr hy
    have ht : 0 < |y| * 10 ^ i := by positivity
    have hXlt : X < |y| * 10 ^ i * 10 := by rw [pow_succ] at hlt; linarith
    have hq : X / (|y| * 10 ^ i) < 10 := Int.ediv_lt_of_lt_mul ht (by linarith)
    have hw := runs_modWhile (grow := grow) (k := k) ht c (k + 1) X hX (by push_cast; omega)
    have hr := runs_modLoop hk hy c i (X % (|y| * 10 ^ i)) (Int.emod_nonneg _ (by omega)) (Int.emod_lt_of_pos _ ht)
    have hmm : X % (|y| * 10 ^ i) % |y| = X % |y| := Int.emod_emod_of_dvd _ (Dvd.intro _ rfl)
    unfold modLoop
    rw [List.replicate_succ, List.cons_append]
    refine (Runs.lift rfl _ _).bind ?_
    rw [shifted hyp]
    refine (hw.mono fun s hs => hs.trans (Dvd.intro _ rfl) (le_refl _) (by simp)).bind ?_
    rw [hmm] at hr
    refine hr.mono fun s hs => hs.trans (dvd_refl _) (emod_le_self hX ht) ?_
    have : X - X % (|y| * 10 ^ i) = |y| * 10 ^ i * (X / (|y| * 10 ^ i)) := by
      have := Int.mul_ediv_add_emod X (|y| * 10 ^ i); omega
    rw [this, mul_assoc]
    exact Dvd.intro _ rfl

theorem Part.unfinished {x y : ℤ} {c : ℕ} {t : Num} (h : Part |x| |y| c t) : ∃ z, Unfinished x y z ∧ t = ⟨enc z, c⟩ := by
  obtain ⟨Z, h0, h1, h2, e⟩ := h
  exact ⟨Z, .inr ⟨h0, h1, h2⟩, e⟩

/-- `x /= y` leaves `x` or what was left to divide. -/
theorem runs_div {k : ℕ} (hk : 11 ≤ k) (x : ℤ) {y : ℤ} (hy : y ≠ 0) {c : ℕ} (hc : (enc x).chunks.length ≤ c) :
    ∃ c', (enc (x.tdiv y)).chunks.length ≤ c' ∧ Runs (divAssign grow .lenient k (enc y)) ⟨enc x, c⟩ () ⟨enc (x.tdiv y), c'⟩
      (fun t => ∃ z, Unfinished x y z ∧ t = ⟨enc z, c⟩) := by
  obtain ⟨k, rfl⟩ : ∃ j, k = j + 1 := ⟨k - 1, by omega⟩
  have hz : ((enc y).sign == 0) = false := by
    rw [beq_eq_false_iff_ne, Ne, enc_sign_eq_zero]; exact hy
  have hyp : 0 < |y| := abs_pos.mpr hy
  unfold divAssign
  by_cases hlen : (enc x).chunks.length < (enc y).chunks.length
  · have e : x.tdiv y = 0 := by
      have := enc_len_lt hlen
      rw [← Int.natAbs_eq_zero, Int.natAbs_tdiv]; exact Nat.div_eq_of_lt (by zify; exact this)
    rw [e]
    refine ⟨0, by simp [enc_zero], (Runs.read _ _).bind ?_⟩
    rw [hz]
    refine (Runs.lift checkZero_false _ _).bind ((Runs.lift (digits_enc x) _ _).bind ((Runs.lift (digits_enc y) _ _).bind ?_))
    rw [if_pos (by exact_mod_cast hlen)]
    exact (Runs.lift ofInt_zero _ _).bind (Runs.write _ _ _)
  · have hx : x ≠ 0 := by
      rintro rfl
      apply hlen
      have := enc_length_pos hy
      simpa [enc_zero] using this
    have hU : (fun t => ∃ z, Unfinished x y z ∧ t = (⟨enc z, c⟩ : Num)) ⟨enc x, c⟩ := ⟨x, .inl rfl, rfl⟩
    obtain ⟨r', hr, hl, hd, hv⟩ := runs_divLoop (grow := grow) (k := k) (by omega) hy c ((enc x).chunks.length - (enc y).chunks.length + 1) |x|
      (List.replicate ((enc x).chunks.length - (enc y).chunks.length + 1) 0) (abs_nonneg x) (size_bound hy (by omega)) (by simp) (digs_replicate_zero _)
      (by intro j h _; simp)
    rw [List.length_replicate] at hl
    have hq : BInt.trim { sign := if (enc x).sign = (enc y).sign then 1 else -1, chunks := r' } = enc (x.tdiv y) := by
      rw [trim_enc hd (by split <;> simp), hv, ← tdiv_eq_sign_mul hx hy]
      simp [enc_sign]
    have hqlen : (enc (x.tdiv y)).chunks.length ≤ (enc x).chunks.length := by
      apply enc_len_le
      rw [← Int.natCast_natAbs, ← Int.natCast_natAbs, Int.natAbs_tdiv]
      exact_mod_cast Nat.div_le_self _ _
    refine ⟨max c (enc (x.tdiv y)).chunks.length, le_max_right _ _, (Runs.read _ _).bind ?_⟩
    rw [hz]
    refine (Runs.lift checkZero_false _ _).bind ((Runs.lift (digits_enc x) _ _).bind ((Runs.lift (digits_enc y) _ _).bind ?_))
    rw [if_neg (by exact_mod_cast hlen)]
    refine (Runs.request (P := fun t => ∃ z, Unfinished x y z ∧ t = (⟨enc z, c⟩ : Num)) hU).bind ((Runs.request (P := fun t => ∃ z, Unfinished x y z ∧ t = (⟨enc z, c⟩ : Num)) hU).bind ((Runs.request (P := fun t => ∃ z, Unfinished x y z ∧ t = (⟨enc z, c⟩ : Num)) hU).bind ?_))
    refine (runs_setSign 1 _ _).bind ?_
    have e1 : (⟨1, (enc x).chunks⟩ : BInt) = enc |x| := enc_with_sign_one hx
    simp only [e1]
    refine (hr.mono fun t ht => ht.unfinished).bind ?_
    rw [hq]
    refine runs_copyAssign _ _ _ ?_
    intro h
    simp only at h
    omega

/-- `x %= y`. -/
theorem runs_mod {k : ℕ} (hk : 11 ≤ k) (x : ℤ) {y : ℤ} (hy : y ≠ 0) {c : ℕ} (hc : (enc x).chunks.length ≤ c) :
    (enc (codeMod x y)).chunks.length ≤ c ∧ Runs (modAssign grow .lenient k (enc y)) ⟨enc x, c⟩ () ⟨enc (codeMod x y), c⟩
      (fun t => ∃ z, 0 ≤ z ∧ z ≤ |x| ∧ |y| ∣ |x| - z ∧ t = ⟨enc z, c⟩) := by
  obtain ⟨k, rfl⟩ : ∃ j, k = j + 1 := ⟨k - 1, by omega⟩
  have hz : ((enc y).sign == 0) = false := by
    rw [beq_eq_false_iff_ne, Ne, enc_sign_eq_zero]; exact hy
  unfold modAssign codeMod
  by_cases hlen : (enc x).chunks.length < (enc y).chunks.length
  · refine ⟨by rwa [if_pos hlen], (Runs.read _ _).bind ?_⟩
    rw [hz]
    refine (Runs.lift checkZero_false _ _).bind ((Runs.lift (digits_enc x) _ _).bind ((Runs.lift (digits_enc y) _ _).bind ?_))
    rw [if_pos (by exact_mod_cast hlen), if_pos hlen]
    exact Runs.pure _ _ _
  · have hx : x ≠ 0 := by
      rintro rfl
      apply hlen
      have := enc_length_pos hy
      simpa [enc_zero] using this
    have e1 : (⟨1, (enc x).chunks⟩ : BInt) = enc |x| := enc_with_sign_one hx
    have hr := runs_modLoop (grow := grow) (k := k) (by omega) hy c ((enc x).chunks.length - (enc y).chunks.length + 1) |x| (abs_nonneg x) (size_bound hy (by omega))
    refine ⟨?_, (Runs.read _ _).bind ?_⟩
    · rw [if_neg hlen]
      refine (enc_len_le ?_).trans hc
      rw [abs_of_nonneg (Int.emod_nonneg _ (abs_ne_zero.2 hy))]
      exact emod_le_self (abs_nonneg x) (abs_pos.2 hy)
    rw [hz]
    refine (Runs.lift checkZero_false _ _).bind ((Runs.lift (digits_enc x) _ _).bind ((Runs.lift (digits_enc y) _ _).bind ?_))
    rw [if_neg (by exact_mod_cast hlen), if_neg hlen]
    refine (runs_setSign 1 _ _).bind ?_
    simp only [e1]
    have hU : Part |x| |y| c ⟨enc |x|, c⟩ := Part.of (abs_nonneg x) c
    refine (Runs.request hU).bind ((Runs.request hU).bind ?_)
    refine hr.bind ((Runs.read _ _).bind ?_)
    have := runs_setVal (BInt.trim (enc (|x| % |y|))) ⟨enc (|x| % |y|), c⟩ (Part |x| |y| c)
    rw [trim_enc_nonneg (Int.emod_nonneg _ (abs_ne_zero.2 hy))] at this ⊢
    exact this

/-! ## Containers -/

section
variable {α : Type}

theorem Runs.keeps {σ β : Type} {m : Meth (σ × ℕ) β} {s s' : σ} {v : β} (h : Runs m s v s' (fun t => t = s)) : Keeps m s := by
  obtain ⟨N, h⟩ := h
  intro b t b' e
  rcases Nat.lt_or_ge b N with hb | hb
  · obtain ⟨t', rfl, e'⟩ := (h b).2 hb
    rw [e', Prod.mk.injEq, Prod.mk.injEq] at e
    exact e.2.1.symm
  · rw [(h b).1 hb, Prod.mk.injEq] at e
    exact absurd e.1 (by simp)

theorem runs_commit {σ β : Type} {n : ℕ} {f : Meth σ β} {s t : σ} {r : β} (h : f s = (.ok r, t)) : Runs (commit n f) s r t (fun u => u = s) := by
  unfold commit
  refine (Runs.read _ _).bind ?_
  rw [h]
  exact (Runs.requests (P := fun u => u = s) rfl n).bind ((Runs.write _ _ _).bind (Runs.pure _ _ _))

theorem runs_extendOnce (n : α → ℕ) : ∀ (xs l : List α), Runs (extendOnce n xs) l () (l ++ xs) (fun t => ∃ a x b, xs = a ++ x :: b ∧ t = l ++ a)
  | [], l => by
    rw [List.append_nil]
    exact Runs.pure _ _ _
  | x :: xs, l => by
    have ih := runs_extendOnce n xs (l ++ [x])
    rw [List.append_assoc, List.singleton_append] at ih
    refine (Runs.read _ _).bind ((Runs.requests ⟨[], x, xs, rfl, by simp⟩ _).bind ((Runs.write _ _ _).bind (ih.mono ?_)))
    rintro t ⟨a, y, b, rfl, rfl⟩
    exact ⟨x :: a, y, b, rfl, by simp⟩

theorem runs_assignAt {c : ℕ} {half : α → α → α} {res : ℕ} {x old : α} {v : List α} {P : List α → Prop} (h : v[res]? = some old) (hP : P (v.set res (half old x))) :
    Runs (assignAt c half res x) v () (v.set res x) P := by
  refine ⟨c, fun b => ⟨fun hb => ?_, fun hb => ⟨_, hP, ?_⟩⟩⟩
  · unfold assignAt
    simp only [h]
    rw [if_neg (by omega)]
  · unfold assignAt
    simp only [h]
    rw [if_pos hb]

/-- The state of the loop: `a` has been read, `k` elements of it were kept, `b` is still to come. -/
theorem runs_copyIf (c : ℕ) (half : α → α → α) (p : α → Bool) (l : List α) : ∀ (b a : List α), l = a ++ b →
    Runs (copyIf c half p b.length a.length (a.filter p).length) (a.filter p ++ l.drop (a.filter p).length) (l.filter p).length
      (l.filter p ++ l.drop (l.filter p).length) (Filtering half p l)
  | [], a, h => by
    rw [List.append_nil] at h
    subst h
    exact Runs.pure _ _ _
  | x :: b, a, h => by
    have hle : (a.filter p).length ≤ a.length := List.length_filter_le _ _
    have hx : (a.filter p ++ l.drop (a.filter p).length)[a.length]? = some x := by
      rw [List.getElem?_append_right hle, List.getElem?_drop, Nat.add_sub_cancel' hle, h, List.getElem?_append_right (le_refl _), Nat.sub_self]
      rfl
    have hv : vget (a.filter p ++ l.drop (a.filter p).length) a.length = .ok x := by
      unfold vget
      rw [hx]
    have h' : l = (a ++ [x]) ++ b := by rw [h]; simp
    have ih := runs_copyIf c half p l b (a ++ [x]) h'
    unfold copyIf
    refine (Runs.read _ _).bind ((Runs.lift hv _ _).bind ?_)
    rw [List.length_append, List.length_singleton] at ih
    by_cases hp : p x = true
    · rw [if_pos hp]
      rw [List.filter_append, List.filter_cons_of_pos hp, List.filter_nil, List.length_append, List.length_singleton] at ih
      by_cases hres : (a.filter p).length = a.length
      · rw [if_pos hres]
        refine (Runs.pure _ _ _).bind ?_
        have e : l.drop (a.filter p).length = x :: l.drop ((a.filter p).length + 1) := by
          rw [hres, h, List.drop_left, ← List.drop_drop, List.drop_left]
          rfl
        rw [e]
        rw [List.append_assoc, List.singleton_append] at ih
        exact ih
      · rw [if_neg hres]
        have hlt : (a.filter p).length < l.length := by rw [h]; simp; omega
        have e : l.drop (a.filter p).length = l[(a.filter p).length] :: l.drop ((a.filter p).length + 1) := List.drop_eq_getElem_cons hlt
        have hold : (a.filter p ++ l.drop (a.filter p).length)[(a.filter p).length]? = some l[(a.filter p).length] := by
          rw [List.getElem?_append_right (le_refl _), Nat.sub_self, e]
          rfl
        have hset : ∀ y, (a.filter p ++ l.drop (a.filter p).length).set (a.filter p).length y = a.filter p ++ y :: l.drop ((a.filter p).length + 1) := by
          intro y
          rw [List.set_append_right _ _ (le_refl _), Nat.sub_self, e]
          rfl
        refine (runs_assignAt hold ?_).bind ?_
        · exact ⟨a, x, b, _, _, h, hp, e, by omega, hset _⟩
        · rw [hset]
          rw [List.append_assoc, List.singleton_append] at ih
          exact ih
    · rw [if_neg hp]
      rw [List.filter_append, List.filter_cons_of_neg hp, List.filter_nil, List.append_nil] at ih
      exact ih

theorem runs_filter (c : ℕ) (half : α → α → α) (p : α → Bool) (l : List α) :
    Runs (Oom.filter c half p) l () (l.filter p) (Filtering half p l) := by
  unfold Oom.filter
  have h := runs_copyIf c half p l l [] rfl
  simp only [List.filter_nil, List.length_nil, List.drop_zero, List.nil_append] at h
  refine (Runs.read _ _).bind (h.bind ((Runs.read _ _).bind ?_))
  have hle : (l.filter p).length ≤ l.length := List.length_filter_le _ _
  have e : Lst.stdErase (l.filter p ++ l.drop (l.filter p).length) (l.filter p).length (l.filter p ++ l.drop (l.filter p).length).length = .ok (l.filter p) := by
    unfold Lst.stdErase
    rw [if_pos ⟨by simp, le_refl _⟩, List.take_left, List.drop_length, List.append_nil]
  exact (Runs.lift e _ _).bind (Runs.write _ _ _)

theorem runs_treeInsert (c : ℕ) (lt : α → α → Bool) (x : α) {s : List α} {P : List α → Prop} (hP : P s) :
    Runs (treeInsert c lt x) s (Tree.insert lt x s).2 (Tree.insert lt x s).1 P := by
  unfold treeInsert
  refine (Runs.read _ _).bind ?_
  by_cases h : (Tree.insert lt x s).2 = true
  · simp only [h, if_true]
    exact (Runs.requests hP _).bind ((Runs.write _ _ _).bind (Runs.pure _ _ _))
  · simp only [h]
    exact (Runs.write _ _ _).bind (Runs.pure _ _ _)

theorem runs_treeExtend (c : ℕ) (lt : α → α → Bool) : ∀ (xs s : List α),
    Runs (treeExtend c lt xs) s () (Tree.insertAll lt xs s) (fun t => ∃ a x b, xs = a ++ x :: b ∧ t = Tree.insertAll lt a s)
  | [], s => Runs.pure _ _ _
  | x :: xs, s => by
    unfold treeExtend
    refine (runs_treeInsert c lt x ⟨[], x, xs, rfl, rfl⟩).bind ?_
    refine (runs_treeExtend c lt xs (Tree.insert lt x s).1).mono ?_
    rintro t ⟨a, y, b, rfl, rfl⟩
    exact ⟨x :: a, y, b, rfl, rfl⟩

theorem runs_setAdd (c : ℕ) {lt : α → α → Bool} {e : α} {s t : List α} {r : Bool} (h : PSet.add lt e s = (.ok r, t)) :
    Runs (setAdd c lt e) s r t (fun u => u = s) := by
  unfold setAdd
  refine (Runs.read _ _).bind ?_
  unfold PSet.add at h
  rw [Meth.get_bind] at h
  cases hc : checkFull (PSet.size s) INT_MAX with
  | ok u =>
    rw [hc, Meth.lift_ok_bind, Meth.set_bind, Meth.pure_run, Prod.mk.injEq, Res.ok.injEq] at h
    obtain ⟨rfl, rfl⟩ := h
    exact (Runs.lift rfl _ _).bind (runs_treeInsert c lt e rfl)
  | throw m => rw [hc, Meth.lift_throw_bind] at h; simp at h
  | ub u => rw [hc, Meth.lift_ub_bind] at h; simp at h
  | fuel => rw [hc] at h; exact absurd (congrArg Prod.fst h) (by intro h'; cases h')

theorem runs_setPop (c : ℕ) {s t : List α} {x : α} (h : PSet.pop s = (.ok x, t)) : Runs (setPop c) s x t (fun u => u = t) := by
  unfold setPop
  refine (Runs.read _ _).bind ?_
  unfold PSet.pop at h
  rw [Meth.get_bind] at h
  cases hc : checkEmpty (PSet.size s) with
  | ok u =>
    rw [hc, Meth.lift_ok_bind] at h
    cases hb : PSet.stdBegin s with
    | ok y =>
      rw [hb, Meth.lift_ok_bind, Meth.set_bind, Meth.pure_run, Prod.mk.injEq, Res.ok.injEq] at h
      obtain ⟨rfl, rfl⟩ := h
      exact (Runs.lift rfl _ _).bind ((Runs.lift rfl _ _).bind ((Runs.write _ _ _).bind ((Runs.requests (P := fun u => u = s.drop 1) rfl c).bind (Runs.pure _ _ _))))
    | throw m => rw [hb, Meth.lift_throw_bind] at h; simp at h
    | ub u => rw [hb, Meth.lift_ub_bind] at h; simp at h
    | fuel => rw [hb] at h; exact absurd (congrArg Prod.fst h) (by intro h'; cases h')
  | throw m => rw [hc, Meth.lift_throw_bind] at h; simp at h
  | ub u => rw [hc, Meth.lift_ub_bind] at h; simp at h
  | fuel => rw [hc] at h; exact absurd (congrArg Prod.fst h) (by intro h'; cases h')

end

section
variable {K V : Type}

theorem runs_dictAdd (c ck : ℕ) {lt : K → K → Bool} {k : K} {v : V} {d t : List (K × V)} {r : Bool} (h : PDict.add lt k v d = (.ok r, t)) :
    Runs (dictAdd c ck lt k v) d r t (fun u => u = d) := by
  unfold dictAdd
  refine (Runs.read _ _).bind ?_
  unfold PDict.add at h
  rw [Meth.get_bind] at h
  cases hc : checkFull (PDict.size d) INT_MAX with
  | ok u =>
    rw [hc, Meth.lift_ok_bind, Meth.set_bind, Meth.pure_run, Prod.mk.injEq, Res.ok.injEq] at h
    obtain ⟨rfl, rfl⟩ := h
    exact (Runs.lift rfl _ _).bind ((Runs.requests (P := fun u => u = d) rfl c).bind (runs_treeInsert ck _ _ rfl))
  | throw m => rw [hc, Meth.lift_throw_bind] at h; simp at h
  | ub u => rw [hc, Meth.lift_ub_bind] at h; simp at h
  | fuel => rw [hc] at h; exact absurd (congrArg Prod.fst h) (by intro h'; cases h')

theorem runs_dictPop (c : ℕ) {d t : List (K × V)} {x : K × V} (h : PDict.pop d = (.ok x, t)) : Runs (dictPop c) d x t (fun u => u = t) := by
  unfold dictPop
  refine (Runs.read _ _).bind ?_
  unfold PDict.pop at h
  rw [Meth.get_bind] at h
  cases hc : checkEmpty (PDict.size d) with
  | ok u =>
    rw [hc, Meth.lift_ok_bind] at h
    cases hb : PSet.stdBegin d with
    | ok y =>
      rw [hb, Meth.lift_ok_bind, Meth.set_bind, Meth.pure_run, Prod.mk.injEq, Res.ok.injEq] at h
      obtain ⟨rfl, rfl⟩ := h
      exact (Runs.lift rfl _ _).bind ((Runs.lift rfl _ _).bind ((Runs.write _ _ _).bind ((Runs.requests (P := fun u => u = d.drop 1) rfl c).bind (Runs.pure _ _ _))))
    | throw m => rw [hb, Meth.lift_throw_bind] at h; simp at h
    | ub u => rw [hb, Meth.lift_ub_bind] at h; simp at h
    | fuel => rw [hb] at h; exact absurd (congrArg Prod.fst h) (by intro h'; cases h')
  | throw m => rw [hc, Meth.lift_throw_bind] at h; simp at h
  | ub u => rw [hc, Meth.lift_ub_bind] at h; simp at h
  | fuel => rw [hc] at h; exact absurd (congrArg Prod.fst h) (by intro h'; cases h')

end

end Pyincpp
