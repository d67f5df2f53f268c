import Verif.Proof.IntAnyAdd
import Verif.Proof.IntMul
import Verif.Proof.IntMisc

/-! # Counting with `int`: `x += x`, multiplication, `abs_inc`, `abs_dec` -/

namespace Pyincpp

/-- A counting loop that fails at index `m`. -/
theorem countUp_ub_at {σ : Type} {body : ℕ → σ → Res σ} (Inv : ℕ → σ → Prop) {e : UB} {m : ℕ} (hm : m ≤ maxLen)
    (hM : ∀ s, Inv m s → body m s = .ub e) : ∀ (n i : ℕ) (s : σ), i ≤ m → m < i + n → Inv i s →
    (∀ j s, i ≤ j → j < m → Inv j s → ∃ s', body j s = .ok s' ∧ Inv (j + 1) s') →
    countUp body i n s = .ub e
  | 0, i, s, h1, h2, _, _ => by omega
  | n + 1, i, s, h1, h2, hI, hb => by
    simp only [countUp]
    by_cases hi : i = m
    · subst hi
      rw [hM s hI]; rfl
    · obtain ⟨s', e', hI'⟩ := hb i s le_rfl (by omega) hI
      rw [e']
      simp only [Res.ok_bind, iadd_count (show i + 1 ≤ maxLen by omega)]
      exact countUp_ub_at Inv hm hM n (i + 1) s' (by omega) (by omega) hI' (fun j s h1 h2 => hb j s (by omega) h2)

/-! ## `x += x` -/

theorem big_addSame_self (mem : Mem) (x : ℤ) :
    Big.addSame mem true (enc x) (enc x) =
      if numDigits x < maxLen then BInt.addSame mem true (enc x) (enc x) else .ub .overflow := by
  rw [numDigits_eq]
  unfold Big.addSame BInt.addSame
  simp only [if_true]
  have hX := enc_digs x
  generalize (enc x).chunks = X at *
  have hRl : (vresize X (max X.length X.length + 1)).length = X.length + 1 := by rw [vresize_length]; simp
  have hRd : Digs (vresize X (max X.length X.length + 1)) := vresize_digs hX _
  rw [hRl]
  generalize vresize X (max X.length X.length + 1) = R at *
  have hbody : ∀ (j : ℕ) (a : List ℤ), j + 1 ≤ maxLen → (do
      let tmp ← iadd (← vget a j) (← vget a j)
      let a ← vset a j (tmp.tmod 10)
      let j ← iadd j 1
      vaddAt mem a j.toNat (tmp.tdiv 10)) = (do
      let tmp ← iadd (← vget a j) (← vget a j)
      let a ← vset a j (tmp.tmod 10)
      vaddAt mem a (j + 1) (tmp.tdiv 10)) := by
    intro j a hj
    simp only [iadd_count hj, Res.ok_bind, Int.toNat_natCast]
  by_cases hl : X.length < maxLen
  · rw [if_pos hl, countUp_eq (body' := fun j a => do
      let tmp ← iadd (← vget a j) (← vget a j)
      let a ← vset a j (tmp.tmod 10)
      vaddAt mem a (j + 1) (tmp.tdiv 10)) _ _ _ (by omega) (fun j a _ hj => hbody j a (by omega))]
    have h0 : ¬ (((X.length + 1 : ℕ) : ℤ) < 0) := by omega
    simp only [wrap32_count (show X.length + 1 ≤ maxLen by omega), if_neg h0, Int.toNat_natCast]
    unfold forRange
    rw [Nat.sub_zero]
    cases hr : forUp (fun j a => do
      let tmp ← iadd (← vget a j) (← vget a j)
      let a ← vset a j (tmp.tmod 10)
      vaddAt mem a (j + 1) (tmp.tdiv 10)) 0 (X.length + 1) R with
    | ok a =>
      have hal := forUp_len (by
        intro j a a' h
        simp only [Res.bind_eq_ok] at h
        obtain ⟨_, -, _, -, _, -, b, h1, h2⟩ := h
        rw [vaddAt_len h2, vset_len h1]) _ _ _ _ hr
      simp only [Res.ok_bind]
      rw [show a.length - (X.length + 1) = 0 by omega]
      simp only [countUpWhile, forUpWhile]
    | throw m => simp only [Res.throw_bind]
    | ub m => simp only [Res.ub_bind]
    | fuel => simp only [Res.fuel_bind]
  · rw [if_neg hl]
    have hin : ∀ (a : List ℤ) (j : ℕ) (hj : j < a.length), (∀ (i : ℕ) (h : i < a.length), 0 ≤ a[i] ∧ a[i] ≤ 11) →
        iadd a[j] a[j] = .ok (2 * a[j]) ∧ (2 * a[j]).tmod 10 = 2 * a[j] % 10 ∧ (2 * a[j]).tdiv 10 = 2 * a[j] / 10 := by
      intro a j hj h
      have := h j hj
      refine ⟨?_, Int.tmod_eq_emod_of_nonneg (by omega), Int.tdiv_eq_ediv_of_nonneg (by omega)⟩
      unfold iadd
      rw [ck_ok (isInt_of_bound (by omega) (by omega)), two_mul]
    rw [countUp_ub (e := .overflow) (fun (i : ℕ) (a : List ℤ) => a.length = X.length + 1 ∧
      ∀ (j : ℕ) (h : j < a.length), 0 ≤ a[j] ∧ a[j] ≤ 11 ∧ (i < j → a[j] ≤ 9)) ?_ _ _ _ (Nat.zero_le _) (by omega)
      ⟨hRl, fun j h => ⟨(hRd j h).1, by have := (hRd j h).2; omega, fun _ => (hRd j h).2⟩⟩ ?_]
    · rfl
    · rintro a ⟨l, c⟩
      have h1 : maxLen < a.length := by omega
      obtain ⟨e1, -, -⟩ := hin a maxLen h1 (fun i h => ⟨(c i h).1, (c i h).2.1⟩)
      simp only [vget_ok h1, Res.ok_bind, e1, vset_ok h1, iadd_count_ub (le_refl maxLen), Res.ub_bind]
    · rintro j a hj hj' ⟨l, c⟩
      have h1 : j < a.length := by omega
      have h2 : j + 1 < a.length := by omega
      obtain ⟨e1, e2, e3⟩ := hin a j h1 (fun i h => ⟨(c i h).1, (c i h).2.1⟩)
      have b1 := c j h1
      have b2 := c (j + 1) h2
      have b3 := b2.2.2 (by omega)
      refine ⟨(a.set j (2 * a[j] % 10)).set (j + 1) (a[j + 1] + 2 * a[j] / 10), ?_, by simpa using l, ?_⟩
      · rw [hbody j a (by omega)]
        simp only [vget_ok h1, Res.ok_bind, e1, e2, e3, vset_ok h1]
        have h2' : j + 1 < (a.set j (2 * a[j] % 10)).length := by simpa using h2
        have e4 : (a.set j (2 * a[j] % 10))[j + 1] = a[j + 1] := List.getElem_set_ne (by omega) _
        rw [vaddAt_ok h2' (by rw [e4]; exact isInt_of_bound (by omega) (by omega)), e4]
      · intro i hi
        simp only [List.length_set] at hi
        by_cases hi1 : i = j + 1
        · subst hi1
          rw [List.getElem_set_self]
          omega
        · rw [List.getElem_set_ne (by omega)]
          by_cases hi0 : i = j
          · subst hi0
            rw [List.getElem_set_self]
            omega
          · rw [List.getElem_set_ne (by omega)]
            have := c i hi
            exact ⟨this.1, this.2.1, fun h => this.2.2 (by omega)⟩

/-! ## multiplication -/

/-- The first `n` columns of a row of the multiplication. -/
theorem mul_row_part {A B : List ℤ} (hA : Digs A) (hB : Digs B) {i : ℕ} (hi : i < A.length) {c : List ℤ}
    (l : c.length = A.length + B.length) (d : Digs c) {n : ℕ} (hn : n ≤ B.length) :
    ∃ c', forUp (fun j c => do
          let p ← imul (← vget A i) (← vget B j)
          let c ← vset c (i + j) (← iadd (← vget c (i + j)) p)
          let cij ← vget c (i + j)
          let c ← vset c (i + j + 1) (← iadd (← vget c (i + j + 1)) (cij.tdiv 10))
          vset c (i + j) (cij.tmod 10)) 0 n c = .ok c' ∧ c'.length = A.length + B.length ∧ Wide (i + n) c' ∧
      val c' = val c + A[i] * 10 ^ i * val (B.take n) := by
  have ha := hA i hi
  have := forUp_inv
    (body := fun j c => do
      let p ← imul (← vget A i) (← vget B j)
      let c ← vset c (i + j) (← iadd (← vget c (i + j)) p)
      let cij ← vget c (i + j)
      let c ← vset c (i + j + 1) (← iadd (← vget c (i + j + 1)) (cij.tdiv 10))
      vset c (i + j) (cij.tmod 10))
    (fun j c' => c'.length = A.length + B.length ∧ Wide (i + j) c' ∧
      val c' = val c + A[i] * 10 ^ i * val (B.take j))
    n 0 c
    ⟨l, fun j hj => ⟨(d j hj).1, Or.inl (d j hj).2⟩, by simp⟩
    (by
      rintro j c _ hj ⟨l, w, v⟩
      have hj' : j < B.length := by omega
      have hb := hB j hj'
      have hq : 0 ≤ A[i] * B[j] ∧ A[i] * B[j] ≤ 81 := ⟨by nlinarith, by nlinarith⟩
      obtain ⟨c', e, l', w', v'⟩ := mul_step (p := i + j) w (by omega) hq
      refine ⟨c', ?_, by omega, w', ?_⟩
      · rw [← e]
        simp only [vget_ok hi, vget_ok hj', Res.ok_bind, imul]
        rw [ck_ok (isInt_of_bound (by omega) (by omega))]
        rfl
      · rw [v', v, val_take_succ _ _ hj', pow_add]; ring)
  simpa using this

/-- A row of the multiplication. -/
theorem mul_row {A B : List ℤ} (hA : Digs A) (hB : Digs B) {i : ℕ} (hi : i < A.length) {c : List ℤ}
    (l : c.length = A.length + B.length) (d : Digs c) (v : val c = val (A.take i) * val B) :
    ∃ c', forUp (fun j c => do
          let p ← imul (← vget A i) (← vget B j)
          let c ← vset c (i + j) (← iadd (← vget c (i + j)) p)
          let cij ← vget c (i + j)
          let c ← vset c (i + j + 1) (← iadd (← vget c (i + j + 1)) (cij.tdiv 10))
          vset c (i + j) (cij.tmod 10)) 0 B.length c = .ok c' ∧ c'.length = A.length + B.length ∧ Digs c' ∧
      val c' = val (A.take (i + 1)) * val B := by
  obtain ⟨c', e', l', w', v'⟩ := mul_row_part hA hB hi l d le_rfl
  rw [List.take_length] at v'
  have hv : val c' = val (A.take (i + 1)) * val B := by
    rw [v', v, val_take_succ _ _ hi]; ring
  refine ⟨c', e', l', ?_, hv⟩
  intro j hj
  obtain ⟨k0, k9⟩ := w' j hj
  refine ⟨k0, ?_⟩
  rcases k9 with h | ⟨rfl, h⟩
  · exact h
  · have hge := val_ge_digit (fun j hj => (w' j hj).1) _ hj
    have b1 := val_lt (digs_take hA (i + 1))
    rw [show (A.take (i + 1)).length = i + 1 by simp; omega] at b1
    have b2 := val_lt hB
    have b3 := val_nonneg (digs_take hA (i + 1))
    have b4 := val_nonneg hB
    have hlt : val (A.take (i + 1)) * val B < 10 ^ (i + 1) * 10 ^ B.length := by
      have p1 : (0:ℤ) < 10 ^ B.length := by positivity
      nlinarith
    rw [hv] at hge
    have hlt2 : c'[i + B.length] * 10 ^ (i + B.length) < 10 * 10 ^ (i + B.length) := by
      calc _ ≤ _ := hge
        _ < _ := hlt
        _ = _ := by ring
    have : c'[i + B.length] < 10 := lt_of_mul_lt_mul_right hlt2 (by positivity)
    omega

theorem iadd_index {i j : ℕ} (h : i + j ≤ maxLen) : iadd (i : ℤ) (j : ℤ) = .ok ((i + j : ℕ) : ℤ) := by
  unfold iadd
  rw [ck_ok (by unfold IsInt INT_MIN INT_MAX; unfold maxLen at h; omega)]
  push_cast; rfl

/-- The body of the inner loop with the indices of the code. -/
def bigMulBody (A B : List ℤ) (i j : ℕ) (c : List ℤ) : Res (List ℤ) := do
  let p ← imul (← vget A i) (← vget B j)
  let l := (← iadd (i : ℤ) (j : ℤ)).toNat
  let c ← vset c l (← iadd (← vget c l) p)
  let cij ← vget c l
  let m := (← iadd (l : ℤ) 1).toNat
  let c ← vset c m (← iadd (← vget c m) (cij.tdiv 10))
  vset c l (cij.tmod 10)

theorem big_mul_body {A B : List ℤ} {i j : ℕ} (h : i + j + 1 ≤ maxLen) (c : List ℤ) :
    bigMulBody A B i j c = (do
      let p ← imul (← vget A i) (← vget B j)
      let c ← vset c (i + j) (← iadd (← vget c (i + j)) p)
      let cij ← vget c (i + j)
      let c ← vset c (i + j + 1) (← iadd (← vget c (i + j + 1)) (cij.tdiv 10))
      vset c (i + j) (cij.tmod 10)) := by
  unfold bigMulBody
  simp only [iadd_index (show i + j ≤ maxLen by omega), Res.ok_bind, Int.toNat_natCast, iadd_count h]

theorem big_mul_body_ub {A B : List ℤ} (hA : Digs A) (hB : Digs B) {i j : ℕ} (hi : i < A.length) (hj : j < B.length)
    (h : i + j = maxLen) {c : List ℤ} (l : c.length = A.length + B.length) (w : Wide (i + j) c) :
    bigMulBody A B i j c = .ub .overflow := by
  have ha := hA i hi
  have hb := hB j hj
  have hp : i + j < c.length := by omega
  have hw := w (i + j) hp
  have h18 : c[i + j] ≤ 18 := by rcases hw.2 with h | h <;> omega
  have hq : 0 ≤ A[i] * B[j] ∧ A[i] * B[j] ≤ 81 := ⟨by nlinarith, by nlinarith⟩
  unfold bigMulBody
  simp only [vget_ok hi, vget_ok hj, Res.ok_bind, iadd_index (show i + j ≤ maxLen by omega), Int.toNat_natCast, vget_ok hp]
  have e1 : imul A[i] B[j] = .ok (A[i] * B[j]) := by
    unfold imul
    rw [ck_ok (isInt_of_bound (by omega) (by omega))]
  have e2 : iadd c[i + j] (A[i] * B[j]) = .ok (c[i + j] + A[i] * B[j]) := by
    unfold iadd
    rw [ck_ok (isInt_of_bound (by omega) (by omega))]
  simp only [e1, Res.ok_bind, e2, vset_ok hp]
  rw [vget_ok (by simpa using hp)]
  simp only [Res.ok_bind, iadd_count_ub (show maxLen ≤ i + j by omega), Res.ub_bind]

theorem big_mul_loop {A B : List ℤ} (hA : Digs A) (hB : Digs B) (hBn : 0 < B.length) (hAn : 0 < A.length) :
    countUp (fun i c => countUp (bigMulBody A B i) 0 B.length c) 0 A.length (List.replicate (A.length + B.length) 0) =
      if A.length + B.length ≤ maxLen + 1 then
        forRange 0 A.length (fun i c =>
          forRange 0 B.length (fun j c => do
            let p ← imul (← vget A i) (← vget B j)
            let c ← vset c (i + j) (← iadd (← vget c (i + j)) p)
            let cij ← vget c (i + j)
            let c ← vset c (i + j + 1) (← iadd (← vget c (i + j + 1)) (cij.tdiv 10))
            vset c (i + j) (cij.tmod 10)) c) (List.replicate (A.length + B.length) 0)
      else .ub .overflow := by
  have row : ∀ (i : ℕ) (c : List ℤ), i + B.length ≤ maxLen → countUp (bigMulBody A B i) 0 B.length c =
      forUp (fun j c => do
            let p ← imul (← vget A i) (← vget B j)
            let c ← vset c (i + j) (← iadd (← vget c (i + j)) p)
            let cij ← vget c (i + j)
            let c ← vset c (i + j + 1) (← iadd (← vget c (i + j + 1)) (cij.tdiv 10))
            vset c (i + j) (cij.tmod 10)) 0 B.length c := by
    intro i c h
    exact countUp_eq _ _ _ (by omega) (fun j c _ hj => big_mul_body (by omega) c)
  split
  · rename_i hfit
    unfold forRange
    simp only [Nat.sub_zero]
    exact countUp_eq _ _ _ (by omega) (fun i c _ hi => row i c (by omega))
  · rename_i hfit
    obtain ⟨i₀, j₀, hsum, hj₀, hi₀, hrows⟩ : ∃ i₀ j₀, i₀ + j₀ = maxLen ∧ j₀ < B.length ∧ i₀ < A.length ∧
        ∀ i, i < i₀ → i + B.length ≤ maxLen := by
      by_cases h : B.length ≤ maxLen
      · exact ⟨maxLen + 1 - B.length, B.length - 1, by omega, by omega, by omega, by intro i hi; omega⟩
      · exact ⟨0, maxLen, by omega, by omega, by omega, by intro i hi; omega⟩
    refine countUp_ub_at (m := i₀) (fun i c => c.length = A.length + B.length ∧ Digs c ∧ val c = val (A.take i) * val B)
      (by omega) ?_ _ _ _ (Nat.zero_le _) (by omega) ⟨by simp, digs_replicate_zero _, by simp⟩ ?_
    · rintro c ⟨l, d, v⟩
      refine countUp_ub_at (m := j₀) (fun j c' => c'.length = A.length + B.length ∧ Wide (i₀ + j) c')
        (by omega) ?_ _ _ _ (Nat.zero_le _) (by omega) ⟨l, fun j hj => ⟨(d j hj).1, Or.inl (d j hj).2⟩⟩ ?_
      · rintro c ⟨l, w⟩
        exact big_mul_body_ub hA hB hi₀ hj₀ hsum l w
      · rintro j c _ hj ⟨l, w⟩
        have hjB : j < B.length := by omega
        have ha := hA i₀ hi₀
        have hb := hB j hjB
        have hq : 0 ≤ A[i₀] * B[j] ∧ A[i₀] * B[j] ≤ 81 := ⟨by nlinarith, by nlinarith⟩
        obtain ⟨c', e, l', w', v'⟩ := mul_step (p := i₀ + j) w (by omega) hq
        refine ⟨c', ?_, by omega, w'⟩
        rw [big_mul_body (by omega), ← e]
        simp only [vget_ok hi₀, vget_ok hjB, Res.ok_bind, imul]
        rw [ck_ok (isInt_of_bound (by omega) (by omega))]
        rfl
    · rintro i c _ hi ⟨l, d, v⟩
      obtain ⟨c', e, h⟩ := mul_row hA hB (show i < A.length by omega) l d v
      exact ⟨c', by rw [row i c (hrows i hi), e], h⟩

theorem numDigits_pos {x : ℤ} (h : x ≠ 0) : 0 < numDigits x := by
  rw [numDigits_eq]
  by_contra hc
  have : (enc x).chunks.length ≤ 0 := by omega
  rw [enc_length_le_iff] at this
  have := abs_pos.2 h
  simp at *
  omega

/-- `*` counts its way through exactly if the two numbers of digits add up to at most 2^31. -/
theorem big_mul (x y : ℤ) :
    Big.mul (enc x) (enc y) =
      if x = 0 ∨ y = 0 ∨ numDigits x + numDigits y ≤ maxLen + 1 then BInt.mul (enc x) (enc y) else .ub .overflow := by
  by_cases hx : x = 0
  · rw [if_pos (Or.inl hx)]
    unfold Big.mul BInt.mul BInt.mulAssign
    rw [if_pos (by subst hx; simp [enc_zero]), if_pos (by subst hx; simp [enc_zero])]
  by_cases hy : y = 0
  · rw [if_pos (Or.inr (Or.inl hy))]
    unfold Big.mul BInt.mul BInt.mulAssign
    rw [if_pos (by subst hy; simp [enc_zero]), if_pos (by subst hy; simp [enc_zero])]
  have h0 : ¬ ((enc x).sign = 0 ∨ (enc y).sign = 0) := by simp only [enc_sign_eq_zero]; tauto
  have hX := numDigits_pos hx
  have hY := numDigits_pos hy
  have e := big_mul_loop (enc_digs x) (enc_digs y) (by rw [← numDigits_eq]; exact hY) (by rw [← numDigits_eq]; exact hX)
  unfold bigMulBody at e
  unfold Big.mul BInt.mul BInt.mulAssign
  rw [if_neg h0, if_neg h0]
  simp only
  rw [e, numDigits_eq, numDigits_eq]
  by_cases hf : (enc x).chunks.length + (enc y).chunks.length ≤ maxLen + 1
  · rw [if_pos hf, if_pos (Or.inr (Or.inr hf))]
  · have hf' : ¬ (x = 0 ∨ y = 0 ∨ (enc x).chunks.length + (enc y).chunks.length ≤ maxLen + 1) := by tauto
    rw [if_neg hf, if_neg hf']; rfl

/-! ## `abs_inc`, `abs_dec` -/

theorem val_take_nines {v : List ℤ} (hv : Digs v) : ∀ (n : ℕ), n ≤ v.length →
    ((∀ (l : ℕ) (h : l < v.length), l < n → v[l] = 9) ↔ val (v.take n) = 10 ^ n - 1)
  | 0, _ => by simp
  | n + 1, hn => by
    have hn' : n < v.length := by omega
    have ih := val_take_nines hv n (by omega)
    rw [val_take_succ _ _ hn']
    have h0 := val_nonneg (digs_take hv n)
    have h1 := digs_lt_of (digs_take hv n) (n := n) (by simp)
    have hd := hv n hn'
    have hp : (0:ℤ) < 10 ^ n := by positivity
    constructor
    · intro h
      rw [(ih.1 (fun l hl h' => h l hl (by omega))), h n hn' (by omega), pow_succ]
      ring
    · intro h
      rw [pow_succ] at h
      have h9 : v[n] = 9 := by
        by_contra hc
        have : v[n] ≤ 8 := by omega
        nlinarith
      rw [h9] at h
      have := ih.2 (by linarith)
      intro l hl hln
      rcases Nat.lt_succ_iff_lt_or_eq.1 hln with h | rfl
      · exact this l hl h
      · exact h9

theorem val_take_zeros {v : List ℤ} (hv : Digs v) : ∀ (n : ℕ), n ≤ v.length →
    ((∀ (l : ℕ) (h : l < v.length), l < n → v[l] = 0) ↔ val (v.take n) = 0)
  | 0, _ => by simp
  | n + 1, hn => by
    have hn' : n < v.length := by omega
    have ih := val_take_zeros hv n (by omega)
    rw [val_take_succ _ _ hn']
    have h0 := val_nonneg (digs_take hv n)
    have hd := hv n hn'
    have hp : (0:ℤ) < 10 ^ n := by positivity
    constructor
    · intro h
      rw [(ih.1 (fun l hl h' => h l hl (by omega))), h n hn' (by omega)]
      ring
    · intro h
      have h9 : v[n] = 0 := by
        by_contra hc
        have : 1 ≤ v[n] := by omega
        nlinarith
      rw [h9] at h
      have := ih.2 (by linarith)
      intro l hl hln
      rcases Nat.lt_succ_iff_lt_or_eq.1 hln with h | rfl
      · exact this l hl h
      · exact h9

/-- The scan runs out of positions. -/
theorem scan_ub {v : List ℤ} {c : ℤ} (hl : maxLen < v.length) (hc : ∀ (l : ℕ) (h : l < v.length), l < maxLen + 1 → v[l] = c) :
    ∀ (m i k : ℕ), i + m = maxLen → m < k →
    whileF (fun i => do pure ((← vget v i) == c)) (fun (i : ℕ) => do pure (← iadd i 1).toNat) k i = .ub .overflow
  | 0, i, k, hm, hk => by
    obtain ⟨k, rfl⟩ : ∃ k', k = k' + 1 := ⟨k - 1, by omega⟩
    unfold whileF
    rw [vget_ok (show i < v.length by omega), hc i (by omega) (by omega), iadd_count_ub (by omega)]
    simp
  | m + 1, i, k, hm, hk => by
    obtain ⟨k, rfl⟩ : ∃ k', k = k' + 1 := ⟨k - 1, by omega⟩
    unfold whileF
    rw [vget_ok (show i < v.length by omega), hc i (by omega) (by omega), iadd_count (by omega)]
    have := scan_ub hl hc m (i + 1) k (by omega) (by omega)
    simpa using this

/-- The scan is that of `Model/Int.lean` if it ends within the positions of an `int`. -/
theorem scan_eq {v : List ℤ} {c : ℤ} {j : ℕ} (hj : j < v.length) (hjM : j ≤ maxLen) (hne : v[j] ≠ c) (k : ℕ) :
    whileF (fun i => do pure ((← vget v i) == c)) (fun (i : ℕ) => do pure (← iadd i 1).toNat) k 0 =
    whileF (fun i => do pure ((← vget v i) == c)) (fun i => Res.ok (i + 1)) k 0 := by
  refine whileF_congr (fun i => i ≤ j) ?_ _ _ (Nat.zero_le _)
  intro i hi
  refine ⟨rfl, fun hcond => ?_⟩
  have hi' : i < v.length := by omega
  have hij : i < j := by
    rcases Nat.lt_or_eq_of_le hi with h | rfl
    · exact h
    · exfalso
      rw [vget_ok hj] at hcond
      simp [hne] at hcond
  refine ⟨?_, ?_⟩
  · rw [iadd_count (by omega)]; rfl
  · intro s' h
    injection h with h
    omega

theorem enc_top_ne {x : ℤ} (hx : x ≠ 0) : ∃ (j : ℕ) (h : j < (enc x).chunks.length),
    j + 1 = (enc x).chunks.length ∧ (enc x).chunks[j] ≠ 0 := by
  have hpos := numDigits_pos hx
  rw [numDigits_eq] at hpos
  refine ⟨(enc x).chunks.length - 1, by omega, by omega, ?_⟩
  intro h0
  have hlow : val (enc x).chunks < 10 ^ ((enc x).chunks.length - 1) := by
    have h1 := val_take_succ (enc x).chunks ((enc x).chunks.length - 1) (by omega)
    rw [h0, List.take_of_length_le (by omega)] at h1
    rw [h1]
    have := digs_lt_of (digs_take (enc_digs x) ((enc x).chunks.length - 1)) (n := (enc x).chunks.length - 1) (by simp)
    linarith
  rw [enc_val, ← enc_length_le_iff] at hlow
  omega

theorem big_absInc (x : ℤ) :
    Big.absInc (enc x) = if 10 ^ (maxLen + 1) ∣ |x| + 1 then .ub .overflow else BInt.absInc (enc x) := by
  unfold Big.absInc BInt.absInc
  have hX := enc_digs x
  have hv := enc_val x
  have hl := enc_abs_lt x
  simp only
  generalize (enc x).chunks = X at *
  have hlen : (X ++ [0]).length = X.length + 1 := by simp
  have hD : Digs (X ++ [0]) := by
    intro i hi
    by_cases h : i < X.length
    · rw [List.getElem_append_left h]; exact hX i h
    · rw [List.getElem_append_right (by omega)]; simp
  have hval : val (X ++ [0]) = |x| := by rw [val_append, hv]; simp
  have hp : (0:ℤ) < 10 ^ (maxLen + 1) := by positivity
  have hmod : 10 ^ (maxLen + 1) ∣ |x| + 1 ↔ |x| % 10 ^ (maxLen + 1) = 10 ^ (maxLen + 1) - 1 := by
    generalize (10:ℤ) ^ (maxLen + 1) = P at *
    have h1 := Int.emod_nonneg |x| hp.ne'
    have h2 := Int.emod_lt_of_pos |x| hp
    have h3 := Int.mul_ediv_add_emod |x| P
    constructor
    · rintro ⟨q, hq⟩
      have h4 : |x| = P * q - 1 := by linarith
      have h5 : P * (q - 1 - |x| / P) = |x| % P - (P - 1) := by linarith
      have h6 : q - 1 - |x| / P = 0 := by
        by_contra hc
        rcases lt_or_gt_of_ne hc with h | h
        · have : q - 1 - |x| / P ≤ -1 := by omega
          nlinarith
        · have : 1 ≤ q - 1 - |x| / P := by omega
          nlinarith
      rw [h6] at h5
      linarith
    · intro h
      exact ⟨|x| / P + 1, by linarith⟩
  by_cases hn : maxLen + 1 ≤ (X ++ [0]).length
  · have hiff := val_take_nines hD (maxLen + 1) hn
    rw [val_take_mod hD, hval] at hiff
    by_cases hall : ∀ (l : ℕ) (h : l < (X ++ [0]).length), l < maxLen + 1 → (X ++ [0])[l] = 9
    · rw [if_pos (hmod.2 (hiff.1 hall)), scan_ub (by omega) hall maxLen 0 _ (by omega) (by omega)]
      rfl
    · have : ¬ (10 ^ (maxLen + 1) ∣ |x| + 1) := fun h => hall (hiff.2 (hmod.1 h))
      rw [if_neg this]
      push Not at hall
      obtain ⟨j, hj, hjM, hne⟩ := hall
      rw [scan_eq hj (by omega) hne]
  · rw [scan_eq (j := X.length) (by omega) (by omega) (by rw [List.getElem_append_right (by omega)]; simp)]
    rw [if_neg]
    rw [hmod, Int.emod_eq_of_lt (abs_nonneg x)]
    · intro h
      have h1 : (10:ℤ) ^ X.length ≤ 10 ^ maxLen := pow_le_pow_right₀ (by norm_num) (by omega)
      have h2 : (0:ℤ) < 10 ^ maxLen := by positivity
      rw [pow_succ] at h
      linarith
    · exact lt_of_lt_of_le hl (pow_le_pow_right₀ (by norm_num) (by omega))

theorem big_absDec {x : ℤ} (hx : x ≠ 0) :
    Big.absDec (enc x) = if 10 ^ (maxLen + 1) ∣ x then .ub .overflow else BInt.absDec (enc x) := by
  obtain ⟨t, ht, htl, htne⟩ := enc_top_ne hx
  unfold Big.absDec BInt.absDec
  have hD := enc_digs x
  have hv := enc_val x
  have hl := enc_abs_lt x
  simp only
  generalize (enc x).chunks = X at *
  have hmod : 10 ^ (maxLen + 1) ∣ x ↔ |x| % 10 ^ (maxLen + 1) = 0 := by
    rw [← dvd_abs, Int.dvd_iff_emod_eq_zero]
  by_cases hn : maxLen + 1 ≤ X.length
  · have hiff := val_take_zeros hD (maxLen + 1) hn
    rw [val_take_mod hD, hv] at hiff
    by_cases hall : ∀ (l : ℕ) (h : l < X.length), l < maxLen + 1 → X[l] = 0
    · rw [if_pos (hmod.2 (hiff.1 hall)), scan_ub (by omega) hall maxLen 0 _ (by omega) (by omega)]
      rfl
    · have : ¬ (10 ^ (maxLen + 1) ∣ x) := fun h => hall (hiff.2 (hmod.1 h))
      rw [if_neg this]
      push Not at hall
      obtain ⟨j, hj, hjM, hne⟩ := hall
      rw [scan_eq hj (by omega) hne]
  · rw [scan_eq ht (by omega) htne, if_neg]
    rw [hmod, Int.emod_eq_of_lt (abs_nonneg x)]
    · simpa using hx
    · exact lt_of_lt_of_le hl (pow_le_pow_right₀ (by norm_num) (by omega))

theorem big_inc (x : ℤ) :
    Big.inc (enc x) = if x ≠ 0 ∧ 10 ^ (maxLen + 1) ∣ (if 0 < x then x + 1 else x) then .ub .overflow
      else BInt.inc (enc x) := by
  unfold Big.inc BInt.inc
  rcases lt_trichotomy x 0 with h | h | h
  · have hs := Int.sign_eq_neg_one_of_neg h
    have h1 : ¬ (enc x).sign = 0 := by rw [enc_sign, hs]; norm_num
    have h2 : ¬ (enc x).sign = 1 := by rw [enc_sign, hs]; norm_num
    rw [if_neg h1, if_neg h1, if_neg h2, if_neg h2, big_absDec (by omega), if_neg (show ¬ 0 < x by omega)]
    by_cases hd : 10 ^ (maxLen + 1) ∣ x
    · rw [if_pos hd, if_pos ⟨by omega, hd⟩]
    · rw [if_neg hd, if_neg (fun h => hd h.2)]
  · subst h
    simp [enc_zero]
  · have hs := Int.sign_eq_one_of_pos h
    have h1 : ¬ (enc x).sign = 0 := by rw [enc_sign, hs]; norm_num
    have h2 : (enc x).sign = 1 := by rw [enc_sign, hs]
    rw [if_neg h1, if_neg h1, if_pos h2, if_pos h2, big_absInc, if_pos h, abs_of_pos h]
    by_cases hd : 10 ^ (maxLen + 1) ∣ x + 1
    · rw [if_pos hd, if_pos ⟨by omega, hd⟩]
    · rw [if_neg hd, if_neg (fun h => hd h.2)]

theorem big_dec (x : ℤ) :
    Big.dec (enc x) = if x ≠ 0 ∧ 10 ^ (maxLen + 1) ∣ (if 0 < x then x else x - 1) then .ub .overflow
      else BInt.dec (enc x) := by
  unfold Big.dec BInt.dec
  rcases lt_trichotomy x 0 with h | h | h
  · have hs := Int.sign_eq_neg_one_of_neg h
    have h1 : ¬ (enc x).sign = 0 := by rw [enc_sign, hs]; norm_num
    have h2 : ¬ (enc x).sign = 1 := by rw [enc_sign, hs]; norm_num
    rw [if_neg h1, if_neg h1, if_neg h2, if_neg h2, big_absInc, if_neg (show ¬ 0 < x by omega), abs_of_neg h]
    have hiff : 10 ^ (maxLen + 1) ∣ -x + 1 ↔ 10 ^ (maxLen + 1) ∣ x - 1 := by
      rw [← dvd_neg]; ring_nf
    by_cases hd : 10 ^ (maxLen + 1) ∣ x - 1
    · rw [if_pos (hiff.2 hd), if_pos ⟨by omega, hd⟩]
    · rw [if_neg (fun h => hd (hiff.1 h)), if_neg (fun h => hd h.2)]
  · subst h
    simp [enc_zero]
  · have hs := Int.sign_eq_one_of_pos h
    have h1 : ¬ (enc x).sign = 0 := by rw [enc_sign, hs]; norm_num
    have h2 : (enc x).sign = 1 := by rw [enc_sign, hs]
    rw [if_neg h1, if_neg h1, if_pos h2, if_pos h2, big_absDec (by omega), if_pos h]
    by_cases hd : 10 ^ (maxLen + 1) ∣ x
    · rw [if_pos hd, if_pos ⟨by omega, hd⟩]
    · rw [if_neg hd, if_neg (fun h => hd h.2)]

end Pyincpp
