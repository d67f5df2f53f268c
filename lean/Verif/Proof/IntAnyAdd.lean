import Verif.Proof.IntAny

/-! # Counting with `int`: addition and subtraction -/

namespace Pyincpp

theorem mod_carry_mono {a y : ℤ} {p q : ℕ} (h : p ≤ q) (hy : a % 10 ^ p + y < 10 ^ p) : a % 10 ^ q + y < 10 ^ q := by
  obtain ⟨d, rfl⟩ := Nat.exists_eq_add_of_le h
  have hp : (0:ℤ) < 10 ^ p := by positivity
  have hd : (0:ℤ) < 10 ^ d := by positivity
  rw [pow_add]
  generalize (10:ℤ) ^ p = P at *
  generalize (10:ℤ) ^ d = D at *
  have h1 : a % (P * D) % P = a % P := Int.emod_emod_of_dvd _ (Dvd.intro _ rfl)
  have h2 := Int.mul_ediv_add_emod (a % (P * D)) P
  have h3 : a % (P * D) < P * D := Int.emod_lt_of_pos _ (by positivity)
  have h4 : a % (P * D) / P < D := Int.ediv_lt_of_lt_mul hp (by linarith)
  have h5 : P * (a % (P * D) / P) ≤ P * (D - 1) := mul_le_mul_of_nonneg_left (by omega) hp.le
  rw [h1] at h2
  linarith

theorem mod_borrow_mono {a y : ℤ} {p q : ℕ} (h : p ≤ q) (hy : y ≤ a % 10 ^ p) : y ≤ a % 10 ^ q := by
  obtain ⟨d, rfl⟩ := Nat.exists_eq_add_of_le h
  have hp : (0:ℤ) < 10 ^ p := by positivity
  have hd : (0:ℤ) < 10 ^ d := by positivity
  rw [pow_add]
  generalize (10:ℤ) ^ p = P at *
  generalize (10:ℤ) ^ d = D at *
  have h1 : a % (P * D) % P = a % P := Int.emod_emod_of_dvd _ (Dvd.intro _ rfl)
  have h2 := Int.mul_ediv_add_emod (a % (P * D)) P
  have h3 : 0 ≤ a % (P * D) / P := Int.ediv_nonneg (Int.emod_nonneg _ (by positivity)) hp.le
  have h5 : 0 ≤ P * (a % (P * D) / P) := by positivity
  rw [h1] at h2
  linarith

theorem vset_drop {v w : List ℤ} {i n : ℕ} {x : ℤ} (h : vset v i x = .ok w) (hn : i < n) : w.drop n = v.drop n := by
  unfold vset at h
  split at h
  · injection h with h
    rw [← h, List.drop_set_of_lt hn]
  · cases h

theorem vaddAt_drop {mem : Mem} {v w : List ℤ} {i n : ℕ} {d : ℤ} (h : vaddAt mem v i d = .ok w) (hn : i < n) :
    w.drop n = v.drop n := by
  unfold vaddAt at h
  split at h
  · injection h with h
    rw [h]
  · simp only [Res.bind_eq_ok] at h
    obtain ⟨x, -, y, -, h⟩ := h
    exact vset_drop h hn

theorem step_drop {mem : Mem} {a a' : List ℤ} {i : ℕ} {t : Res ℤ} {f : ℤ → Res ℤ} {g : ℤ → ℤ}
    (h : (do
      let tmp ← t
      let a ← vset a i (← f tmp)
      vaddAt mem a (i + 1) (g tmp)) = .ok a') : a'.drop (i + 2) = a.drop (i + 2) := by
  simp only [Res.bind_eq_ok] at h
  obtain ⟨x, -, y, -, b, h1, h2⟩ := h
  rw [vaddAt_drop h2 (by omega), vset_drop h1 (by omega)]

theorem carry_drop {mem : Mem} {a a' : List ℤ} {i : ℕ} {c d : ℤ}
    (h : (do
      let a ← vaddAt mem a (i + 1) c
      vset a i d) = .ok a') : a'.drop (i + 2) = a.drop (i + 2) := by
  simp only [Res.bind_eq_ok] at h
  obtain ⟨b, h1, h2⟩ := h
  rw [vset_drop h2 (by omega), vaddAt_drop h1 (by omega)]

theorem drop_succ_of {a b : List ℤ} {i : ℕ} (h : a.drop i = b.drop i) : a.drop (i + 1) = b.drop (i + 1) := by
  rw [← List.drop_drop, ← List.drop_drop, h]

/-- The value of the low part, if the high part is untouched. -/
theorem val_low {a b : List ℤ} {n : ℕ} (hb : Digs b) (hl : a.length = b.length) (hn : n ≤ a.length) {y : ℤ}
    (hd : a.drop n = b.drop n) (hv : val a = val b + y) : val (a.take n) = val b % 10 ^ n + y := by
  have ha : val a = val (a.take n) + 10 ^ n * val (a.drop n) := by
    conv_lhs => rw [← List.take_append_drop n a]
    rw [val_append, show (a.take n).length = n by simp; omega]
  have hb' : val b = val (b.take n) + 10 ^ n * val (b.drop n) := by
    conv_lhs => rw [← List.take_append_drop n b]
    rw [val_append, show (b.take n).length = n by simp; omega]
  rw [← val_take_mod hb]
  rw [hd] at ha
  linarith

theorem digs_lt_of {v : List ℤ} (h : Digs v) {n : ℕ} (hn : v.length ≤ n) : val v < 10 ^ n :=
  lt_of_lt_of_le (val_lt h) (pow_le_pow_right₀ (by norm_num) hn)

/-- In the carry loop at position `j`: the digit is 10 exactly if the low parts carry. -/
theorem carry_iff {a b : List ℤ} {j : ℕ} (hb : Digs b) (hl : a.length = b.length) (hj : j < a.length) {y : ℤ}
    (hc : Carry j a) (hd : a.drop (j + 1) = b.drop (j + 1)) (hv : val a = val b + y) :
    a[j] ≥ 10 ↔ ¬ (val b % 10 ^ (j + 1) + y < 10 ^ (j + 1)) := by
  have hlow := val_low hb hl hj hd hv
  rw [← hlow, val_take_succ _ _ hj]
  have hdig : Digs (a.take j) := by
    intro i hi
    have hi' : i < j := by simp at hi; omega
    have := hc i (by omega)
    rw [List.getElem_take]
    refine ⟨this.1, ?_⟩
    rcases this.2 with h | h <;> omega
  have h0 := val_nonneg hdig
  have h1 := digs_lt_of hdig (n := j) (by simp)
  have hp : (0:ℤ) < 10 ^ j := by positivity
  rw [pow_succ]
  constructor
  · intro h
    nlinarith
  · intro h
    by_contra hcon
    have : a[j] ≤ 9 := by omega
    nlinarith

theorem borrow_iff {a b : List ℤ} {j : ℕ} (hb : Digs b) (hl : a.length = b.length) (hj : j < a.length) {y : ℤ}
    (hc : Borrow j a) (hd : a.drop (j + 1) = b.drop (j + 1)) (hv : val a = val b - y) :
    a[j] < 0 ↔ ¬ (y ≤ val b % 10 ^ (j + 1)) := by
  have hlow := val_low hb hl hj hd (y := -y) (by rw [hv]; ring)
  have hlow' : val b % 10 ^ (j + 1) = val (a.take (j + 1)) + y := by rw [hlow]; ring
  rw [hlow', val_take_succ _ _ hj]
  have hdig : Digs (a.take j) := by
    intro i hi
    have hi' : i < j := by simp at hi; omega
    have := hc i (by omega)
    rw [List.getElem_take]
    refine ⟨?_, this.1⟩
    rcases this.2 with h | h <;> omega
  have h0 := val_nonneg hdig
  have h1 := digs_lt_of hdig (n := j) (by simp)
  have hp : (0:ℤ) < 10 ^ j := by positivity
  constructor
  · intro h
    have : a[j] ≤ -1 := by omega
    nlinarith
  · intro h
    by_contra hcon
    have : 0 ≤ a[j] := by omega
    nlinarith

theorem enc_pow_le_iff (z : ℤ) (k : ℕ) : k < (enc z).chunks.length ↔ 10 ^ k ≤ |z| := by
  rw [← not_le, enc_length_le_iff, not_lt]

theorem big_add_body {mem : Mem} {Y : List ℤ} {j : ℕ} (hj : j + 1 ≤ maxLen) (a : List ℤ) :
    (do
      let tmp ← iadd (← vget a j) (← vget Y j)
      let a ← vset a j (tmp.tmod 10)
      let j ← iadd j 1
      vaddAt mem a j.toNat (tmp.tdiv 10)) = (do
      let tmp ← iadd (← vget a j) (← vget Y j)
      let a ← vset a j (tmp.tmod 10)
      vaddAt mem a (j + 1) (tmp.tdiv 10)) := by
  simp only [iadd_count hj, Res.ok_bind, Int.toNat_natCast]

/-- The first loop of `+=` on operands whose second one fits. -/
theorem add_loop {mem : Mem} {X Y : List ℤ} (hX : Digs X) (hY : Digs Y) {L : ℕ} (hL : L = max X.length Y.length + 1)
    {n : ℕ} (hn : n ≤ Y.length) :
    ∃ a, forUp (fun i a => do
      let tmp ← iadd (← vget a i) (← vget Y i)
      let a ← vset a i (tmp.tmod 10)
      vaddAt mem a (i + 1) (tmp.tdiv 10)) 0 n (vresize X L) = .ok a ∧
      a.length = L ∧ Carry n a ∧ val a = val X + val (Y.take n) ∧ a.drop (n + 1) = (vresize X L).drop (n + 1) := by
  have hXL : X.length ≤ L := by omega
  obtain ⟨a₁, e₁, h₁⟩ := forUp_inv
    (body := fun i a => do
      let tmp ← iadd (← vget a i) (← vget Y i)
      let a ← vset a i (tmp.tmod 10)
      vaddAt mem a (i + 1) (tmp.tdiv 10))
    (fun i a => a.length = L ∧ Carry i a ∧ val a = val X + val (Y.take i) ∧ a.drop (i + 1) = (vresize X L).drop (i + 1))
    n 0 (vresize X L)
    ⟨vresize_length _ _, (vresize_digs hX L).carry 0, by simp [vresize_val hXL], rfl⟩
    (by
      rintro j a _ hj ⟨l, c, v, hd⟩
      have hj' : j < Y.length := by omega
      obtain ⟨a', e, l', c', v'⟩ := add_step (mem := mem) (a := a) (i := j) (d := Y[j]) c (by omega) (hY j hj')
      have hdrop := step_drop (t := do iadd (← vget a j) Y[j]) (f := fun t => .ok (t.tmod 10)) (g := fun t => t.tdiv 10)
        (by simpa using e)
      refine ⟨a', ?_, by omega, c', ?_, ?_⟩
      · rw [← e, vget_ok hj']; rfl
      · rw [v', v, val_take_succ _ _ hj']; ring
      · rw [hdrop]; exact drop_succ_of hd)
  exact ⟨a₁, e₁, by simpa using h₁⟩

open Classical in
theorem big_addSame (mem : Mem) {x y s : ℤ} (hs : s = 1 ∨ s = -1) (t : ℤ) :
    Big.addSame mem false ⟨s, (enc x).chunks⟩ ⟨t, (enc y).chunks⟩ =
      if CarryFits |x| |y| then .ok (enc (s * (|x| + |y|))) else .ub .overflow := by
  have hX := enc_digs x
  have hY := enc_digs y
  have spec := addSame_spec mem hs hX hY t
  rw [enc_val, enc_val] at spec
  have vX := enc_val x
  have vY := enc_val y
  have hYlen := enc_length_le_iff y maxLen
  have hxl := enc_abs_lt x
  have hyl := enc_abs_lt y
  unfold Big.addSame
  unfold BInt.addSame at spec
  simp only [Bool.false_eq_true, if_false] at spec ⊢
  generalize (enc x).chunks = X at *
  generalize (enc y).chunks = Y at *
  obtain ⟨L, hL⟩ : ∃ L, L = max X.length Y.length + 1 := ⟨_, rfl⟩
  rw [← hL] at spec ⊢
  by_cases hlen : Y.length ≤ maxLen
  · -- the first loop
    have e1 : countUp (fun (i : ℕ) a => do
        let tmp ← iadd (← vget a i) (← vget Y i)
        let a ← vset a i (tmp.tmod 10)
        let j ← iadd i 1
        vaddAt mem a j.toNat (tmp.tdiv 10)) 0 Y.length (vresize X L) = forUp (fun i a => do
        let tmp ← iadd (← vget a i) (← vget Y i)
        let a ← vset a i (tmp.tmod 10)
        vaddAt mem a (i + 1) (tmp.tdiv 10)) 0 Y.length (vresize X L) :=
      countUp_eq _ _ _ (by omega) (fun j a _ hj => big_add_body (by omega) a)
    obtain ⟨a₁, e₁, l₁, c₁, v₁, d₁⟩ := add_loop (mem := mem) hX hY hL le_rfl
    rw [List.take_length] at v₁
    rw [e1]
    unfold forRange at spec
    simp only [Nat.sub_zero] at spec
    rw [e₁] at spec ⊢
    simp only [Res.ok_bind] at spec ⊢
    rw [wrap32_count hlen, if_neg (by omega), Int.toNat_natCast]
    have hRl : (vresize X L).length = L := vresize_length _ _
    have hRd : Digs (vresize X L) := vresize_digs hX L
    have hRv : val (vresize X L) = val X := vresize_val (by omega)
    have hbound : val X + val Y < 2 * 10 ^ (L - 1) := by
      have h1 : (10:ℤ) ^ X.length ≤ 10 ^ (L - 1) := pow_le_pow_right₀ (by norm_num) (by omega)
      have h2 : (10:ℤ) ^ Y.length ≤ 10 ^ (L - 1) := pow_le_pow_right₀ (by norm_num) (by omega)
      have := val_lt hX
      have := val_lt hY
      linarith
    -- a step of the second loop
    have step : ∀ (j : ℕ) (a : List ℤ), j < L → a.length = L → Carry j a → val a = val X + val Y →
        a.drop (j + 1) = (vresize X L).drop (j + 1) → ∀ (hja : j < a.length), a[j] ≥ 10 →
        ∃ a', (do
          let a ← vaddAt mem a (j + 1) 1
          vset a j 0) = .ok a' ∧ a'.length = L ∧ Carry (j + 1) a' ∧ val a' = val X + val Y ∧
          a'.drop (j + 1 + 1) = (vresize X L).drop (j + 1 + 1) := by
      intro j a hj l c v hd hja h10
      have he : a[j] = 10 := by
        have := (c j hja).2
        rcases this with h | h <;> omega
      have hj2 : j + 1 < a.length := by
        by_contra hcon
        have hjL : j = L - 1 := by omega
        have hge := val_ge_digit (fun j hj => (c j hj).1) j hja
        rw [he, v, hjL] at hge
        have : (0:ℤ) < 10 ^ (L - 1) := by positivity
        linarith
      obtain ⟨a', e, l', c', v'⟩ := add_carry_step (mem := mem) c hj2 he
      refine ⟨a', e, by omega, c', by rw [v', v], ?_⟩
      rw [carry_drop e]; exact drop_succ_of hd
    by_cases hfit : CarryFits |x| |y|
    · rw [if_pos hfit]
      rw [countUpWhile_eq (body' := fun i a => do
          let a ← vaddAt mem a (i + 1) 1
          vset a i 0)
        (fun j a => j ≤ maxLen ∧ a.length = L ∧ Carry j a ∧ val a = val X + val Y ∧
          a.drop (j + 1) = (vresize X L).drop (j + 1)) _ _ _ ⟨hlen, l₁, c₁, v₁, d₁⟩]
      · exact spec
      · rintro j a hj hj' ⟨hjM, l, c, v, hd⟩
        have hja : j < a.length := by omega
        by_cases h10 : a[j] ≥ 10
        · right
          have hne : j ≠ maxLen := by
            rintro rfl
            have := (carry_iff hRd (by omega) hja c hd (by rw [hRv]; exact v)).1 h10
            rw [hRv, vX, vY] at this
            exact this hfit.2
          obtain ⟨a', e, h'⟩ := step j a (by omega) l c v hd hja h10
          refine ⟨by simp [vget_ok hja, h10], by omega, ?_, a', e, by omega, h'⟩
          simp only [iadd_count (show j + 1 ≤ maxLen by omega), Res.ok_bind, Int.toNat_natCast]
        · left
          simp [vget_ok hja]; omega
    · rw [if_neg hfit]
      have hnot : ¬ (|x| % 10 ^ (maxLen + 1) + |y| < 10 ^ (maxLen + 1)) := by
        intro h
        exact hfit ⟨hYlen.1 hlen, h⟩
      have hLM : maxLen < L := by
        by_contra hcon
        apply hnot
        have h1 : |x| + |y| < 10 ^ (maxLen + 1) := by
          have : (10:ℤ) ^ (L - 1) ≤ 10 ^ maxLen := pow_le_pow_right₀ (by norm_num) (by omega)
          rw [vX, vY] at hbound
          rw [pow_succ]
          have hp : (0:ℤ) < 10 ^ maxLen := by positivity
          linarith
        have h2 : |x| < 10 ^ (maxLen + 1) := by have := abs_nonneg y; linarith
        rw [Int.emod_eq_of_lt (abs_nonneg x) h2]
        exact h1
      have hcarry : ∀ (j : ℕ) (a : List ℤ), j ≤ maxLen → ∀ (hja : j < a.length), a.length = L → Carry j a →
          val a = val X + val Y → a.drop (j + 1) = (vresize X L).drop (j + 1) → a[j] ≥ 10 := by
        intro j a hj hja l c v hd
        rw [carry_iff hRd (by omega) hja c hd (by rw [hRv]; exact v), hRv, vX, vY]
        intro h
        exact hnot (mod_carry_mono (by omega) h)
      rw [countUpWhile_ub (e := .overflow)
        (fun j a => a.length = L ∧ Carry j a ∧ val a = val X + val Y ∧ a.drop (j + 1) = (vresize X L).drop (j + 1))
        ?_ _ _ _ hlen (by omega) ⟨l₁, c₁, v₁, d₁⟩ ?_]
      · rfl
      · rintro a ⟨l, c, v, hd⟩
        have hja : maxLen < a.length := by omega
        have h10 := hcarry maxLen a le_rfl hja l c v hd
        refine ⟨by simp [vget_ok hja, h10], ?_⟩
        rw [iadd_count_ub le_rfl]; rfl
      · rintro j a hj hj' ⟨l, c, v, hd⟩
        have hja : j < a.length := by omega
        have h10 := hcarry j a (by omega) hja l c v hd
        obtain ⟨a', e, h'⟩ := step j a (by omega) l c v hd hja h10
        refine ⟨by simp [vget_ok hja, h10], a', ?_, h'⟩
        rw [← e]
        simp only [iadd_count (show j + 1 ≤ maxLen by omega), Res.ok_bind, Int.toNat_natCast]
  · rw [if_neg (fun h => hlen (hYlen.2 h.1))]
    rw [countUp_ub (e := .overflow) (fun i a => a.length = L ∧ Carry i a) ?_ _ _ _ (Nat.zero_le _) (by omega)
      ⟨vresize_length _ _, (vresize_digs hX L).carry 0⟩ ?_]
    · rfl
    · rintro a ⟨l, c⟩
      have h1 : maxLen < a.length := by omega
      have h2 : maxLen < Y.length := by omega
      have b1 := c maxLen h1
      have b2 := hY maxLen h2
      have b3 : a[maxLen] ≤ 10 := by rcases b1.2 with h | h <;> omega
      simp only [vget_ok h1, vget_ok h2, Res.ok_bind]
      unfold iadd
      rw [ck_ok (isInt_of_bound (by omega) (by omega))]
      simp only [Res.ok_bind, vset_ok h1]
      have := iadd_count_ub (le_refl maxLen)
      unfold iadd at this
      rw [this]; rfl
    · rintro j a hj hj' ⟨l, c⟩
      have hjY : j < Y.length := by omega
      obtain ⟨a', e, l', c', v'⟩ := add_step (mem := mem) (a := a) (i := j) (d := Y[j]) c (by omega) (hY j hjY)
      refine ⟨a', ?_, by omega, c'⟩
      rw [big_add_body (by omega), ← e, vget_ok hjY]; rfl

/-! ## subtraction -/

theorem vset_len {v w : List ℤ} {i : ℕ} {x : ℤ} (h : vset v i x = .ok w) : w.length = v.length := by
  unfold vset at h
  split at h
  · injection h with h
    rw [← h, List.length_set]
  · cases h

theorem vaddAt_len {mem : Mem} {v w : List ℤ} {i : ℕ} {d : ℤ} (h : vaddAt mem v i d = .ok w) : w.length = v.length := by
  unfold vaddAt at h
  split at h
  · injection h with h
    rw [h]
  · simp only [Res.bind_eq_ok] at h
    obtain ⟨x, -, y, -, h⟩ := h
    exact vset_len h

theorem forUp_len {body : ℕ → List ℤ → Res (List ℤ)} (hb : ∀ j a a', body j a = .ok a' → a'.length = a.length) :
    ∀ (n i : ℕ) (a a' : List ℤ), forUp body i n a = .ok a' → a'.length = a.length
  | 0, i, a, a', h => by
    simp only [forUp] at h
    injection h with h
    rw [h]
  | n + 1, i, a, a', h => by
    simp only [forUp, Res.bind_eq_ok] at h
    obtain ⟨b, h1, h2⟩ := h
    rw [forUp_len hb n _ _ _ h2, hb _ _ _ h1]

theorem big_sub_body {mem : Mem} {Y : List ℤ} {j : ℕ} (hj : j + 1 ≤ maxLen) (a : List ℤ) :
    (do
      let tmp ← isub (← vget a j) (← vget Y j)
      let a ← vset a j (← BInt.cycleMod tmp 10)
      let j ← iadd j 1
      vaddAt mem a j.toNat (BInt.floorDiv tmp 10)) = (do
      let tmp ← isub (← vget a j) (← vget Y j)
      let a ← vset a j (← BInt.cycleMod tmp 10)
      vaddAt mem a (j + 1) (BInt.floorDiv tmp 10)) := by
  simp only [iadd_count hj, Res.ok_bind, Int.toNat_natCast]

theorem sub_loop {mem : Mem} {A B : List ℤ} (hA : Digs A) (hB : Digs B) (hl : B.length < A.length)
    {n : ℕ} (hn : n ≤ B.length) :
    ∃ a, forUp (fun i a => do
      let tmp ← isub (← vget a i) (← vget B i)
      let a ← vset a i (← BInt.cycleMod tmp 10)
      vaddAt mem a (i + 1) (BInt.floorDiv tmp 10)) 0 n A = .ok a ∧
      a.length = A.length ∧ Borrow n a ∧ val a = val A - val (B.take n) ∧ a.drop (n + 1) = A.drop (n + 1) := by
  obtain ⟨a₁, e₁, h₁⟩ := forUp_inv
    (body := fun i a => do
      let tmp ← isub (← vget a i) (← vget B i)
      let a ← vset a i (← BInt.cycleMod tmp 10)
      vaddAt mem a (i + 1) (BInt.floorDiv tmp 10))
    (fun i a => a.length = A.length ∧ Borrow i a ∧ val a = val A - val (B.take i) ∧ a.drop (i + 1) = A.drop (i + 1))
    n 0 A
    ⟨rfl, hA.borrow 0, by simp, rfl⟩
    (by
      rintro j a _ hj ⟨l, c, v, hd⟩
      have hj' : j < B.length := by omega
      obtain ⟨a', e, l', c', v'⟩ := sub_step (mem := mem) (a := a) (i := j) (d := B[j]) c (by omega) (hB j hj')
      have hdrop := step_drop (t := do isub (← vget a j) B[j]) (f := fun t => BInt.cycleMod t 10)
        (g := fun t => BInt.floorDiv t 10) (by simpa using e)
      refine ⟨a', ?_, by omega, c', ?_, ?_⟩
      · rw [← e, vget_ok hj']; rfl
      · rw [v', v, val_take_succ _ _ hj']; ring
      · rw [hdrop]; exact drop_succ_of hd)
  exact ⟨a₁, e₁, by simpa using h₁⟩

/-- The two loops of `-=` with the counters of the code. -/
def bigSubLoops (mem : Mem) (A B : List ℤ) : Res (List ℤ) := do
  let a ← countUp (fun i a => do
      let tmp ← isub (← vget a i) (← vget B i)
      let a ← vset a i (← BInt.cycleMod tmp 10)
      let j ← iadd i 1
      vaddAt mem a j.toNat (BInt.floorDiv tmp 10)) 0 B.length A
  if wrap32 B.length < 0 then .ok a else
    countUpWhile (fun i a => do pure (decide ((← vget a i) < 0)))
      (fun i a => do
        let j ← iadd i 1
        let a ← vaddAt mem a j.toNat (-1)
        vset a i 9) (wrap32 B.length).toNat (a.length - (wrap32 B.length).toNat) a

def subLoops (mem : Mem) (A B : List ℤ) : Res (List ℤ) := do
  let a ← forRange 0 B.length (fun i a => do
      let tmp ← isub (← vget a i) (← vget B i)
      let a ← vset a i (← BInt.cycleMod tmp 10)
      vaddAt mem a (i + 1) (BInt.floorDiv tmp 10)) A
  forUpWhile (fun i a => do pure (decide ((← vget a i) < 0)))
    (fun i a => do
      let a ← vaddAt mem a (i + 1) (-1)
      vset a i 9) B.length (a.length - B.length) a

theorem bigSubLoops_long {mem : Mem} {A B : List ℤ} (hA : Digs A) (hB : Digs B) (hl : B.length ≤ A.length)
    (hlong : maxLen < B.length) : bigSubLoops mem A B = .ub .overflow := by
  unfold bigSubLoops
  rw [countUp_ub (e := .overflow) (fun i a => a.length = A.length ∧ Borrow i a) ?_ _ _ _ (Nat.zero_le _) (by omega)
    ⟨rfl, hA.borrow 0⟩ ?_]
  · rfl
  · rintro a ⟨l, c⟩
    have h1 : maxLen < a.length := by omega
    have b1 := c maxLen h1
    have b2 := hB maxLen hlong
    have b3 : -1 ≤ a[maxLen] := by rcases b1.2 with h | h <;> omega
    simp only [vget_ok h1, vget_ok hlong, Res.ok_bind]
    have hs : isub a[maxLen] B[maxLen] = .ok (a[maxLen] - B[maxLen]) := by
      unfold isub
      rw [ck_ok (isInt_of_bound (by omega) (by omega))]
    rw [hs]
    simp only [Res.ok_bind]
    cases hcm : BInt.cycleMod (a[maxLen] - B[maxLen]) 10 with
    | ok c =>
      simp only [Res.ok_bind, vset_ok h1, iadd_count_ub (le_refl maxLen), Res.ub_bind]
    | throw m =>
      obtain ⟨a', e, -⟩ := sub_step (mem := .lenient) (a := a ++ [0]) (i := maxLen) (d := B[maxLen])
        (by
          intro i hi
          by_cases h : i < a.length
          · rw [List.getElem_append_left h]; exact c i h
          · rw [List.getElem_append_right (by omega)]; simp) (by simp; omega) b2
      rw [vget_ok (by simp; omega)] at e
      rw [List.getElem_append_left h1] at e
      simp only [Res.ok_bind] at e
      rw [hs] at e
      simp only [Res.ok_bind] at e
      rw [hcm] at e
      cases e
    | ub m =>
      obtain ⟨a', e, -⟩ := sub_step (mem := .lenient) (a := a ++ [0]) (i := maxLen) (d := B[maxLen])
        (by
          intro i hi
          by_cases h : i < a.length
          · rw [List.getElem_append_left h]; exact c i h
          · rw [List.getElem_append_right (by omega)]; simp) (by simp; omega) b2
      rw [vget_ok (by simp; omega)] at e
      rw [List.getElem_append_left h1] at e
      simp only [Res.ok_bind] at e
      rw [hs] at e
      simp only [Res.ok_bind] at e
      rw [hcm] at e
      cases e
    | fuel =>
      obtain ⟨a', e, -⟩ := sub_step (mem := .lenient) (a := a ++ [0]) (i := maxLen) (d := B[maxLen])
        (by
          intro i hi
          by_cases h : i < a.length
          · rw [List.getElem_append_left h]; exact c i h
          · rw [List.getElem_append_right (by omega)]; simp) (by simp; omega) b2
      rw [vget_ok (by simp; omega)] at e
      rw [List.getElem_append_left h1] at e
      simp only [Res.ok_bind] at e
      rw [hs] at e
      simp only [Res.ok_bind] at e
      rw [hcm] at e
      cases e
  · rintro j a hj hj' ⟨l, c⟩
    have hjB : j < B.length := by omega
    obtain ⟨a', e, l', c', v'⟩ := sub_step (mem := mem) (a := a) (i := j) (d := B[j]) c (by omega) (hB j hjB)
    refine ⟨a', ?_, by omega, c'⟩
    rw [big_sub_body (by omega), ← e, vget_ok hjB]; rfl

open Classical in
theorem bigSubLoops_eq {mem : Mem} {A B : List ℤ} (hA : Digs A) (hB : Digs B) (hl : B.length ≤ A.length)
    (hval : val B ≤ val A) (hlen : B.length ≤ maxLen) :
    bigSubLoops mem A B = if val B ≤ val A % 10 ^ (maxLen + 1) then subLoops mem A B else .ub .overflow := by
  unfold bigSubLoops subLoops forRange
  have e1 : countUp (fun (i : ℕ) a => do
      let tmp ← isub (← vget a i) (← vget B i)
      let a ← vset a i (← BInt.cycleMod tmp 10)
      let j ← iadd i 1
      vaddAt mem a j.toNat (BInt.floorDiv tmp 10)) 0 B.length A = forUp (fun i a => do
      let tmp ← isub (← vget a i) (← vget B i)
      let a ← vset a i (← BInt.cycleMod tmp 10)
      vaddAt mem a (i + 1) (BInt.floorDiv tmp 10)) 0 B.length A :=
    countUp_eq _ _ _ (by omega) (fun j a _ hj => big_sub_body (by omega) a)
  have h0 : ¬ ((B.length : ℤ) < 0) := by omega
  rw [e1, Nat.sub_zero, wrap32_count hlen]
  simp only [if_neg h0, Int.toNat_natCast]
  rcases Nat.eq_or_lt_of_le hl with heq | hlt
  · have hfit : val B ≤ val A % 10 ^ (maxLen + 1) := by
      rw [Int.emod_eq_of_lt (val_nonneg hA) (digs_lt_of hA (by omega))]
      exact hval
    rw [if_pos hfit]
    cases hr : forUp (fun i a => do
      let tmp ← isub (← vget a i) (← vget B i)
      let a ← vset a i (← BInt.cycleMod tmp 10)
      vaddAt mem a (i + 1) (BInt.floorDiv tmp 10)) 0 B.length A with
    | ok a =>
      have hal := forUp_len (by
        intro j a a' h
        simp only [Res.bind_eq_ok] at h
        obtain ⟨_, -, _, -, _, -, _, -, b, h1, h2⟩ := h
        rw [vaddAt_len h2, vset_len h1]) _ _ _ _ hr
      simp only [Res.ok_bind]
      rw [show a.length - B.length = 0 by omega]
      simp only [countUpWhile, forUpWhile]
    | throw m => simp only [Res.throw_bind]
    | ub m => simp only [Res.ub_bind]
    | fuel => simp only [Res.fuel_bind]
  · obtain ⟨a₁, e₁, l₁, c₁, v₁, d₁⟩ := sub_loop (mem := mem) hA hB hlt le_rfl
    rw [List.take_length] at v₁
    rw [e₁]
    simp only [Res.ok_bind]
    have step : ∀ (j : ℕ) (a : List ℤ), j < A.length → a.length = A.length → Borrow j a → val a = val A - val B →
        a.drop (j + 1) = A.drop (j + 1) → ∀ (hja : j < a.length), a[j] < 0 →
        ∃ a', (do
          let a ← vaddAt mem a (j + 1) (-1)
          vset a j 9) = .ok a' ∧ a'.length = A.length ∧ Borrow (j + 1) a' ∧ val a' = val A - val B ∧
          a'.drop (j + 1 + 1) = A.drop (j + 1 + 1) := by
      intro j a hj l c v hd hja h10
      have he : a[j] = -1 := by
        have := (c j hja).2
        rcases this with h | h <;> omega
      have hj2 : j + 1 < a.length := by
        by_contra hcon
        have := val_top_neg hja (by omega) (fun i hi => (c i (by omega)).1) (t := -1) (by omega)
        rw [he, v] at this
        simp at this
        omega
      obtain ⟨a', e, l', c', v'⟩ := sub_borrow_step (mem := mem) c hj2 he
      refine ⟨a', e, by omega, c', by rw [v', v], ?_⟩
      rw [carry_drop e]; exact drop_succ_of hd
    by_cases hfit : val B ≤ val A % 10 ^ (maxLen + 1)
    · rw [if_pos hfit]
      refine countUpWhile_eq
        (fun j a => j ≤ maxLen ∧ a.length = A.length ∧ Borrow j a ∧ val a = val A - val B ∧
          a.drop (j + 1) = A.drop (j + 1)) _ _ _ ⟨hlen, l₁, c₁, v₁, d₁⟩ ?_
      rintro j a hj hj' ⟨hjM, l, c, v, hd⟩
      have hja : j < a.length := by omega
      by_cases h10 : a[j] < 0
      · right
        have hne : j ≠ maxLen := by
          rintro rfl
          exact (borrow_iff hA (by omega) hja c hd v).1 h10 hfit
        obtain ⟨a', e, h'⟩ := step j a (by omega) l c v hd hja h10
        refine ⟨by simp [vget_ok hja, h10], by omega, ?_, a', e, by omega, h'⟩
        simp only [iadd_count (show j + 1 ≤ maxLen by omega), Res.ok_bind, Int.toNat_natCast]
      · left
        simp [vget_ok hja]; omega
    · rw [if_neg hfit]
      have hLM : maxLen < A.length := by
        by_contra hcon
        apply hfit
        rw [Int.emod_eq_of_lt (val_nonneg hA) (digs_lt_of hA (by omega))]
        exact hval
      have hcarry : ∀ (j : ℕ) (a : List ℤ), j ≤ maxLen → ∀ (hja : j < a.length), a.length = A.length → Borrow j a →
          val a = val A - val B → a.drop (j + 1) = A.drop (j + 1) → a[j] < 0 := by
        intro j a hj hja l c v hd
        rw [borrow_iff hA (by omega) hja c hd v]
        intro h
        exact hfit (mod_borrow_mono (by omega) h)
      refine countUpWhile_ub (e := .overflow)
        (fun j a => a.length = A.length ∧ Borrow j a ∧ val a = val A - val B ∧ a.drop (j + 1) = A.drop (j + 1))
        ?_ _ _ _ hlen (by omega) ⟨l₁, c₁, v₁, d₁⟩ ?_
      · rintro a ⟨l, c, v, hd⟩
        have hja : maxLen < a.length := by omega
        have h10 := hcarry maxLen a le_rfl hja l c v hd
        refine ⟨by simp [vget_ok hja, h10], ?_⟩
        rw [iadd_count_ub le_rfl]; rfl
      · rintro j a hj hj' ⟨l, c, v, hd⟩
        have hja : j < a.length := by omega
        have h10 := hcarry j a (by omega) hja l c v hd
        obtain ⟨a', e, h'⟩ := step j a (by omega) l c v hd hja h10
        refine ⟨by simp [vget_ok hja, h10], a', ?_, h'⟩
        rw [← e]
        simp only [iadd_count (show j + 1 ≤ maxLen by omega), Res.ok_bind, Int.toNat_natCast]

theorem big_subSame_def (mem : Mem) (x y : BInt) : Big.subSame mem x y = (do
    let c ← Big.absCmp x y
    let (sign, a, b) := if c = -1 then (-x.sign, y.chunks, x.chunks) else (x.sign, x.chunks, y.chunks)
    let a ← bigSubLoops mem a b
    pure (BInt.trim { sign := sign, chunks := a })) := by
  unfold Big.subSame bigSubLoops
  congr 1
  funext c
  by_cases hc : c = -1
  · simp only [if_pos hc]
    by_cases hw : wrap32 (x.chunks.length : ℤ) < 0
    · simp only [if_pos hw, bind_assoc]
    · simp only [if_neg hw, bind_assoc]
  · simp only [if_neg hc]
    by_cases hw : wrap32 (y.chunks.length : ℤ) < 0
    · simp only [if_pos hw, bind_assoc]
    · simp only [if_neg hw, bind_assoc]

theorem subSame_def (mem : Mem) (x y : BInt) : BInt.subSame mem x y = (do
    let c ← BInt.absCmp x y
    let (sign, a, b) := if c = -1 then (-x.sign, y.chunks, x.chunks) else (x.sign, x.chunks, y.chunks)
    let a ← subLoops mem a b
    pure (BInt.trim { sign := sign, chunks := a })) := by
  unfold BInt.subSame subLoops
  congr 1
  funext c
  by_cases hc : c = -1
  · simp only [if_pos hc, bind_assoc]
  · simp only [if_neg hc, bind_assoc]

open Classical in
theorem big_subSame (mem : Mem) (x y s t : ℤ) :
    Big.subSame mem ⟨s, (enc x).chunks⟩ ⟨t, (enc y).chunks⟩ =
      if BorrowFits (max |x| |y|) (min |x| |y|) then BInt.subSame mem ⟨s, (enc x).chunks⟩ ⟨t, (enc y).chunks⟩
      else .ub .overflow := by
  rw [big_subSame_def, subSame_def]
  have hxl := enc_length_le_iff x maxLen
  have hyl := enc_length_le_iff y maxLen
  by_cases hboth : maxLen < (enc x).chunks.length ∧ maxLen < (enc y).chunks.length
  · rw [if_neg (by
      rintro ⟨h, -⟩
      rcases min_lt_iff.1 h with h | h
      · rw [← hxl] at h; omega
      · rw [← hyl] at h; omega)]
    by_cases hlen : (enc x).chunks.length = (enc y).chunks.length
    · rw [big_absCmp_low _ _ _ _ hlen]
      simp only [Res.ok_bind]
      split
      · simp only [bigSubLoops_long (enc_digs y) (enc_digs x) (by omega) hboth.1, Res.ub_bind]
      · simp only [bigSubLoops_long (enc_digs x) (enc_digs y) (by omega) hboth.2, Res.ub_bind]
    · rw [big_absCmp_len (x := ⟨s, (enc x).chunks⟩) (y := ⟨t, (enc y).chunks⟩) hlen, absCmp_enc]
      simp only [Res.ok_bind]
      split
      · rename_i h
        have h' : |x| < |y| := by
          by_contra hc
          rcases Int.sign_eq_neg_one_iff_neg.1 h with h''
          omega
        simp only [bigSubLoops_long (enc_digs y) (enc_digs x) (enc_len_le h'.le) hboth.1, Res.ub_bind]
      · rename_i h
        have h' : |y| ≤ |x| := by
          by_contra hc
          exact h (Int.sign_eq_neg_one_of_neg (by omega))
        simp only [bigSubLoops_long (enc_digs x) (enc_digs y) (enc_len_le h') hboth.2, Res.ub_bind]
  · have hcmp : Big.absCmp ⟨s, (enc x).chunks⟩ ⟨t, (enc y).chunks⟩ = BInt.absCmp ⟨s, (enc x).chunks⟩ ⟨t, (enc y).chunks⟩ := by
      by_cases hlen : (enc x).chunks.length = (enc y).chunks.length
      · exact big_absCmp (by simp only; omega)
      · exact big_absCmp_len hlen
    rw [hcmp, absCmp_enc]
    simp only [Res.ok_bind]
    by_cases hc : |x| < |y|
    · rw [if_pos (Int.sign_eq_neg_one_of_neg (by omega))]
      simp only
      have hl := enc_len_le hc.le
      rw [bigSubLoops_eq (enc_digs y) (enc_digs x) hl (by rw [enc_val, enc_val]; omega) (by omega), enc_val, enc_val,
        max_eq_right hc.le, min_eq_left hc.le]
      have : BorrowFits |y| |x| ↔ |x| ≤ |y| % 10 ^ (maxLen + 1) := by
        unfold BorrowFits
        rw [← hxl]
        exact ⟨fun h => h.2, fun h => ⟨by omega, h⟩⟩
      by_cases hf : |x| ≤ |y| % 10 ^ (maxLen + 1)
      · rw [if_pos hf, if_pos (this.2 hf)]
      · rw [if_neg hf, if_neg (fun h => hf (this.1 h))]; rfl
    · have hne : ¬ Int.sign (|x| - |y|) = -1 := by
        intro h
        have := Int.sign_eq_neg_one_iff_neg.1 h
        omega
      rw [if_neg hne]
      simp only
      rw [not_lt] at hc
      have hl := enc_len_le hc
      rw [bigSubLoops_eq (enc_digs x) (enc_digs y) hl (by rw [enc_val, enc_val]; omega) (by omega), enc_val, enc_val,
        max_eq_left hc, min_eq_right hc]
      have : BorrowFits |x| |y| ↔ |y| ≤ |x| % 10 ^ (maxLen + 1) := by
        unfold BorrowFits
        rw [← hyl]
        exact ⟨fun h => h.2, fun h => ⟨by omega, h⟩⟩
      by_cases hf : |y| ≤ |x| % 10 ^ (maxLen + 1)
      · rw [if_pos hf, if_pos (this.2 hf)]
      · rw [if_neg hf, if_neg (fun h => hf (this.1 h))]; rfl

/-! ## the operators -/

open Classical in
theorem big_addSame' (mem : Mem) {x y : ℤ} (hx : x ≠ 0) :
    Big.addSame mem false (enc x) (enc y) =
      if CarryFits |x| |y| then BInt.addSame mem false (enc x) (enc y) else .ub .overflow := by
  have h := addSame_spec mem (sign_cases hx) (enc_digs x) (enc_digs y) y.sign
  rw [enc_val, enc_val] at h
  rw [enc_eta x, enc_eta y, big_addSame mem (sign_cases hx), h]

open Classical in
/-- `x -= y` counts its way through exactly if `AddFits x (-y)`. -/
theorem big_sub (mem : Mem) {k : ℕ} (hk : 2 ≤ k) (x y : ℤ) :
    Big.sub mem k (enc x) (enc y) =
      if AddFits x (-y) then BInt.sub mem k (enc x) (enc y) else .ub .overflow := by
  obtain ⟨k, rfl⟩ : ∃ j, k = j + 2 := ⟨k - 2, by omega⟩
  unfold Big.sub BInt.sub Big.subAssign BInt.subAssign
  by_cases hx : x = 0
  · rw [if_pos (show AddFits x (-y) from Or.inl hx), if_pos (c := (enc x).sign = 0 ∨ _) (by subst hx; simp [enc_zero])]
    rw [if_pos (c := (enc x).sign = 0 ∨ _) (by subst hx; simp [enc_zero])]
  by_cases hy : y = 0
  · rw [if_pos (show AddFits x (-y) from Or.inr (Or.inl (by omega))), if_pos (c := _ ∨ (enc y).sign = 0) (by subst hy; simp [enc_zero])]
    rw [if_pos (c := _ ∨ (enc y).sign = 0) (by subst hy; simp [enc_zero])]
  have h0 : ¬ ((enc x).sign = 0 ∨ (enc y).sign = 0) := by simp only [enc_sign_eq_zero]; tauto
  rw [if_neg h0, if_neg h0]
  have hy' : -y ≠ 0 := by omega
  by_cases hs : x.sign = y.sign
  · have hs' : ¬ (enc x).sign ≠ (enc y).sign := by simpa [enc_sign] using hs
    rw [if_neg hs', if_neg hs', enc_eta x, enc_eta y, big_subSame]
    have : AddFits x (-y) ↔ BorrowFits (max |x| |y|) (min |x| |y|) := by
      unfold AddFits
      rw [abs_neg, Int.sign_neg, hs]
      have : y.sign ≠ -y.sign := by rcases sign_cases hy with h | h <;> rw [h] <;> decide
      tauto
    by_cases hf : AddFits x (-y)
    · rw [if_pos hf, if_pos (this.1 hf)]
    · rw [if_neg hf, if_neg (fun h => hf (this.2 h))]
  · have hs' : (enc x).sign ≠ (enc y).sign := by simpa [enc_sign] using hs
    have hs2 := sign_ne_iff hx hy hs
    rw [if_pos hs', if_pos hs', neg_enc]
    unfold Big.addAssign BInt.addAssign
    have h0' : ¬ ((enc x).sign = 0 ∨ (enc (-y)).sign = 0) := by simp only [enc_sign_eq_zero]; tauto
    have hs3 : ¬ (enc x).sign ≠ (enc (-y)).sign := by simpa [enc_sign] using hs2
    rw [if_neg h0', if_neg h0', if_neg hs3, if_neg hs3, big_addSame' mem hx]
    have : AddFits x (-y) ↔ CarryFits |x| |(-y)| := by
      unfold AddFits
      tauto
    by_cases hf : AddFits x (-y)
    · rw [if_pos hf, if_pos (this.1 hf)]
    · rw [if_neg hf, if_neg (fun h => hf (this.2 h))]

open Classical in
theorem big_add (mem : Mem) {k : ℕ} (hk : 2 ≤ k) (x y : ℤ) :
    Big.add mem k (enc x) (enc y) =
      if AddFits x y then BInt.add mem k (enc x) (enc y) else .ub .overflow := by
  obtain ⟨k, rfl⟩ : ∃ j, k = j + 2 := ⟨k - 2, by omega⟩
  unfold Big.add BInt.add Big.addAssign BInt.addAssign
  by_cases hx : x = 0
  · rw [if_pos (show AddFits x y from Or.inl hx), if_pos (c := (enc x).sign = 0 ∨ _) (by subst hx; simp [enc_zero])]
    rw [if_pos (c := (enc x).sign = 0 ∨ _) (by subst hx; simp [enc_zero])]
  by_cases hy : y = 0
  · rw [if_pos (show AddFits x y from Or.inr (Or.inl (by omega))), if_pos (c := _ ∨ (enc y).sign = 0) (by subst hy; simp [enc_zero])]
    rw [if_pos (c := _ ∨ (enc y).sign = 0) (by subst hy; simp [enc_zero])]
  have h0 : ¬ ((enc x).sign = 0 ∨ (enc y).sign = 0) := by simp only [enc_sign_eq_zero]; tauto
  rw [if_neg h0, if_neg h0]
  have hy' : -y ≠ 0 := by omega
  by_cases hs : x.sign = y.sign
  · have hs' : ¬ (enc x).sign ≠ (enc y).sign := by simpa [enc_sign] using hs
    rw [if_neg hs', if_neg hs', big_addSame' mem hx]
    have : AddFits x y ↔ CarryFits |x| |y| := by
      unfold AddFits
      tauto
    by_cases hf : AddFits x y
    · rw [if_pos hf, if_pos (this.1 hf)]
    · rw [if_neg hf, if_neg (fun h => hf (this.2 h))]
  · have hs' : (enc x).sign ≠ (enc y).sign := by simpa [enc_sign] using hs
    have hs2 := sign_ne_iff hx hy hs
    rw [if_pos hs', if_pos hs', neg_enc]
    unfold Big.subAssign BInt.subAssign
    have h0' : ¬ ((enc x).sign = 0 ∨ (enc (-y)).sign = 0) := by simp only [enc_sign_eq_zero]; tauto
    have hs3 : ¬ (enc x).sign ≠ (enc (-y)).sign := by simpa [enc_sign] using hs2
    rw [if_neg h0', if_neg h0', if_neg hs3, if_neg hs3, enc_eta x, enc_eta (-y), big_subSame]
    have : AddFits x y ↔ BorrowFits (max |x| |(-y)|) (min |x| |(-y)|) := by
      unfold AddFits
      rw [abs_neg]
      tauto
    by_cases hf : AddFits x y
    · rw [if_pos hf, if_pos (this.1 hf)]
    · rw [if_neg hf, if_neg (fun h => hf (this.2 h))]

end Pyincpp
