import Verif.Proof.IntBasic
import Mathlib.Tactic.LinearCombination

/-! # Correctness of `+=` and `-=` on operands of equal sign -/

namespace Pyincpp

theorem isInt_of_bound {x : ℤ} (h1 : -1000 ≤ x) (h2 : x ≤ 1000) : IsInt x := by
  unfold IsInt INT_MIN INT_MAX; omega

theorem vaddAt_ok {mem : Mem} {v : List ℤ} {i : ℕ} {d : ℤ} (h : i < v.length) (hb : IsInt (v[i] + d)) :
    vaddAt mem v i d = .ok (v.set i (v[i] + d)) := by
  unfold vaddAt
  rw [if_neg (by rintro ⟨h', _⟩; omega)]
  simp [vget_ok h, iadd, ck_ok hb, vset_ok h]

theorem vaddAt_lenient {v : List ℤ} {i : ℕ} (h : i = v.length) : vaddAt .lenient v i 0 = .ok v := by
  simp [vaddAt, h]

theorem vaddAt_strict {v : List ℤ} {i : ℕ} {d : ℤ} (h : i = v.length) :
    vaddAt .strict v i d = .ub .outOfBounds := by
  simp [vaddAt, h, vget_ub]

/-- Digits are in `0..9`, except that the one at position `i` may be 10. -/
def Carry (i : ℕ) (v : List ℤ) : Prop :=
  ∀ (j : ℕ) (h : j < v.length), 0 ≤ v[j] ∧ (v[j] ≤ 9 ∨ (j = i ∧ v[j] ≤ 10))

/-- Digits are in `0..9`, except that the one at position `i` may be -1. -/
def Borrow (i : ℕ) (v : List ℤ) : Prop :=
  ∀ (j : ℕ) (h : j < v.length), v[j] ≤ 9 ∧ (0 ≤ v[j] ∨ (j = i ∧ -1 ≤ v[j]))

theorem Digs.carry {v : List ℤ} (h : Digs v) (i : ℕ) : Carry i v :=
  fun j hj => ⟨(h j hj).1, Or.inl (h j hj).2⟩

theorem Digs.borrow {v : List ℤ} (h : Digs v) (i : ℕ) : Borrow i v :=
  fun j hj => ⟨(h j hj).2, Or.inl (h j hj).1⟩

theorem vresize_length (v : List ℤ) (n : ℕ) : (vresize v n).length = n := by
  simp [vresize]; omega

theorem vresize_val {v : List ℤ} {n : ℕ} (h : v.length ≤ n) : val (vresize v n) = val v := by
  simp [vresize, List.take_of_length_le h, val_append]

theorem digs_append {a b : List ℤ} (ha : Digs a) (hb : Digs b) : Digs (a ++ b) := by
  rw [digs_iff_mem] at *
  intro d hd
  rcases List.mem_append.mp hd with h | h
  · exact ha d h
  · exact hb d h

theorem digs_replicate_zero (n : ℕ) : Digs (List.replicate n 0) := by
  rw [digs_iff_mem]
  intro d hd
  rw [List.eq_of_mem_replicate hd]; omega

theorem vresize_digs {v : List ℤ} (h : Digs v) (n : ℕ) : Digs (vresize v n) :=
  digs_append (digs_take h n) (digs_replicate_zero _)

/-! ## addition -/

/-- One step of the addition loop. -/
theorem add_step {mem : Mem} {a : List ℤ} {i : ℕ} {d : ℤ} (hc : Carry i a) (h : i + 1 < a.length)
    (hd : 0 ≤ d ∧ d ≤ 9) :
    ∃ a', (do
      let tmp ← iadd (← vget a i) d
      let a ← vset a i (tmp.tmod 10)
      vaddAt mem a (i + 1) (tmp.tdiv 10)) = .ok a' ∧ a'.length = a.length ∧ Carry (i + 1) a' ∧
      val a' = val a + d * 10 ^ i := by
  have hi : i < a.length := by omega
  obtain ⟨h0, h9⟩ := hc i hi
  have h10 : a[i] ≤ 10 := by rcases h9 with h | h <;> omega
  obtain ⟨g0, g9⟩ := hc (i + 1) h
  have g9' : a[i + 1] ≤ 9 := by rcases g9 with h | h <;> omega
  have hnn : 0 ≤ a[i] + d := by omega
  have e1 : (a[i] + d).tmod 10 = (a[i] + d) % 10 := Int.tmod_eq_emod_of_nonneg hnn
  have e2 : (a[i] + d).tdiv 10 = (a[i] + d) / 10 := Int.tdiv_eq_ediv_of_nonneg hnn
  have hl : i + 1 < (a.set i ((a[i] + d) % 10)).length := by simpa using h
  have hg : (a.set i ((a[i] + d) % 10))[i + 1] = a[i + 1] := by
    rw [List.getElem_set_ne (by omega)]
  refine ⟨(a.set i ((a[i] + d) % 10)).set (i + 1) (a[i + 1] + (a[i] + d) / 10), ?_, by simp, ?_, ?_⟩
  · simp only [vget_ok hi, Res.ok_bind, iadd]
    rw [ck_ok (isInt_of_bound (by omega) (by omega))]
    simp only [Res.ok_bind, vset_ok hi, e1, e2]
    rw [vaddAt_ok hl (by rw [hg]; exact isInt_of_bound (by omega) (by omega)), hg]
  · intro j hj
    simp only [List.length_set] at hj
    obtain ⟨k0, k9⟩ := hc j hj
    by_cases hj1 : j = i + 1
    · subst hj1
      rw [List.getElem_set_self]
      exact ⟨by omega, Or.inr ⟨rfl, by omega⟩⟩
    · rw [List.getElem_set_ne (by omega)]
      by_cases hji : j = i
      · subst hji
        rw [List.getElem_set_self]
        omega
      · rw [List.getElem_set_ne (by omega)]
        exact ⟨k0, Or.inl (by rcases k9 with h | h <;> omega)⟩
  · rw [val_set _ _ _ hl, val_set _ _ _ hi, hg]
    have : (a[i] + d) = 10 * ((a[i] + d) / 10) + (a[i] + d) % 10 := (Int.mul_ediv_add_emod _ _).symm
    rw [pow_succ]
    linear_combination (-(10:ℤ) ^ i) * this

/-- One step of the carry loop. -/
theorem add_carry_step {mem : Mem} {a : List ℤ} {i : ℕ} (hc : Carry i a) (h : i + 1 < a.length)
    (h10 : a[i] = 10) :
    ∃ a', (do
      let a ← vaddAt mem a (i + 1) 1
      vset a i 0) = .ok a' ∧ a'.length = a.length ∧ Carry (i + 1) a' ∧ val a' = val a := by
  have hi : i < a.length := by omega
  obtain ⟨g0, g9⟩ := hc (i + 1) h
  have g9' : a[i + 1] ≤ 9 := by rcases g9 with h | h <;> omega
  refine ⟨(a.set (i + 1) (a[i + 1] + 1)).set i 0, ?_, by simp, ?_, ?_⟩
  · rw [vaddAt_ok h (isInt_of_bound (by omega) (by omega))]
    simp only [Res.ok_bind]
    rw [vset_ok (by simpa using hi)]
  · intro j hj
    simp only [List.length_set] at hj
    obtain ⟨k0, k9⟩ := hc j hj
    by_cases hji : j = i
    · subst hji
      rw [List.getElem_set_self]
      omega
    · rw [List.getElem_set_ne (by omega)]
      by_cases hj1 : j = i + 1
      · subst hj1
        rw [List.getElem_set_self]
        omega
      · rw [List.getElem_set_ne (by omega)]
        exact ⟨k0, Or.inl (by rcases k9 with h | h <;> omega)⟩
  · rw [val_set _ _ _ (by simpa using hi), val_set _ _ _ h, List.getElem_set_ne (by omega), h10, pow_succ]
    ring

theorem addSame_spec (mem : Mem) {s : ℤ} (hs : s = 1 ∨ s = -1) {X Y : List ℤ} (hX : Digs X) (hY : Digs Y) (t : ℤ) :
    BInt.addSame mem false ⟨s, X⟩ ⟨t, Y⟩ = .ok (enc (s * (val X + val Y))) := by
  unfold BInt.addSame
  simp only [Bool.false_eq_true, if_false]
  set L := max X.length Y.length + 1 with hL
  have hXL : X.length ≤ L := by omega
  obtain ⟨a₁, e₁, l₁, c₁, v₁⟩ := forRange_inv
    (body := fun i a => do
      let tmp ← iadd (← vget a i) (← vget Y i)
      let a ← vset a i (tmp.tmod 10)
      vaddAt mem a (i + 1) (tmp.tdiv 10))
    (fun i a => a.length = L ∧ Carry i a ∧ val a = val X + val (Y.take i)) (lo := 0) (hi := Y.length) (Nat.zero_le _)
    (s := vresize X L)
    ⟨vresize_length _ _, (vresize_digs hX L).carry 0, by simp [vresize_val hXL]⟩
    (by
      rintro j a _ hj ⟨l, c, v⟩
      obtain ⟨a', e, l', c', v'⟩ := add_step (mem := mem) (a := a) (i := j) (d := Y[j]) c (by omega) (hY j hj)
      refine ⟨a', ?_, by omega, c', ?_⟩
      · rw [← e, vget_ok hj]; rfl
      · rw [v', v, val_take_succ _ _ hj]; ring)
  rw [e₁]
  simp only [Res.ok_bind]
  rw [List.take_length] at v₁
  have hXv := val_lt hX
  have hYv := val_lt hY
  have hX0 := val_nonneg hX
  have hY0 := val_nonneg hY
  have hbound : val X + val Y < 2 * 10 ^ (L - 1) := by
    have h1 : (10:ℤ) ^ X.length ≤ 10 ^ (L - 1) := pow_le_pow_right₀ (by norm_num) (by omega)
    have h2 : (10:ℤ) ^ Y.length ≤ 10 ^ (L - 1) := pow_le_pow_right₀ (by norm_num) (by omega)
    linarith
  obtain ⟨a₂, j, e₂, hj1, hj2, ⟨l₂, c₂, v₂⟩, hend⟩ := forUpWhile_inv
    (cond := fun i a => do pure (decide ((← vget a i) ≥ 10)))
    (body := fun i a => do
      let a ← vaddAt mem a (i + 1) 1
      vset a i 0)
    (fun i a => a.length = L ∧ Carry i a ∧ val a = val X + val Y) (a₁.length - Y.length) Y.length a₁
    ⟨l₁, c₁, v₁⟩
    (by
      rintro j a hj hj' ⟨l, c, v⟩
      have hjl : j < a.length := by omega
      by_cases h10 : a[j] ≥ 10
      · right
        refine ⟨by simp [vget_ok hjl, h10], ?_⟩
        have he : a[j] = 10 := by
          have := (c j hjl).2
          rcases this with h | h <;> omega
        have hj2 : j + 1 < a.length := by
          by_contra hcon
          have hjL : j = L - 1 := by omega
          have hge := val_ge_digit (fun j hj => (c j hj).1) j hjl
          rw [he, v, hjL] at hge
          have : (0:ℤ) < 10 ^ (L - 1) := by positivity
          linarith
        obtain ⟨a', e, l', c', v'⟩ := add_carry_step (mem := mem) c hj2 he
        exact ⟨a', e, by omega, c', by rw [v', v]⟩
      · left
        simp [vget_ok hjl]; omega)
  rw [e₂]
  simp only [Res.ok_bind, Res.pure_eq]
  have hd : Digs a₂ := by
    intro i hi
    obtain ⟨h0, h9⟩ := c₂ i hi
    refine ⟨h0, ?_⟩
    rcases h9 with h | ⟨rfl, h⟩
    · exact h
    · rcases hend with hend | hend
      · omega
      · simp [vget_ok hi] at hend; omega
  rw [trim_enc hd hs, v₂]

/-! ## subtraction -/

theorem cycleMod_ok {t : ℤ} (h1 : -10 ≤ t) (h2 : t ≤ 9) : BInt.cycleMod t 10 = .ok (t - t.fdiv 10 * 10) := by
  have e : t.fdiv 10 = t / 10 := Int.fdiv_eq_ediv_of_nonneg t (by norm_num)
  unfold BInt.cycleMod BInt.floorDiv imul isub
  rw [ck_ok (isInt_of_bound (by omega) (by omega))]
  simp only [Res.ok_bind]
  rw [ck_ok (isInt_of_bound (by omega) (by omega))]

theorem sub_step {mem : Mem} {a : List ℤ} {i : ℕ} {d : ℤ} (hc : Borrow i a) (h : i + 1 < a.length)
    (hd : 0 ≤ d ∧ d ≤ 9) :
    ∃ a', (do
      let tmp ← isub (← vget a i) d
      let a ← vset a i (← BInt.cycleMod tmp 10)
      vaddAt mem a (i + 1) (BInt.floorDiv tmp 10)) = .ok a' ∧ a'.length = a.length ∧ Borrow (i + 1) a' ∧
      val a' = val a - d * 10 ^ i := by
  have hi : i < a.length := by omega
  obtain ⟨h0, h9⟩ := hc i hi
  have h10 : -1 ≤ a[i] := by rcases h9 with h | h <;> omega
  obtain ⟨g0, g9⟩ := hc (i + 1) h
  have g9' : 0 ≤ a[i + 1] := by rcases g9 with h | h <;> omega
  have e : (a[i] - d).fdiv 10 = (a[i] - d) / 10 := Int.fdiv_eq_ediv_of_nonneg _ (by norm_num)
  have hl : i + 1 < (a.set i (a[i] - d - (a[i] - d) / 10 * 10)).length := by simpa using h
  have hg : (a.set i (a[i] - d - (a[i] - d) / 10 * 10))[i + 1] = a[i + 1] := by
    rw [List.getElem_set_ne (by omega)]
  refine ⟨(a.set i (a[i] - d - (a[i] - d) / 10 * 10)).set (i + 1) (a[i + 1] + (a[i] - d) / 10), ?_, by simp, ?_, ?_⟩
  · simp only [vget_ok hi, Res.ok_bind, isub]
    rw [ck_ok (isInt_of_bound (by omega) (by omega))]
    simp only [Res.ok_bind]
    rw [cycleMod_ok (by omega) (by omega)]
    simp only [Res.ok_bind, vset_ok hi, BInt.floorDiv, e]
    rw [vaddAt_ok hl (by rw [hg]; exact isInt_of_bound (by omega) (by omega)), hg]
  · intro j hj
    simp only [List.length_set] at hj
    obtain ⟨k0, k9⟩ := hc j hj
    by_cases hj1 : j = i + 1
    · subst hj1
      rw [List.getElem_set_self]
      exact ⟨by omega, Or.inr ⟨rfl, by omega⟩⟩
    · rw [List.getElem_set_ne (by omega)]
      by_cases hji : j = i
      · subst hji
        rw [List.getElem_set_self]
        omega
      · rw [List.getElem_set_ne (by omega)]
        exact ⟨k0, Or.inl (by rcases k9 with h | h <;> omega)⟩
  · rw [val_set _ _ _ hl, val_set _ _ _ hi, hg, pow_succ]
    ring

theorem sub_borrow_step {mem : Mem} {a : List ℤ} {i : ℕ} (hc : Borrow i a) (h : i + 1 < a.length)
    (h10 : a[i] = -1) :
    ∃ a', (do
      let a ← vaddAt mem a (i + 1) (-1)
      vset a i 9) = .ok a' ∧ a'.length = a.length ∧ Borrow (i + 1) a' ∧ val a' = val a := by
  have hi : i < a.length := by omega
  obtain ⟨g0, g9⟩ := hc (i + 1) h
  have g9' : 0 ≤ a[i + 1] := by rcases g9 with h | h <;> omega
  refine ⟨(a.set (i + 1) (a[i + 1] + -1)).set i 9, ?_, by simp, ?_, ?_⟩
  · rw [vaddAt_ok h (isInt_of_bound (by omega) (by omega))]
    simp only [Res.ok_bind]
    rw [vset_ok (by simpa using hi)]
  · intro j hj
    simp only [List.length_set] at hj
    obtain ⟨k0, k9⟩ := hc j hj
    by_cases hji : j = i
    · subst hji
      rw [List.getElem_set_self]
      omega
    · rw [List.getElem_set_ne (by omega)]
      by_cases hj1 : j = i + 1
      · subst hj1
        rw [List.getElem_set_self]
        omega
      · rw [List.getElem_set_ne (by omega)]
        exact ⟨k0, Or.inl (by rcases k9 with h | h <;> omega)⟩
  · rw [val_set _ _ _ (by simpa using hi), val_set _ _ _ h, List.getElem_set_ne (by omega), h10, pow_succ]
    ring

/-- If the digits below the top are at most 9 and the top digit is negative, the value is negative. -/
theorem val_top_neg {a : List ℤ} {i : ℕ} (hi : i < a.length) (hlast : i + 1 = a.length)
    (hlow : ∀ (j : ℕ) (h : j < i), a[j] ≤ 9) {t : ℤ} (ht : t ≤ -1) : val a + (t - a[i]) * 10 ^ i < 0 := by
  have hsplit : val a = val (a.take i) + a[i] * 10 ^ i := by
    rw [← val_take_succ a i hi, List.take_of_length_le (by omega)]
  have hlow' : val (a.take i) < 10 ^ i := by
    have : ∀ (v : List ℤ), (∀ (j : ℕ) (h : j < v.length), v[j] ≤ 9) → val v < 10 ^ v.length := by
      intro v
      induction v with
      | nil => simp
      | cons d ds ih =>
        intro h
        have hd := h 0 (by simp)
        have := ih (fun j hj => by
          have := h (j + 1) (by simpa using hj)
          simpa using this)
        simp at hd
        simp [pow_succ]; linarith
    have := this (a.take i) (fun j hj => by
      have hj' : j < i := by simp at hj; omega
      have := hlow j hj'
      simpa using this)
    rwa [show (a.take i).length = i by simp; omega] at this
  have hp : (0:ℤ) < 10 ^ i := by positivity
  nlinarith

/-- The subtraction part when the minuend has the greater or equal value. The access behind the vector happens
exactly when the lengths are equal. -/
theorem subLoop_spec {A B : List ℤ} (hA : Digs A) (hB : Digs B) (hlen : B.length ≤ A.length) (mem : Mem)
    (hval : val B ≤ val A) (hmem : mem = .lenient ∨ B.length < A.length) {s : ℤ} (hs : s = 1 ∨ s = -1) :
    (do
      let a ← forRange 0 B.length (fun i a => do
        let tmp ← isub (← vget a i) (← vget B i)
        let a ← vset a i (← BInt.cycleMod tmp 10)
        vaddAt mem a (i + 1) (BInt.floorDiv tmp 10)) A
      let a ← forUpWhile (fun i a => do pure (decide ((← vget a i) < 0)))
        (fun i a => do
          let a ← vaddAt mem a (i + 1) (-1)
          vset a i 9) B.length (a.length - B.length) a
      pure (BInt.trim { sign := s, chunks := a })) = .ok (enc (s * (val A - val B))) := by
  obtain ⟨a₁, e₁, l₁, c₁, v₁⟩ := forRange_inv
    (body := fun i a => do
      let tmp ← isub (← vget a i) (← vget B i)
      let a ← vset a i (← BInt.cycleMod tmp 10)
      vaddAt mem a (i + 1) (BInt.floorDiv tmp 10))
    (fun i a => a.length = A.length ∧ Borrow i a ∧ val a = val A - val (B.take i))
    (lo := 0) (hi := B.length) (Nat.zero_le _) (s := A)
    ⟨rfl, hA.borrow 0, by simp⟩
    (by
      rintro j a _ hj ⟨l, c, v⟩
      by_cases htop : j + 1 < a.length
      · obtain ⟨a', e, l', c', v'⟩ := sub_step (mem := mem) (a := a) (i := j) (d := B[j]) c htop (hB j hj)
        refine ⟨a', ?_, by omega, c', ?_⟩
        · rw [← e, vget_ok hj]; rfl
        · rw [v', v, val_take_succ _ _ hj]; ring
      · -- top digit: only with equal lengths, hence lenient
        have hmem' : mem = .lenient := by
          rcases hmem with h | h
          · exact h
          · omega
        subst hmem'
        have hja : j < a.length := by omega
        have hBt : B.take (j + 1) = B := List.take_of_length_le (by omega)
        have hvB : val B = val (B.take j) + B[j] * 10 ^ j := by rw [← val_take_succ _ _ hj, hBt]
        obtain ⟨k9, k0⟩ := c j hja
        have k0' : -1 ≤ a[j] := by rcases k0 with h | h <;> omega
        have hd := hB j hj
        have hnn : 0 ≤ a[j] - B[j] := by
          by_contra hneg
          have := val_top_neg hja (by omega) (fun i hi => (c i (by omega)).1) (t := a[j] - B[j]) (by omega)
          rw [v] at this
          have : val A - val B < 0 := by rw [hvB]; linarith
          omega
        refine ⟨a.set j (a[j] - B[j]), ?_, by simpa using l, ?_, ?_⟩
        · simp only [vget_ok hja, vget_ok hj, Res.ok_bind, isub]
          rw [ck_ok (isInt_of_bound (by omega) (by omega))]
          simp only [Res.ok_bind]
          rw [cycleMod_ok (by omega) (by omega)]
          have e0 : (a[j] - B[j]).fdiv 10 = 0 := by
            rw [Int.fdiv_eq_ediv_of_nonneg _ (by norm_num)]; omega
          simp only [Res.ok_bind, BInt.floorDiv, e0, vset_ok hja]
          rw [vaddAt_lenient (by simp; omega)]
          simp
        · intro i hi
          simp only [List.length_set] at hi
          by_cases hij : i = j
          · subst hij; rw [List.getElem_set_self]; omega
          · rw [List.getElem_set_ne (by omega)]
            obtain ⟨m9, m0⟩ := c i hi
            exact ⟨m9, Or.inl (by rcases m0 with h | h <;> omega)⟩
        · rw [val_set _ _ _ hja, v, hBt, hvB]; ring)
  rw [e₁]
  simp only [Res.ok_bind]
  rw [List.take_length] at v₁
  obtain ⟨a₂, j, e₂, hj1, hj2, ⟨l₂, c₂, v₂⟩, hend⟩ := forUpWhile_inv
    (cond := fun i a => do pure (decide ((← vget a i) < 0)))
    (body := fun i a => do
      let a ← vaddAt mem a (i + 1) (-1)
      vset a i 9)
    (fun i a => a.length = A.length ∧ Borrow i a ∧ val a = val A - val B) (a₁.length - B.length) B.length a₁
    ⟨l₁, c₁, v₁⟩
    (by
      rintro j a hj hj' ⟨l, c, v⟩
      have hjl : j < a.length := by omega
      by_cases h10 : a[j] < 0
      · right
        refine ⟨by simp [vget_ok hjl, h10], ?_⟩
        have he : a[j] = -1 := by
          have := (c j hjl).2
          rcases this with h | h <;> omega
        have hj2 : j + 1 < a.length := by
          by_contra hcon
          have := val_top_neg hjl (by omega) (fun i hi => (c i (by omega)).1) (t := a[j]) (by omega)
          rw [v] at this
          simp at this
          omega
        obtain ⟨a', e, l', c', v'⟩ := sub_borrow_step (mem := mem) c hj2 he
        exact ⟨a', e, by omega, c', by rw [v', v]⟩
      · left
        simp [vget_ok hjl]; omega)
  rw [e₂]
  simp only [Res.ok_bind, Res.pure_eq]
  have hd : Digs a₂ := by
    intro i hi
    obtain ⟨h9, h0⟩ := c₂ i hi
    refine ⟨?_, h9⟩
    rcases h0 with h | ⟨rfl, h⟩
    · exact h
    · rcases hend with hend | hend
      · omega
      · simp [vget_ok hi] at hend; omega
  rw [trim_enc hd hs, v₂]

end Pyincpp
