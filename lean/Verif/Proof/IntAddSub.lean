import Verif.Proof.IntAdd

/-! # `abs_cmp`, `+=`, `-=`, comparison -/

namespace Pyincpp

theorem enc_length_le_iff (z : ℤ) (k : ℕ) : (enc z).chunks.length ≤ k ↔ |z| < 10 ^ k := by
  simp only [enc, List.length_map]
  rw [Nat.digits_length_le_iff (by norm_num)]
  constructor
  · intro h
    rw [Int.abs_eq_natAbs]; exact_mod_cast h
  · intro h
    rw [Int.abs_eq_natAbs] at h; exact_mod_cast h

theorem enc_abs_lt (z : ℤ) : |z| < 10 ^ (enc z).chunks.length := (enc_length_le_iff z _).mp le_rfl

theorem enc_len_lt {x y : ℤ} (h : (enc x).chunks.length < (enc y).chunks.length) : |x| < |y| := by
  by_contra hc
  have h1 := enc_abs_lt x
  have := (enc_length_le_iff y (enc x).chunks.length).mpr (by omega)
  omega

theorem enc_len_le {x y : ℤ} (h : |x| ≤ |y|) : (enc x).chunks.length ≤ (enc y).chunks.length := by
  rw [enc_length_le_iff]; have := enc_abs_lt y; omega

theorem absCmpLoop_spec {A B : List ℤ} (hA : Digs A) (hB : Digs B) :
    ∀ n, n ≤ A.length → n ≤ B.length →
    BInt.absCmpLoop A B n = .ok (Int.sign (val (A.take n) - val (B.take n)))
  | 0, _, _ => by simp [BInt.absCmpLoop]
  | n + 1, h1, h2 => by
    have ha : n < A.length := by omega
    have hb : n < B.length := by omega
    have ih := absCmpLoop_spec hA hB n (by omega) (by omega)
    rw [val_take_succ _ _ ha, val_take_succ _ _ hb]
    have bA := val_lt (digs_take hA n)
    have bB := val_lt (digs_take hB n)
    have nA := val_nonneg (digs_take hA n)
    have nB := val_nonneg (digs_take hB n)
    rw [show (A.take n).length = n by simp; omega] at bA
    rw [show (B.take n).length = n by simp; omega] at bB
    unfold BInt.absCmpLoop
    simp only [vget_ok ha, vget_ok hb, Res.ok_bind, Res.pure_eq]
    have hp : (0:ℤ) < 10 ^ n := by positivity
    by_cases he : A[n] = B[n]
    · rw [if_neg (by simpa using he), ih, he]
      congr 2; ring
    · rw [if_pos he]
      congr 1
      by_cases hgt : A[n] > B[n]
      · rw [if_pos hgt, Int.sign_eq_one_of_pos]
        nlinarith
      · rw [if_neg hgt, Int.sign_eq_neg_one_of_neg]
        have : A[n] + 1 ≤ B[n] := by omega
        nlinarith

theorem absCmp_enc (x y : ℤ) (s t : ℤ) :
    BInt.absCmp ⟨s, (enc x).chunks⟩ ⟨t, (enc y).chunks⟩ = .ok (Int.sign (|x| - |y|)) := by
  unfold BInt.absCmp
  simp only
  by_cases hl : (enc x).chunks.length = (enc y).chunks.length
  · rw [if_neg (by simpa using hl), absCmpLoop_spec (enc_digs x) (enc_digs y) _ le_rfl (by omega)]
    rw [List.take_length, hl, List.take_length, enc_val, enc_val]
  · rw [if_pos hl]
    congr 1
    by_cases hgt : (enc x).chunks.length > (enc y).chunks.length
    · rw [if_pos hgt, Int.sign_eq_one_of_pos]
      have := enc_len_lt hgt; omega
    · rw [if_neg hgt, Int.sign_eq_neg_one_of_neg]
      have := enc_len_lt (x := x) (y := y) (by omega); omega

/-! ## subtraction of equal signs -/

theorem subSame_enc (mem : Mem) {x y : ℤ} {s : ℤ} (hs : s = 1 ∨ s = -1) (t : ℤ)
    (hmem : mem = .lenient ∨ (enc x).chunks.length ≠ (enc y).chunks.length) :
    BInt.subSame mem ⟨s, (enc x).chunks⟩ ⟨t, (enc y).chunks⟩ = .ok (enc (s * (|x| - |y|))) := by
  unfold BInt.subSame
  rw [absCmp_enc]
  simp only [Res.ok_bind]
  by_cases hc : |x| < |y|
  · rw [if_pos (Int.sign_eq_neg_one_of_neg (by omega))]
    simp only
    rw [subLoop_spec (enc_digs y) (enc_digs x) (enc_len_le hc.le) mem (by rw [enc_val, enc_val]; omega)
      (by
        rcases hmem with h | h
        · exact Or.inl h
        · right; have := enc_len_le hc.le; omega) (by rcases hs with h | h <;> simp [h])]
    rw [enc_val, enc_val]; congr 2; ring
  · rw [if_neg (by rw [Int.sign_eq_neg_one_iff_neg]; omega)]
    simp only
    rw [subLoop_spec (enc_digs x) (enc_digs y) (enc_len_le (by omega)) mem (by rw [enc_val, enc_val]; omega)
      (by
        rcases hmem with h | h
        · exact Or.inl h
        · right; have := enc_len_le (x := y) (y := x) (by omega); omega) hs]
    rw [enc_val, enc_val]

/-- With equal digit counts the loop touches the element behind the vector. -/
theorem subLoop_strict {A B : List ℤ} (hA : Digs A) (hB : Digs B) (hlen : B.length = A.length) (hne : B ≠ []) :
    forRange 0 B.length (fun i a => do
        let tmp ← isub (← vget a i) (← vget B i)
        let a ← vset a i (← BInt.cycleMod tmp 10)
        vaddAt .strict a (i + 1) (BInt.floorDiv tmp 10)) A = .ub .outOfBounds := by
  have hpos : 0 < B.length := List.length_pos_of_ne_nil hne
  obtain ⟨m, hm⟩ : ∃ m, B.length = m + 1 := ⟨B.length - 1, by omega⟩
  unfold forRange
  rw [show B.length - 0 = m + 1 by omega, forUp_add]
  obtain ⟨a₁, e₁, l₁, c₁⟩ := forUp_inv
    (body := fun i a => do
      let tmp ← isub (← vget a i) (← vget B i)
      let a ← vset a i (← BInt.cycleMod tmp 10)
      vaddAt .strict a (i + 1) (BInt.floorDiv tmp 10))
    (fun i a => a.length = A.length ∧ Borrow i a) m 0 A ⟨rfl, hA.borrow 0⟩
    (by
      rintro j a _ hj ⟨l, c⟩
      have hjB : j < B.length := by omega
      obtain ⟨a', e, l', c', v'⟩ := sub_step (mem := .strict) (a := a) (i := j) (d := B[j]) c (by omega) (hB j hjB)
      refine ⟨a', ?_, by omega, c'⟩
      rw [← e, vget_ok hjB]; rfl)
  rw [e₁]
  simp only [Nat.zero_add] at c₁
  simp only [Res.ok_bind, forUp, Nat.zero_add]
  have hma : m < a₁.length := by omega
  have hmB : m < B.length := by omega
  have hd := hB m hmB
  obtain ⟨k9, k0⟩ := c₁ m hma
  have k0' : -1 ≤ a₁[m] := by rcases k0 with h | h <;> omega
  simp only [vget_ok hma, vget_ok hmB, Res.ok_bind, isub]
  rw [ck_ok (isInt_of_bound (by omega) (by omega))]
  simp only [Res.ok_bind]
  rw [cycleMod_ok (by omega) (by omega)]
  simp only [Res.ok_bind, vset_ok hma]
  rw [vaddAt_strict (by simp; omega)]
  rfl

theorem subSame_strict_ub {x y : ℤ} (hx : x ≠ 0) (s t : ℤ)
    (hlen : (enc x).chunks.length = (enc y).chunks.length) :
    BInt.subSame .strict ⟨s, (enc x).chunks⟩ ⟨t, (enc y).chunks⟩ = .ub .outOfBounds := by
  have hxn : (enc x).chunks ≠ [] := by rw [Ne, enc_nil_iff]; exact hx
  have hyn : (enc y).chunks ≠ [] := by
    intro h; apply hxn
    rw [h] at hlen
    exact List.eq_nil_of_length_eq_zero (by simpa using hlen)
  unfold BInt.subSame
  rw [absCmp_enc]
  simp only [Res.ok_bind]
  by_cases hc : Int.sign (|x| - |y|) = -1
  · rw [if_pos hc]
    simp only
    rw [subLoop_strict (enc_digs y) (enc_digs x) hlen hxn]
    rfl
  · rw [if_neg hc]
    simp only
    rw [subLoop_strict (enc_digs x) (enc_digs y) hlen.symm hyn]
    rfl

/-! ## the operators -/

theorem sign_cases {x : ℤ} (h : x ≠ 0) : x.sign = 1 ∨ x.sign = -1 := by
  rcases lt_trichotomy x 0 with h' | h' | h'
  · right; exact Int.sign_eq_neg_one_of_neg h'
  · exact absurd h' h
  · left; exact Int.sign_eq_one_of_pos h'

theorem enc_eta (x : ℤ) : enc x = ⟨x.sign, (enc x).chunks⟩ := rfl

theorem enc_neg_chunks (x : ℤ) : (enc (-x)).chunks = (enc x).chunks := by
  simp only [enc, Int.natAbs_neg]

theorem enc_zero : enc 0 = ⟨0, []⟩ := by simp [enc]

theorem addSame_enc (mem : Mem) {x y : ℤ} (hx : x ≠ 0) (hs : x.sign = y.sign) :
    BInt.addSame mem false (enc x) (enc y) = .ok (enc (x + y)) := by
  rw [enc_eta x, enc_eta y, addSame_spec mem (sign_cases hx) (enc_digs x) (enc_digs y), enc_val, enc_val, mul_add]
  conv_lhs => rw [Int.sign_mul_abs, hs, Int.sign_mul_abs]

theorem subSame_enc' (mem : Mem) {x y : ℤ} (hx : x ≠ 0) (hs : x.sign = y.sign)
    (hmem : mem = .lenient ∨ (enc x).chunks.length ≠ (enc y).chunks.length) :
    BInt.subSame mem (enc x) (enc y) = .ok (enc (x - y)) := by
  rw [enc_eta x, enc_eta y, subSame_enc mem (sign_cases hx) _ hmem, mul_sub]
  conv_lhs => rw [Int.sign_mul_abs, hs, Int.sign_mul_abs]

theorem sign_ne_iff {x y : ℤ} (hx : x ≠ 0) (hy : y ≠ 0) (h : x.sign ≠ y.sign) : x.sign = (-y).sign := by
  rw [Int.sign_neg]
  rcases sign_cases hx with h1 | h1 <;> rcases sign_cases hy with h2 | h2 <;> simp [h1, h2] at h ⊢

/-- Memory is touched only inside the buffers: the operands of a same-sign subtraction have different lengths. -/
def SubSafe (mem : Mem) (x y : ℤ) : Prop :=
  mem = .lenient ∨ x.sign * y.sign ≠ 1 ∨ (enc x).chunks.length ≠ (enc y).chunks.length

theorem subAssign_enc_aux (mem : Mem) (k : ℕ) {x y : ℤ} (h : SubSafe mem x y) :
    BInt.subAssign mem (k + 2) (enc x) (enc y) = .ok (enc (x - y)) := by
  unfold BInt.subAssign
  by_cases hx : x = 0
  · subst hx; simp [enc_zero, neg_enc]
  by_cases hy : y = 0
  · subst hy
    rw [if_pos (by simp [enc_zero]), if_neg (by rw [enc_sign_eq_zero]; exact hx), sub_zero]
  rw [if_neg (by simp only [enc_sign_eq_zero]; tauto)]
  by_cases hs : x.sign = y.sign
  · rw [if_neg (by simpa [enc_sign] using hs)]
    refine subSame_enc' mem hx hs ?_
    rcases h with h | h | h
    · exact Or.inl h
    · rw [hs] at h
      rcases sign_cases hy with h2 | h2 <;> rw [h2] at h <;> simp at h
    · exact Or.inr h
  · rw [if_pos (by simpa [enc_sign] using hs), neg_enc]
    unfold BInt.addAssign
    have hy' : -y ≠ 0 := by omega
    rw [if_neg (by simp only [enc_sign_eq_zero]; tauto)]
    have hs' := sign_ne_iff hx hy hs
    rw [if_neg (by simpa [enc_sign] using hs'), addSame_enc mem hx hs']
    congr 2

theorem addAssign_enc_aux (mem : Mem) (k : ℕ) {x y : ℤ} (h : SubSafe mem x (-y)) :
    BInt.addAssign mem false (k + 2) (enc x) (enc y) = .ok (enc (x + y)) := by
  unfold BInt.addAssign
  by_cases hx : x = 0
  · subst hx; simp [enc_zero]
  by_cases hy : y = 0
  · subst hy
    rw [if_pos (by simp [enc_zero]), if_neg (by rw [enc_sign_eq_zero]; exact hx), add_zero]
  rw [if_neg (by simp only [enc_sign_eq_zero]; tauto)]
  by_cases hs : x.sign = y.sign
  · rw [if_neg (by simpa [enc_sign] using hs), addSame_enc mem hx hs]
  · rw [if_pos (by simpa [enc_sign] using hs), neg_enc]
    unfold BInt.subAssign
    have hy' : -y ≠ 0 := by omega
    rw [if_neg (by simp only [enc_sign_eq_zero]; tauto)]
    have hs' := sign_ne_iff hx hy hs
    rw [if_neg (by simpa [enc_sign] using hs'), subSame_enc' mem hx hs' ?_]
    · congr 2; ring
    · rcases h with h | h | h
      · exact Or.inl h
      · exfalso
        rw [hs'] at h
        rcases sign_cases hy' with h2 | h2 <;> rw [h2] at h <;> simp at h
      · exact Or.inr h

theorem subAssign_strict_ub (k : ℕ) {x y : ℤ} (h : ¬ SubSafe .strict x y) :
    BInt.subAssign .strict (k + 2) (enc x) (enc y) = .ub .outOfBounds := by
  unfold SubSafe at h
  push Not at h
  obtain ⟨-, hsg, hlen⟩ := h
  have hx : x ≠ 0 := by rintro rfl; simp at hsg
  have hy : y ≠ 0 := by rintro rfl; simp at hsg
  have hs : x.sign = y.sign := by
    rcases sign_cases hx with h1 | h1 <;> rcases sign_cases hy with h2 | h2 <;> simp [h1, h2] at hsg ⊢
  unfold BInt.subAssign
  rw [if_neg (by simp only [enc_sign_eq_zero]; tauto), if_neg (by simpa [enc_sign] using hs)]
  exact subSame_strict_ub hx _ _ hlen

theorem addAssign_strict_ub (k : ℕ) {x y : ℤ} (h : ¬ SubSafe .strict x (-y)) :
    BInt.addAssign .strict false (k + 2) (enc x) (enc y) = .ub .outOfBounds := by
  have h0 := h
  unfold SubSafe at h
  push Not at h
  obtain ⟨-, hsg, hlen⟩ := h
  have hx : x ≠ 0 := by rintro rfl; simp at hsg
  have hy : y ≠ 0 := by rintro rfl; simp at hsg
  have hs : x.sign ≠ y.sign := by
    rw [Int.sign_neg] at hsg
    rcases sign_cases hx with h1 | h1 <;> rcases sign_cases hy with h2 | h2 <;> simp [h1, h2] at hsg ⊢
  have hs' := sign_ne_iff hx hy hs
  unfold BInt.addAssign
  rw [if_neg (by simp only [enc_sign_eq_zero]; tauto), if_pos (by simpa [enc_sign] using hs), neg_enc]
  unfold BInt.subAssign
  have hy' : -y ≠ 0 := by omega
  rw [if_neg (by simp only [enc_sign_eq_zero]; tauto), if_neg (by simpa [enc_sign] using hs')]
  exact subSame_strict_ub hx _ _ hlen

theorem add_enc {k : ℕ} (hk : 2 ≤ k) (x y : ℤ) : BInt.add .lenient k (enc x) (enc y) = .ok (enc (x + y)) := by
  obtain ⟨j, rfl⟩ : ∃ j, k = j + 2 := ⟨k - 2, by omega⟩
  exact addAssign_enc_aux .lenient j (Or.inl rfl)

theorem sub_enc {k : ℕ} (hk : 2 ≤ k) (x y : ℤ) : BInt.sub .lenient k (enc x) (enc y) = .ok (enc (x - y)) := by
  obtain ⟨j, rfl⟩ : ∃ j, k = j + 2 := ⟨k - 2, by omega⟩
  exact subAssign_enc_aux .lenient j (Or.inl rfl)

/-! ## comparison -/

theorem eq_enc_iff (x y : ℤ) : BInt.eq (enc x) (enc y) = decide (x = y) := by
  by_cases h : x = y
  · subst h; simp [BInt.eq]
  · rw [decide_eq_false h]
    by_contra hc
    apply h
    apply enc_injective
    simp [BInt.eq] at hc
    cases hx : enc x; cases hy : enc y
    rw [hx, hy] at hc
    simp at hc
    simp [hc]

theorem cmp_enc (x y : ℤ) : BInt.cmp (enc x) (enc y) = .ok (Int.sign (x - y)) := by
  unfold BInt.cmp
  by_cases hs : x.sign = y.sign
  · rw [if_neg (by simpa [enc_sign] using hs), enc_eta x, enc_eta y, absCmp_enc]
    simp only [Res.ok_bind, Res.pure_eq]
    congr 1
    have h1 := Int.sign_mul_abs x
    have h2 := Int.sign_mul_abs y
    rw [← hs] at h2
    by_cases hx : x = 0
    · subst hx
      have : y = 0 := by rw [← h2]; simp
      subst this
      simp
    · rcases sign_cases hx with h | h <;> rw [h] at h1 h2 ⊢
      · rw [if_pos (by norm_num)]
        congr 1
        omega
      · rw [if_neg (by norm_num), ← Int.sign_neg]
        congr 1
        omega
  · rw [if_pos (by simpa [enc_sign] using hs)]
    simp only [enc_sign]
    have key : ∀ z : ℤ, (z > 0 ∧ z.sign = 1) ∨ (z = 0 ∧ z.sign = 0) ∨ (z < 0 ∧ z.sign = -1) := by
      intro z
      rcases lt_trichotomy z 0 with h | h | h
      · right; right; exact ⟨h, Int.sign_eq_neg_one_of_neg h⟩
      · right; left; subst h; simp
      · left; exact ⟨h, Int.sign_eq_one_of_pos h⟩
    have hpos : ∀ z : ℤ, 0 < z → z.sign = 1 := fun z => Int.sign_eq_one_of_pos
    have hneg : ∀ z : ℤ, z < 0 → z.sign = -1 := fun z => Int.sign_eq_neg_one_of_neg
    rcases key x with ⟨a, b⟩ | ⟨a, b⟩ | ⟨a, b⟩ <;> rcases key y with ⟨c, d⟩ | ⟨c, d⟩ | ⟨c, d⟩ <;>
      simp only [b, d] at hs ⊢ <;>
      first
        | exact absurd trivial hs
        | (rw [hpos (x - y) (by omega)]; norm_num)
        | (rw [hneg (x - y) (by omega)]; norm_num)

theorem lt_enc (x y : ℤ) : BInt.lt (enc x) (enc y) = .ok (decide (x < y)) := by
  simp only [BInt.lt, cmp_enc, Res.ok_bind, Res.pure_eq]
  congr 1; rw [decide_eq_decide, Int.sign_neg_iff]; omega

theorem le_enc (x y : ℤ) : BInt.le (enc x) (enc y) = .ok (decide (x ≤ y)) := by
  simp only [BInt.le, cmp_enc, Res.ok_bind, Res.pure_eq]
  congr 1; rw [decide_eq_decide, ← not_lt, Int.sign_pos_iff]; omega

theorem gt_enc (x y : ℤ) : BInt.gt (enc x) (enc y) = .ok (decide (x > y)) := by
  simp only [BInt.gt, cmp_enc, Res.ok_bind, Res.pure_eq]
  congr 1; rw [decide_eq_decide, gt_iff_lt, Int.sign_pos_iff]; omega

theorem ge_enc (x y : ℤ) : BInt.ge (enc x) (enc y) = .ok (decide (x ≥ y)) := by
  simp only [BInt.ge, cmp_enc, Res.ok_bind, Res.pure_eq]
  congr 1; rw [decide_eq_decide, ge_iff_le, ← not_lt, Int.sign_neg_iff]; omega

end Pyincpp
