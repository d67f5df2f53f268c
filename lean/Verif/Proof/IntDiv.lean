import Verif.Proof.IntMul
import Mathlib.Tactic.Zify

/-! # `digits`, `/=`, `%=` -/

namespace Pyincpp

theorem enc_length_pos {x : ℤ} (h : x ≠ 0) : 0 < (enc x).chunks.length :=
  List.length_pos_of_ne_nil (by rw [Ne, enc_nil_iff]; exact h)

theorem digits_enc (x : ℤ) : BInt.digits (enc x) = .ok ((enc x).chunks.length : ℤ) := by
  unfold BInt.digits
  by_cases hx : x = 0
  · subst hx; simp [enc_zero]
  · have hne : (enc x).chunks ≠ [] := by rw [Ne, enc_nil_iff]; exact hx
    rw [List.getLast?_eq_some_getLast hne]
    have h0 := enc_getLast x hne
    have hd := digs_iff_mem.mp (enc_digs x) _ (List.getLast_mem hne)
    have hpos := enc_length_pos hx
    simp only
    rw [if_neg (by omega)]
    have hlog : Nat.log 10 ((enc x).chunks.getLast hne).toNat = 0 := by
      rw [Nat.log_eq_zero_iff]; left; omega
    rw [hlog]
    congr 1
    push_cast
    omega

/-- `n` zeros below the digits of `y` are the digits of `y * 10^n`. -/
theorem enc_shift {y : ℤ} (hy : 0 < y) (n : ℕ) :
    (⟨1, List.replicate n 0 ++ (enc y).chunks⟩ : BInt) = enc (y * 10 ^ n) := by
  have hne : (enc y).chunks ≠ [] := by rw [Ne, enc_nil_iff]; omega
  rw [eq_enc (digs_append (digs_replicate_zero n) (enc_digs y))
    (by
      intro h
      rw [List.getLast_append_of_ne_nil _ hne]
      exact enc_getLast y hne)
    (by simp [hne]) (fun _ => Or.inl rfl)]
  congr 1
  rw [val_append, enc_val, abs_of_pos hy]
  simp; ring

theorem subAssign_enc {k : ℕ} (hk : 2 ≤ k) (x y : ℤ) :
    BInt.subAssign .lenient k (enc x) (enc y) = .ok (enc (x - y)) := sub_enc hk x y

/-- The inner loop of division at one position: subtract `t` as often as possible. -/
theorem div_inner {k : ℕ} (hk : 11 ≤ k) {t : ℤ} (ht : 0 < t) {X : ℤ} (hX : 0 ≤ X) (hXt : X < t * 10)
    {r : List ℤ} {i : ℕ} (hi : i < r.length) (hri : r[i] = 0) :
    whileF (fun (w : BInt × List ℤ) => BInt.ge w.1 (enc t))
      (fun w => do
        let r ← vset w.2 i (← iadd (← vget w.2 i) 1)
        let x ← BInt.subAssign .lenient k w.1 (enc t)
        pure (x, r)) k (enc X, r) = .ok (enc (X % t), r.set i (X / t)) := by
  obtain ⟨s', e, ⟨Z, hZ0, q, hq0, hXe, rfl⟩, hc⟩ := whileF_inv
    (cond := fun (w : BInt × List ℤ) => BInt.ge w.1 (enc t))
    (body := fun w => do
        let r ← vset w.2 i (← iadd (← vget w.2 i) 1)
        let x ← BInt.subAssign .lenient k w.1 (enc t)
        pure (x, r))
    (fun w => ∃ Z : ℤ, 0 ≤ Z ∧ ∃ q : ℤ, 0 ≤ q ∧ X = Z + q * t ∧ w = (enc Z, r.set i q))
    (fun w => ((val w.1.chunks) / t).toNat)
    (by
      rintro w ⟨Z, hZ0, q, hq0, hXe, rfl⟩
      simp only [ge_enc]
      by_cases hge : Z ≥ t
      · right
        refine ⟨by simpa using hge, (enc (Z - t), r.set i (q + 1)), ?_, ⟨Z - t, by omega, q + 1, by omega, ?_, rfl⟩, ?_⟩
        · have hq10 : q ≤ 10 := by nlinarith
          rw [vget_ok (by simpa using hi), List.getElem_set_self]
          simp only [Res.ok_bind, iadd]
          rw [ck_ok (isInt_of_bound (by omega) (by omega))]
          simp only [Res.ok_bind]
          rw [vset_ok (by simpa using hi), subAssign_enc (by omega)]
          simp
        · rw [hXe]; ring
        · simp only [enc_val]
          rw [abs_of_nonneg (by omega), abs_of_nonneg (by omega)]
          have : Z / t = (Z - t) / t + 1 := by
            have := Int.add_mul_ediv_right (Z - t) 1 (c := t) (by omega)
            rw [← this]; congr 1; ring
          have h0 : 0 ≤ (Z - t) / t := Int.ediv_nonneg (by omega) (by omega)
          omega
      · left
        simpa using hge) k (enc X, r)
    ⟨X, hX, 0, le_rfl, by ring, by rw [← hri]; simp⟩
    (by
      simp only [enc_val]
      rw [abs_of_nonneg hX]
      have : X / t < 10 := by
        apply Int.ediv_lt_of_lt_mul ht
        linarith
      omega)
  rw [e]
  simp only [ge_enc] at hc
  have hlt : Z < t := by simpa using hc
  have h1 : X / t = q := by
    rw [hXe, Int.add_mul_ediv_right _ _ (by omega), Int.ediv_eq_zero_of_lt hZ0 hlt]; simp
  have h2 : X % t = Z := by
    rw [hXe, Int.add_mul_emod_self_right, Int.emod_eq_of_lt hZ0 hlt]
  rw [h1, h2]

theorem mod_inner {k : ℕ} (hk : 11 ≤ k) {t : ℤ} (ht : 0 < t) {X : ℤ} (hX : 0 ≤ X) (hXt : X < t * 10) :
    whileF (fun w => BInt.ge w (enc t)) (fun w => BInt.subAssign .lenient k w (enc t)) k (enc X)
      = .ok (enc (X % t)) := by
  obtain ⟨s', e, ⟨Z, hZ0, q, hq0, hXe, rfl⟩, hc⟩ := whileF_inv
    (cond := fun w => BInt.ge w (enc t))
    (body := fun w => BInt.subAssign .lenient k w (enc t))
    (fun w => ∃ Z : ℤ, 0 ≤ Z ∧ ∃ q : ℤ, 0 ≤ q ∧ X = Z + q * t ∧ w = enc Z)
    (fun w => ((val w.chunks) / t).toNat)
    (by
      rintro w ⟨Z, hZ0, q, hq0, hXe, rfl⟩
      simp only [ge_enc]
      by_cases hge : Z ≥ t
      · right
        refine ⟨by simpa using hge, enc (Z - t), ?_, ⟨Z - t, by omega, q + 1, by omega, ?_, rfl⟩, ?_⟩
        · rw [subAssign_enc (by omega)]
        · rw [hXe]; ring
        · simp only [enc_val]
          rw [abs_of_nonneg (by omega), abs_of_nonneg (by omega)]
          have : Z / t = (Z - t) / t + 1 := by
            have := Int.add_mul_ediv_right (Z - t) 1 (c := t) (by omega)
            rw [← this]; congr 1; ring
          have h0 : 0 ≤ (Z - t) / t := Int.ediv_nonneg (by omega) (by omega)
          omega
      · left
        simpa using hge) k (enc X)
    ⟨X, hX, 0, le_rfl, by ring, rfl⟩
    (by
      simp only [enc_val]
      rw [abs_of_nonneg hX]
      have : X / t < 10 := by
        apply Int.ediv_lt_of_lt_mul ht
        linarith
      omega)
  rw [e]
  simp only [ge_enc] at hc
  have hlt : Z < t := by simpa using hc
  have h2 : X % t = Z := by
    rw [hXe, Int.add_mul_emod_self_right, Int.emod_eq_of_lt hZ0 hlt]
  rw [h2]

theorem size_bound {x y : ℤ} (hy : y ≠ 0) (hlen : (enc y).chunks.length ≤ (enc x).chunks.length) :
    |x| < |y| * 10 ^ ((enc x).chunks.length - (enc y).chunks.length + 1) := by
  have h1 := enc_abs_lt x
  have hp := enc_length_pos hy
  have h2 : (10:ℤ) ^ ((enc y).chunks.length - 1) ≤ |y| := by
    by_contra hcon
    have := (enc_length_le_iff y ((enc y).chunks.length - 1)).mpr (by omega)
    omega
  calc |x| < 10 ^ (enc x).chunks.length := h1
    _ = 10 ^ ((enc y).chunks.length - 1) * 10 ^ ((enc x).chunks.length - (enc y).chunks.length + 1) := by
        rw [← pow_add]; congr 1; omega
    _ ≤ _ := by
        apply mul_le_mul_of_nonneg_right h2; positivity

theorem tdiv_eq_sign_mul {x y : ℤ} (hx : x ≠ 0) (hy : y ≠ 0) :
    (if x.sign = y.sign then (1:ℤ) else -1) * (|x| / |y|) = x.tdiv y := by
  have h1 := Int.sign_mul_abs x
  have h2 := Int.sign_mul_abs y
  have e : (|x|).tdiv |y| = |x| / |y| := Int.tdiv_eq_ediv_of_nonneg (abs_nonneg x)
  rcases sign_cases hx with a | a <;> rcases sign_cases hy with b | b <;> rw [a] at h1 <;> rw [b] at h2 <;>
    simp only [a, b] <;> conv_rhs => rw [← h1, ← h2]
  · simp [e]
  · simp [e, Int.tdiv_neg]
  · simp [e, Int.neg_tdiv]
  · simp [e, Int.neg_tdiv, Int.tdiv_neg]

theorem checkZero_false : checkZero false = .ok () := rfl

theorem isZero_enc (x : ℤ) : BInt.isZero (enc x) = decide (x = 0) := by
  simp only [BInt.isZero, enc_sign]
  by_cases h : x = 0
  · subst h; simp
  · simp [h]

theorem div_by_zero (mem : Mem) (k : ℕ) (x : ℤ) : BInt.div mem k (enc x) (enc 0) = .throw "Error: Divide by zero." := by
  simp [BInt.div, BInt.divAssign, enc_zero, checkZero]

theorem mod_by_zero (mem : Mem) (k : ℕ) (x : ℤ) : BInt.mod mem k (enc x) (enc 0) = .throw "Error: Divide by zero." := by
  simp [BInt.mod, BInt.modAssign, enc_zero, checkZero]

theorem div_enc {k : ℕ} (hk : 11 ≤ k) (x : ℤ) {y : ℤ} (hy : y ≠ 0) :
    BInt.div .lenient k (enc x) (enc y) = .ok (enc (x.tdiv y)) := by
  unfold BInt.div BInt.divAssign
  have hz : ((enc y).sign == 0) = false := by
    rw [beq_eq_false_iff_ne, Ne, enc_sign_eq_zero]; exact hy
  rw [hz, checkZero_false]
  simp only [Res.ok_bind, digits_enc]
  by_cases hlen : (enc x).chunks.length < (enc y).chunks.length
  · rw [if_pos (by exact_mod_cast hlen), ofInt_small (by norm_num) (by norm_num)]
    congr 2
    have := enc_len_lt hlen
    rw [← Int.natAbs_eq_zero.mp (show (x.tdiv y).natAbs = 0 by
      rw [Int.natAbs_tdiv]; exact Nat.div_eq_of_lt (by zify; exact this))]
  · rw [if_neg (by exact_mod_cast hlen)]
    have hx : x ≠ 0 := by
      rintro rfl
      apply hlen
      have := enc_length_pos hy
      simpa [enc_zero] using this
    have hyp : 0 < |y| := abs_pos.mpr hy
    rw [enc_with_sign_one hx]
    set size := (enc x).chunks.length - (enc y).chunks.length + 1 with hsize
    obtain ⟨s', e, ⟨X, r, hX0, hXlt, hrl, hrd, hr0, hval, rfl⟩⟩ := forDown_inv
      (body := fun i (s : BInt × List ℤ × List ℤ) => do
        let tmp ← BInt.eraseFront s.2.1
        let t : BInt := { sign := 1, chunks := tmp }
        let (x, r) ← whileF (fun (w : BInt × List ℤ) => BInt.ge w.1 t)
          (fun w => do
            let r ← vset w.2 i (← iadd (← vget w.2 i) 1)
            let x ← BInt.subAssign .lenient k w.1 t
            pure (x, r)) k (s.1, s.2.2)
        pure (x, tmp, r))
      (fun i s => ∃ (X : ℤ) (r : List ℤ), 0 ≤ X ∧ X < |y| * 10 ^ i ∧ r.length = size ∧ Digs r ∧
        (∀ (j : ℕ) (h : j < r.length), j < i → r[j] = 0) ∧ val r * |y| + X = |x| ∧
        s = (enc X, List.replicate i 0 ++ (enc y).chunks, r))
      size (enc |x|, List.replicate size 0 ++ (enc y).chunks, List.replicate size 0)
      ⟨|x|, List.replicate size 0, abs_nonneg x, size_bound hy (by omega), by simp, digs_replicate_zero _,
        by intro j h _; simp, by simp, rfl⟩
      (by
        rintro j s hj ⟨X, r, hX0, hXlt, hrl, hrd, hr0, hval, rfl⟩
        have hjr : j < r.length := by omega
        have ht : 0 < |y| * 10 ^ j := by positivity
        have henc : (⟨1, List.replicate j 0 ++ (enc y).chunks⟩ : BInt) = enc (|y| * 10 ^ j) := by
          rw [← enc_shift hyp, ← enc_chunks_pos]
        have hXlt' : X < |y| * 10 ^ j * 10 := by rw [pow_succ] at hXlt; linarith
        refine ⟨(enc (X % (|y| * 10 ^ j)), List.replicate j 0 ++ (enc y).chunks, r.set j (X / (|y| * 10 ^ j))), ?_,
          X % (|y| * 10 ^ j), r.set j (X / (|y| * 10 ^ j)), ?_, ?_, ?_, ?_, ?_, ?_, rfl⟩
        · simp only [List.replicate_succ, List.cons_append, BInt.eraseFront, Res.ok_bind]
          rw [henc, div_inner hk ht hX0 hXlt' hjr (hr0 j hjr (by omega))]
          rfl
        · exact Int.emod_nonneg _ (by omega)
        · exact Int.emod_lt_of_pos _ ht
        · simpa using hrl
        · intro i hi
          simp only [List.length_set] at hi
          by_cases hij : i = j
          · subst hij
            rw [List.getElem_set_self]
            refine ⟨Int.ediv_nonneg hX0 (by omega), ?_⟩
            have : X / (|y| * 10 ^ i) < 10 := Int.ediv_lt_of_lt_mul ht (by linarith)
            omega
          · rw [List.getElem_set_ne (by omega)]; exact hrd i hi
        · intro i hi hij
          simp only [List.length_set] at hi
          rw [List.getElem_set_ne (by omega)]; exact hr0 i hi (by omega)
        · rw [val_set _ _ _ hjr, hr0 j hjr (by omega)]
          have := Int.mul_ediv_add_emod X (|y| * 10 ^ j)
          linear_combination hval + this)
    rw [e]
    simp only [Res.ok_bind, Res.pure_eq]
    rw [trim_enc hrd (by split <;> simp)]
    have hq : val r = |x| / |y| := by
      rw [← hval]
      simp only [pow_zero, mul_one] at hXlt
      rw [Int.add_comm, Int.add_mul_ediv_right _ _ (by omega), Int.ediv_eq_zero_of_lt hX0 hXlt]; simp
    rw [hq]
    congr 2
    rw [← tdiv_eq_sign_mul hx hy]
    simp only [enc_sign]

/-- `x % y` as the code computes it: the remainder of the absolute values when `x` has at least as many digits
as `y`, and `x` itself otherwise. -/
def codeMod (x y : ℤ) : ℤ :=
  if (enc x).chunks.length < (enc y).chunks.length then x else |x| % |y|

theorem trim_enc_nonneg {x : ℤ} (h : 0 ≤ x) : BInt.trim (enc x) = enc x := by
  by_cases hx : x = 0
  · subst hx; rw [enc_zero]; rfl
  · rw [enc_eta x, trim_enc (enc_digs x) (sign_cases hx), enc_val, Int.sign_mul_abs]; rfl

theorem mod_enc {k : ℕ} (hk : 11 ≤ k) (x : ℤ) {y : ℤ} (hy : y ≠ 0) :
    BInt.mod .lenient k (enc x) (enc y) = .ok (enc (codeMod x y)) := by
  unfold BInt.mod BInt.modAssign codeMod
  have hz : ((enc y).sign == 0) = false := by
    rw [beq_eq_false_iff_ne, Ne, enc_sign_eq_zero]; exact hy
  rw [hz, checkZero_false]
  simp only [Res.ok_bind, digits_enc]
  by_cases hlen : (enc x).chunks.length < (enc y).chunks.length
  · rw [if_pos (by exact_mod_cast hlen), if_pos hlen]
    rfl
  · rw [if_neg (by exact_mod_cast hlen), if_neg hlen]
    have hx : x ≠ 0 := by
      rintro rfl
      apply hlen
      have := enc_length_pos hy
      simpa [enc_zero] using this
    have hyp : 0 < |y| := abs_pos.mpr hy
    rw [enc_with_sign_one hx]
    set size := (enc x).chunks.length - (enc y).chunks.length + 1 with hsize
    obtain ⟨s', e, ⟨X, hX0, hXlt, hmod, rfl⟩⟩ := forRange_inv
      (body := fun _ (s : BInt × List ℤ) => do
        let tmp ← BInt.eraseFront s.2
        let t : BInt := { sign := 1, chunks := tmp }
        let x ← whileF (fun w => BInt.ge w t) (fun w => BInt.subAssign .lenient k w t) k s.1
        pure (x, tmp))
      (fun i s => ∃ (X : ℤ), 0 ≤ X ∧ X < |y| * 10 ^ (size - i) ∧ X % |y| = |x| % |y| ∧
        s = (enc X, List.replicate (size - i) 0 ++ (enc y).chunks))
      (lo := 0) (hi := size) (Nat.zero_le _)
      (s := (enc |x|, List.replicate size 0 ++ (enc y).chunks))
      ⟨|x|, abs_nonneg x, size_bound hy (by omega), rfl, rfl⟩
      (by
        rintro j s _ hj ⟨X, hX0, hXlt, hmod, rfl⟩
        obtain ⟨m, hm⟩ : ∃ m, size - j = m + 1 := ⟨size - j - 1, by omega⟩
        have hm' : size - (j + 1) = m := by omega
        rw [hm] at hXlt ⊢
        rw [hm']
        have ht : 0 < |y| * 10 ^ m := by positivity
        have henc : (⟨1, List.replicate m 0 ++ (enc y).chunks⟩ : BInt) = enc (|y| * 10 ^ m) := by
          rw [← enc_shift hyp, ← enc_chunks_pos]
        have hXlt' : X < |y| * 10 ^ m * 10 := by rw [pow_succ] at hXlt; linarith
        refine ⟨(enc (X % (|y| * 10 ^ m)), List.replicate m 0 ++ (enc y).chunks), ?_,
          X % (|y| * 10 ^ m), ?_, ?_, ?_, rfl⟩
        · simp only [List.replicate_succ, List.cons_append, BInt.eraseFront, Res.ok_bind]
          rw [henc, mod_inner hk ht hX0 hXlt']
          rfl
        · exact Int.emod_nonneg _ (by omega)
        · exact Int.emod_lt_of_pos _ ht
        · rw [Int.emod_emod_of_dvd _ (Dvd.intro _ rfl), hmod])
    rw [e]
    simp only [Res.ok_bind, Res.pure_eq]
    rw [trim_enc_nonneg hX0]
    simp only [Nat.sub_self, pow_zero, mul_one] at hXlt
    rw [← hmod, Int.emod_eq_of_lt hX0 hXlt]

theorem codeMod_of_nonneg {x y : ℤ} (hx : 0 ≤ x) : codeMod x y = x.tmod y := by
  unfold codeMod
  split
  · rename_i h
    have := enc_len_lt h
    rw [abs_of_nonneg hx] at this
    rw [Int.tmod_eq_emod_of_nonneg hx, ← Int.emod_abs, Int.emod_eq_of_lt hx this]
  · rw [abs_of_nonneg hx, Int.tmod_eq_emod_of_nonneg hx, Int.emod_abs]

theorem codeMod_of_pos {x y : ℤ} (hx : 0 ≤ x) : codeMod x y = x % y := by
  rw [codeMod_of_nonneg hx, Int.tmod_eq_emod_of_nonneg hx]

end Pyincpp
