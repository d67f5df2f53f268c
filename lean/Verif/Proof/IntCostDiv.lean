import Verif.Proof.IntCostSum

/-! # Counting the steps of `Int`: products, quotients and remainders -/

namespace Pyincpp
namespace Steps

theorem post_forget {α : Type} {x : Steps α} {a : α} (h : forget x = .ok a) : Post x (fun b _ => b = a) := by
  intro b c e
  have := forget_of_run e
  rw [h] at this
  injection this with this
  exact this.symm

end Steps
namespace BInt
open Steps

theorem length_shift {y : ℤ} (n : ℕ) : (List.replicate n (0 : ℤ) ++ (enc y).chunks).length = n + digitCount y := by
  rw [List.length_append, List.length_replicate, enc_length]

/-! ## Products -/

theorem post_mulAssignS {x y : BInt} (hx : x.sign ≠ 0) (hy : y.sign ≠ 0) : Post (mulAssignS x y) (fun a c =>
    c .round + a.chunks.length = x.chunks.length * (y.chunks.length + 1) + (x.chunks.length + y.chunks.length) ∧
    c .written = x.chunks.length + y.chunks.length + a.chunks.length ∧ c .moved = 0 ∧ c .subtraction = 0) := by
  unfold mulAssignS
  rw [if_neg (by simp [hx, hy])]
  refine post_bind (post_tick (post_bind ((post_forRange (fun i (v : List ℤ) c => v.length = x.chunks.length + y.chunks.length ∧
    c = unit .round (i * (y.chunks.length + 1))) x.chunks.length _ ⟨by simp, by funext j; simp⟩ ?_).mono ?_)))
  · rintro i v c hi ⟨h1, rfl⟩
    refine (post_forRange (fun j (v : List ℤ) c => v.length = x.chunks.length + y.chunks.length ∧ c = unit .round j)
      y.chunks.length v ⟨h1, by funext j; simp⟩ ?_).mono ?_
    · rintro j v c hj ⟨h1, rfl⟩
      refine post_bind (post_lift fun _ _ => post_bind (post_lift fun _ _ => post_bind (post_lift fun _ _ => post_bind (post_lift fun _ _ =>
        post_bind (post_lift fun _ _ => post_bind (post_lift fun v1 e1 => post_bind (post_lift fun _ _ => post_bind (post_lift fun _ _ =>
        post_bind (post_lift fun _ _ => post_bind (post_lift fun v2 e2 => post_lift fun v3 e3 => ⟨?_, ?_⟩))))))))))
      · rw [vset_length e3, vset_length e2, vset_length e1, h1]
      · funext l; simp only [Pi.add_apply, Pi.zero_apply, unit_apply]; split <;> rfl
    · rintro v c ⟨h1, rfl⟩
      refine ⟨h1, ?_⟩
      funext l; simp only [Pi.add_apply, unit_apply]; split <;> ring
  · rintro v c ⟨h1, rfl⟩
    refine post_bind ((post_trimS _).mono ?_)
    rintro b c ⟨e, rfl⟩
    rw [e]
    refine (post_copyS _).mono ?_
    rintro b' c ⟨rfl, rfl⟩
    have ht := trim_length_le { sign := if x.sign = y.sign then 1 else -1, chunks := v }
    simp only at ht
    simp only [Pi.add_apply, unit_apply, reduceCtorEq, if_true, if_false, List.length_replicate]
    refine ⟨by omega, by omega, by trivial, by trivial⟩

/-! ## Quotients -/

theorem digitCount_mono {a b : ℤ} (ha : 0 ≤ a) (h : a ≤ b) : digitCount a ≤ digitCount b := by
  rw [← enc_length, ← enc_length, enc_length_le_iff, abs_of_nonneg ha]
  have := (enc_length_le_iff b (enc b).chunks.length).mp le_rfl
  rw [abs_of_nonneg (ha.trans h)] at this
  omega

/-- One subtraction of the long division. -/
theorem post_subAssignS_pos {k : ℕ} (hk : 2 ≤ k) {Z t : ℤ} {m : ℕ} (ht : 0 < t) (hZ : t ≤ Z) (hm : digitCount Z ≤ m) :
    Post (subAssignS .lenient k (enc Z) (enc t)) (fun a c => a = enc (Z - t) ∧ c .round ≤ 3 * m ∧ c .written ≤ m ∧ c .moved = 0 ∧ c .subtraction = 0) := by
  have hf : forget (subAssignS .lenient k (enc Z) (enc t)) = .ok (enc (Z - t)) := by rw [forget_subAssignS, subAssign_enc hk]
  have hl : digitCount t ≤ digitCount Z := digitCount_mono ht.le hZ
  refine ((post_forget hf).and (Q := fun _ c => c .round ≤ 3 * m ∧ c .written ≤ m ∧ c .moved = 0 ∧ c .subtraction = 0) ?_)
  obtain ⟨j, rfl⟩ : ∃ j, k = j + 1 := ⟨k - 1, by omega⟩
  have h1 : (enc Z).sign = 1 := by rw [enc_sign, Int.sign_eq_one_of_pos (by omega)]
  have h2 : (enc t).sign = 1 := by rw [enc_sign, Int.sign_eq_one_of_pos ht]
  unfold subAssignS
  rw [h1, h2]
  simp only [one_ne_zero, or_self, if_false, ne_eq, not_true_eq_false]
  refine (post_subSameS _ _ _).mono ?_
  rintro a c ⟨c1, c2, c3, c4, c5⟩
  rw [enc_length, enc_length] at c2
  rw [enc_length] at c3
  exact ⟨by omega, by omega, c4, c5⟩

/-- The inner loop of the long division. -/
theorem post_inner {σ : Type} (p : σ → BInt) (b : σ → Steps σ) {t M : ℤ} {m : ℕ} (ht : 0 < t)  (hm : digitCount M ≤ m)
    (hb : ∀ s Z, p s = enc Z → t ≤ Z → Z ≤ M → Post (b s) (fun s' d => p s' = enc (Z - t) ∧ d .round ≤ 3 * m ∧ d .written ≤ m ∧ d .moved = 0 ∧ d .subtraction = 0))
    (k : ℕ) {s : σ} {X : ℤ} (hX : 0 ≤ X) (hXM : X ≤ M) (hs : p s = enc X) :
    Post (Steps.whileF .subtraction (fun w => geS (p w) (enc t)) b k s) (fun s' d => p s' = enc (X % t) ∧ (d .subtraction : ℤ) = X / t ∧
      d .round ≤ 4 * m * d .subtraction + m ∧ d .written ≤ m * d .subtraction ∧ d .moved = 0) := by
  have key := post_whileF (kd := .subtraction) (cond := fun w => geS (p w) (enc t)) (b := b)
    (fun s c => ∃ Z, p s = enc Z ∧ 0 ≤ Z ∧ X = Z + c .subtraction * t ∧ c .round ≤ 4 * m * c .subtraction ∧ c .written ≤ m * c .subtraction ∧ c .moved = 0)
    (fun s c => ∃ Z, p s = enc Z ∧ 0 ≤ Z ∧ Z < t ∧ X = Z + c .subtraction * t ∧ c .round ≤ 4 * m * c .subtraction + m ∧ c .written ≤ m * c .subtraction ∧ c .moved = 0)
    ?_ k s 0 ⟨X, hs, hX, by simp, by simp, by simp, by simp⟩
  · refine key.mono ?_
    rintro s' d ⟨Z, h1, h2, h3, h4, h5⟩
    rw [zero_add] at h4 h5
    have e1 : X % t = Z := by rw [h4, Int.add_mul_emod_self_right, Int.emod_eq_of_lt h2 h3]
    have e2 : X / t = d .subtraction := by
      rw [h4, Int.add_mul_ediv_right _ _ (by omega), Int.ediv_eq_zero_of_lt h2 h3, zero_add]
    exact ⟨by rw [h1, e1], by rw [e2], h5⟩
  · rintro s c ⟨Z, h1, h2, h3, h4, h5, h6⟩
    have hZX : Z ≤ X := by
      have : 0 ≤ (c .subtraction : ℤ) * t := by positivity
      omega
    have hZ : digitCount Z ≤ m := (digitCount_mono h2 (hZX.trans hXM)).trans hm
    have hg : Post (geS (p s) (enc t)) (fun r d => r = decide (Z ≥ t) ∧ d .round ≤ m ∧ d .written = 0 ∧ d .moved = 0 ∧ d .subtraction = 0) := by
      rw [h1]
      refine ((post_forget (by rw [forget_geS, ge_enc])).and (post_geS _ _)).mono ?_
      rintro r d ⟨rfl, d1, d2⟩
      rw [enc_length, enc_length] at d1
      exact ⟨rfl, by omega, d2⟩
    refine hg.mono ?_
    rintro r d ⟨rfl, d1, d2, d3, d4⟩
    by_cases hge : Z ≥ t
    · simp only [hge, decide_true, if_true]
      refine (hb s Z h1 hge (hZX.trans hXM)).mono ?_
      rintro s' e ⟨e1, e2, e3, e4, e5⟩
      refine ⟨Z - t, e1, by omega, ?_, ?_, ?_, ?_⟩ <;> simp only [Pi.add_apply, unit_apply, reduceCtorEq, if_true, if_false, d2, d3, d4, e4, e5, h6]
      · push_cast; linarith
      · nlinarith
      · nlinarith
    · simp only [hge, decide_false, Bool.false_eq_true, if_false]
      refine ⟨Z, h1, h2, by omega, ?_, ?_, ?_, ?_⟩ <;> simp only [Pi.add_apply, d2, d3, d4, h6]
      · simpa using h3
      · simp only [add_zero]; omega
      · simpa using h5

theorem digitSum_step {Q q : ℕ} (hq : q < 10) : digitSum ((10 * Q + q : ℕ) : ℤ) = digitSum (Q : ℤ) + q := by
  unfold digitSum
  rw [Int.natAbs_natCast, Int.natAbs_natCast]
  rcases Nat.eq_zero_or_pos (10 * Q + q) with h | h
  · obtain ⟨rfl, rfl⟩ : Q = 0 ∧ q = 0 := by omega
    simp
  · rw [Nat.digits_def' (by norm_num) h, List.sum_cons, show (10 * Q + q) % 10 = q by omega, show (10 * Q + q) / 10 = Q by omega]
    omega

/-- One position of the long division. -/
theorem position {X0 X t : ℤ} {Q s : ℕ} {d : ℕ} (ht : 0 < t) (hlt : X < t * 10) (h0 : X0 = Q * (t * 10) + X)
    (hs : s = digitSum Q) (hd : (d : ℤ) = X / t) :
    0 ≤ X % t ∧ X % t < t ∧ X0 = ((10 * Q + d : ℕ) : ℤ) * t + X % t ∧ s + d = digitSum ((10 * Q + d : ℕ) : ℤ) := by
  have hq : X / t < 10 := Int.ediv_lt_of_lt_mul ht (by linarith)
  refine ⟨Int.emod_nonneg _ (by omega), Int.emod_lt_of_pos _ ht, ?_, ?_⟩
  · have := Int.mul_ediv_add_emod X t
    push_cast
    rw [hd, h0]
    linear_combination -this
  · rw [digitSum_step (by omega), hs]

theorem step_moved {M e n j : ℕ} (h : 2 * M + e = e * (2 * n + (e + (j + 1)) + (j + 1))) :
    2 * (M + (j + n)) + (e + 1) = (e + 1) * (2 * n + (e + (j + 1)) + j) := by
  have : (e + 1) * (2 * n + (e + (j + 1)) + j) = e * (2 * n + (e + (j + 1)) + (j + 1)) + (2 * n + 2 * j + 1) := by ring
  omega

theorem step_round {R e m S r s : ℕ} (h : R ≤ e * (m + 1) + 4 * m * S) (h' : r ≤ 4 * m * s + m) :
    R + 1 + r ≤ (e + 1) * (m + 1) + 4 * m * (S + s) := by
  have : (e + 1) * (m + 1) + 4 * m * (S + s) = e * (m + 1) + 4 * m * S + (4 * m * s + m) + 1 := by ring
  omega

theorem step_written {W m S w s : ℕ} (h : W ≤ m * S) (h' : w ≤ m * s) : W + w ≤ m * (S + s) := by
  rw [Nat.mul_add]; omega

theorem shift_enc {y : ℤ} (hy : y ≠ 0) (j : ℕ) : (⟨1, List.replicate j 0 ++ (enc y).chunks⟩ : BInt) = enc (|y| * 10 ^ j) := by
  rw [← enc_shift (abs_pos.mpr hy), ← enc_chunks_pos]

theorem digitCount_abs (x : ℤ) : digitCount |x| = digitCount x := by
  unfold digitCount; rw [Int.natAbs_abs]

theorem post_divAssignS {k : ℕ} (hk : 2 ≤ k) {x y : ℤ} (hy : y ≠ 0) (hlen : digitCount y ≤ digitCount x) :
    Post (divAssignS .lenient k (enc x) (enc y)) (fun a c => ∃ size, size + digitCount y = digitCount x + 1 ∧
      c .subtraction = digitSum (|x| / |y|) ∧ 2 * c .moved + size = size * (2 * digitCount y + size) ∧
      c .round ≤ size * (digitCount x + 2) + 4 * digitCount x * c .subtraction ∧
      c .written ≤ 2 * size + digitCount y + digitCount x * c .subtraction + a.chunks.length) := by
  have hyp : 0 < |y| := abs_pos.mpr hy
  have hz : ((enc y).sign == 0) = false := by
    rw [beq_eq_false_iff_ne, Ne, enc_sign_eq_zero]; exact hy
  have hx : x ≠ 0 := by
    rintro rfl
    have := enc_length_pos hy
    rw [enc_length] at this
    have h0 : digitCount 0 = 0 := rfl
    omega
  unfold divAssignS
  rw [hz, checkZero_false]
  refine post_bind (post_lift fun _ _ => post_bind (post_lift fun dx hdx => post_bind (post_lift fun dy hdy => ?_)))
  rw [digits_enc] at hdx hdy
  injection hdx with hdx; injection hdy with hdy
  subst hdx hdy
  rw [enc_with_sign_one hx]
  rw [if_neg (by rw [enc_length, enc_length]; omega)]
  simp only [enc_length]
  generalize hsize : digitCount x - digitCount y + 1 = size
  refine post_bind (post_tick (post_bind (post_tick (post_bind ((post_forDown (fun i (s : BInt × List ℤ × List ℤ) c => i ≤ size ∧
    ∃ (X : ℤ) (Q : ℕ), s.1 = enc X ∧ s.2.1 = List.replicate i 0 ++ (enc y).chunks ∧ s.2.2.length = size ∧ 0 ≤ X ∧ X < |y| * 10 ^ i ∧
      |x| = Q * (|y| * 10 ^ i) + X ∧ c .subtraction = digitSum Q ∧ 2 * c .moved + (size - i) = (size - i) * (2 * digitCount y + size + i) ∧
      c .round ≤ (size - i) * (digitCount x + 1) + 4 * digitCount x * c .subtraction ∧ c .written ≤ digitCount x * c .subtraction)
    size _ 0 ?_ ?_).mono ?_)))))
  · refine ⟨le_rfl, |x|, 0, rfl, rfl, by simp, abs_nonneg x, ?_, by simp, by simp [digitSum], by simp, by simp, by simp⟩
    have := size_bound hy (x := x) (by rw [enc_length, enc_length]; exact hlen)
    rwa [enc_length, enc_length, hsize] at this
  · rintro j ⟨sx, stmp, sr⟩ c hj ⟨hjs, X, Q, h1, h2, h3, h4, h5, h6, h7, h8, h9, h10⟩
    simp only at h1 h2 h3
    subst h1 h2
    have ht : 0 < |y| * 10 ^ j := by positivity
    have hX : X ≤ |x| := by
      rw [h6]
      have : 0 ≤ (Q : ℤ) * (|y| * 10 ^ (j + 1)) := by positivity
      omega
    simp only [List.replicate_succ, List.cons_append, eraseFrontS, eraseFront]
    refine post_bind (post_bind (post_tick (post_lift fun tmp htmp => ?_)))
    injection htmp with htmp
    subst htmp
    rw [shift_enc hy]
    have hin := post_inner (σ := BInt × List ℤ) (fun w => w.1) (fun w => do
            let r ← vset w.2 j (← iadd (← vget w.2 j) 1)
            let x ← subAssignS .lenient k w.1 (enc (|y| * 10 ^ j))
            pure (x, r)) ht (m := digitCount x) (M := |x|) (by rw [digitCount_abs]) ?_ k (s := (enc X, sr)) h4 hX rfl
    · have hlenr : Post (Steps.whileF .subtraction (fun (w : BInt × List ℤ) => geS w.1 (enc (|y| * 10 ^ j))) (fun w => do
            let r ← vset w.2 j (← iadd (← vget w.2 j) 1)
            let x ← subAssignS .lenient k w.1 (enc (|y| * 10 ^ j))
            pure (x, r)) k (enc X, sr)) (fun w _ => w.2.length = size) := by
        refine post_whileF (σ := BInt × List ℤ) (fun w _ => w.2.length = size) (fun w _ => w.2.length = size) ?_ k _ 0 h3
        intro w c hw r d _
        split
        · refine post_bind (post_lift fun _ _ => post_bind (post_lift fun _ _ => post_bind (post_lift fun r hr => post_bind ?_)))
          exact fun _ _ _ => post_pure (by rw [vset_length hr, hw])
        · exact hw
      refine post_bind ((hin.and hlenr).mono ?_)
      rintro ⟨x', r'⟩ d ⟨⟨d1, d2, d3, d4, d5⟩, d6⟩
      simp only at d1 d6
      subst d1
      obtain ⟨g1, g2, g3, g4⟩ := position (X0 := |x|) (X := X) ht (by rw [pow_succ] at h5; linarith) (by rw [h6, pow_succ]; ring) h7 d2
      refine post_pure ⟨by omega, X % (|y| * 10 ^ j), 10 * Q + d .subtraction, rfl, rfl, d6, g1, g2, g3, ?_, ?_, ?_, ?_⟩ <;>
        simp only [Pi.add_apply, Pi.zero_apply, unit_apply, reduceCtorEq, if_true, if_false, List.length_cons, length_shift, add_tsub_cancel_right, d5]
      · omega
      · obtain ⟨e, rfl⟩ : ∃ e, size = e + (j + 1) := ⟨size - (j + 1), by omega⟩
        rw [show e + (j + 1) - (j + 1) = e by omega] at h8
        rw [show e + (j + 1) - j = e + 1 by omega]
        simpa using step_moved h8
      · obtain ⟨e, rfl⟩ : ∃ e, size = e + (j + 1) := ⟨size - (j + 1), by omega⟩
        rw [show e + (j + 1) - (j + 1) = e by omega] at h9
        rw [show e + (j + 1) - j = e + 1 by omega]
        simpa using step_round h9 d3
      · simpa using step_written h10 d4
    · rintro ⟨wx, wr⟩ Z hw hZ hZM
      simp only at hw
      subst hw
      refine post_bind (post_lift fun _ _ => post_bind (post_lift fun _ _ => post_bind (post_lift fun r hr => post_bind ?_)))
      refine (post_subAssignS_pos hk ht hZ ((digitCount_mono (by omega) hZM).trans (digitCount_abs x).le)).mono ?_
      rintro a c ⟨rfl, c1, c2, c3, c4⟩
      exact post_pure ⟨rfl, by simp; omega, by simp; omega, by simp [c3], by simp [c4]⟩
  · rintro ⟨sx, stmp, sr⟩ c ⟨-, X, Q, h1, h2, h3, h4, h5, h6, h7, h8, h9, h10⟩
    refine post_bind ((post_trimS _).mono ?_)
    rintro b d ⟨e, rfl⟩
    rw [e]
    refine (post_copyS _).mono ?_
    rintro b' d ⟨rfl, rfl⟩
    rw [zero_add] at h7 h8 h9 h10
    simp only at h3
    simp only [pow_zero, mul_one] at h5 h6
    have hq : |x| / |y| = Q := by
      rw [h6, Int.add_comm, Int.add_mul_ediv_right _ _ (by omega), Int.ediv_eq_zero_of_lt h4 h5, zero_add]
    have ht := trim_length_le { sign := if (enc x).sign = (enc y).sign then 1 else -1, chunks := sr }
    simp only at ht
    rw [h3] at ht
    refine ⟨size, by omega, ?_, ?_, ?_, ?_⟩ <;>
      simp only [Pi.add_apply, Pi.zero_apply, unit_apply, reduceCtorEq, if_true, if_false, List.length_replicate, length_shift, zero_add, add_zero]
    · rw [hq, h7]
    · simpa using h8
    · rw [Nat.sub_zero] at h9
      rw [h3]
      have : size * (digitCount x + 2) = size * (digitCount x + 1) + size := by ring
      omega
    · omega

theorem post_modAssignS {k : ℕ} (hk : 2 ≤ k) {x y : ℤ} (hy : y ≠ 0) (hlen : digitCount y ≤ digitCount x) :
    Post (modAssignS .lenient k (enc x) (enc y)) (fun _ c => ∃ size, size + digitCount y = digitCount x + 1 ∧
      c .subtraction = digitSum (|x| / |y|) ∧ 2 * c .moved + size = size * (2 * digitCount y + size) ∧
      c .round ≤ size * (digitCount x + 1) + 4 * digitCount x * c .subtraction ∧
      c .written ≤ size + digitCount y + digitCount x * c .subtraction) := by
  have hyp : 0 < |y| := abs_pos.mpr hy
  have hz : ((enc y).sign == 0) = false := by
    rw [beq_eq_false_iff_ne, Ne, enc_sign_eq_zero]; exact hy
  have hx : x ≠ 0 := by
    rintro rfl
    have := enc_length_pos hy
    rw [enc_length] at this
    have h0 : digitCount 0 = 0 := rfl
    omega
  unfold modAssignS
  rw [hz, checkZero_false]
  refine post_bind (post_lift fun _ _ => post_bind (post_lift fun dx hdx => post_bind (post_lift fun dy hdy => ?_)))
  rw [digits_enc] at hdx hdy
  injection hdx with hdx; injection hdy with hdy
  subst hdx hdy
  rw [enc_with_sign_one hx]
  rw [if_neg (by rw [enc_length, enc_length]; omega)]
  simp only [enc_length]
  generalize hsize : digitCount x - digitCount y + 1 = size
  refine post_bind (post_tick (post_bind ((post_forRange (fun i (s : BInt × List ℤ) c => i ≤ size ∧
    ∃ (X : ℤ) (Q : ℕ), s.1 = enc X ∧ s.2 = List.replicate (size - i) 0 ++ (enc y).chunks ∧ 0 ≤ X ∧ X < |y| * 10 ^ (size - i) ∧
      |x| = Q * (|y| * 10 ^ (size - i)) + X ∧ c .subtraction = digitSum Q ∧ 2 * c .moved + i = i * (2 * digitCount y + (i + (size - i)) + (size - i)) ∧
      c .round ≤ i * (digitCount x + 1) + 4 * digitCount x * c .subtraction ∧ c .written ≤ digitCount x * c .subtraction)
    size _ ?_ ?_).mono ?_)))
  · refine ⟨Nat.zero_le _, |x|, 0, rfl, rfl, abs_nonneg x, ?_, by simp, by simp [digitSum], by simp, by simp, by simp⟩
    have := size_bound hy (x := x) (by rw [enc_length, enc_length]; exact hlen)
    rwa [enc_length, enc_length, hsize] at this
  · rintro i ⟨sx, stmp⟩ c hi ⟨-, X, Q, h1, h2, h4, h5, h6, h7, h8, h9, h10⟩
    simp only at h1 h2
    subst h1 h2
    obtain ⟨j, rfl⟩ : ∃ j, size = i + (j + 1) := ⟨size - i - 1, by omega⟩
    rw [show i + (j + 1) - i = j + 1 by omega] at *
    rw [show i + (j + 1) - (i + 1) = j by omega]
    have ht : 0 < |y| * 10 ^ j := by positivity
    have hX : X ≤ |x| := by
      rw [h6]
      have : 0 ≤ (Q : ℤ) * (|y| * 10 ^ (j + 1)) := by positivity
      omega
    simp only [List.replicate_succ, List.cons_append, eraseFrontS, eraseFront]
    refine post_bind (post_bind (post_tick (post_lift fun tmp htmp => ?_)))
    injection htmp with htmp
    subst htmp
    rw [shift_enc hy]
    have hin := post_inner (σ := BInt) (fun w => w) (fun w => subAssignS .lenient k w (enc (|y| * 10 ^ j))) ht (m := digitCount x) (M := |x|)
      (by rw [digitCount_abs]) ?_ k (s := enc X) h4 hX rfl
    · refine post_bind (hin.mono ?_)
      rintro x' d ⟨d1, d2, d3, d4, d5⟩
      subst d1
      obtain ⟨g1, g2, g3, g4⟩ := position (X0 := |x|) (X := X) ht (by rw [pow_succ] at h5; linarith) (by rw [h6, pow_succ]; ring) h7 d2
      refine post_pure ⟨by omega, X % (|y| * 10 ^ j), 10 * Q + d .subtraction, rfl, rfl, g1, g2, g3, ?_, ?_, ?_, ?_⟩ <;>
        simp only [Pi.add_apply, Pi.zero_apply, unit_apply, reduceCtorEq, if_true, if_false, List.length_cons, length_shift, add_tsub_cancel_right, d5]
      · omega
      · rw [show i + 1 + j = i + (j + 1) by omega]
        simpa using step_moved h8
      · simpa using step_round h9 d3
      · simpa using step_written h10 d4
    · rintro w Z hw hZ hZM
      subst hw
      refine (post_subAssignS_pos hk ht hZ ((digitCount_mono (by omega) hZM).trans (digitCount_abs x).le)).mono ?_
      rintro a c ⟨rfl, c1, c2, c3, c4⟩
      exact ⟨rfl, c1, c2, c3, c4⟩
  · rintro ⟨sx, stmp⟩ c ⟨-, X, Q, h1, h2, h4, h5, h6, h7, h8, h9, h10⟩
    simp only at h1
    subst h1
    refine (post_trimS _).mono ?_
    rintro b d ⟨rfl, rfl⟩
    rw [Nat.sub_self] at *
    simp only [pow_zero, mul_one] at h5 h6
    have hq : |x| / |y| = Q := by
      rw [h6, Int.add_comm, Int.add_mul_ediv_right _ _ (by omega), Int.ediv_eq_zero_of_lt h4 h5, zero_add]
    rw [trim_enc_nonneg h4]
    refine ⟨size, by omega, ?_, ?_, ?_, ?_⟩ <;>
      simp only [Pi.add_apply, Pi.zero_apply, unit_apply, reduceCtorEq, if_true, if_false, length_shift, zero_add, add_zero, Nat.sub_self, ite_self]
    · rw [hq, h7]
    · simpa using h8
    · omega
    · omega

/-! ## Sums of any two integers -/

theorem post_addAssignS {k : ℕ} (hk : 2 ≤ k) (x y : ℤ) : Post (addAssignS .lenient false k (enc x) (enc y)) (fun a c =>
    c .round + a.chunks.length ≤ 3 * max (digitCount x) (digitCount y) + 2 ∧
    c .written ≤ 2 * max (digitCount x) (digitCount y) + 1 ∧ c .moved = 0 ∧ c .subtraction = 0) := by
  obtain ⟨j, rfl⟩ : ∃ j, k = j + 2 := ⟨k - 2, by omega⟩
  unfold addAssignS
  refine post_ite (fun h => post_ite (fun _ => (post_copyS _).mono ?_) (fun _ => post_pure ?_)) (fun h => post_ite (fun hs => ?_) (fun hs => (post_addSameS _ _ _).mono ?_))
  · rintro a c ⟨rfl, rfl⟩
    simp [unit_apply, enc_length]; omega
  · simp [enc_length]; omega
  · refine post_bind ((post_copyS _).mono ?_)
    rintro a c ⟨e, rfl⟩
    rw [e]
    rw [not_or] at h
    unfold subAssignS
    rw [if_neg (by rw [not_or]; exact ⟨h.1, by simpa [neg] using h.2⟩), if_neg (by
      rw [not_not, neg_enc, enc_sign, enc_sign, Int.sign_neg]
      rw [enc_sign, enc_sign] at hs h
      rcases Int.sign_trichotomy x with a | a | a <;> rcases Int.sign_trichotomy y with b | b | b <;> rw [a, b] at hs ⊢ <;> simp_all)]
    refine (post_subSameS _ _ _).mono ?_
    rintro a c ⟨c1, c2, c3, c4, c5⟩
    rw [neg_enc, enc_length, enc_length] at c2
    rw [neg_enc, enc_length] at c3
    have hn : digitCount (-y) = digitCount y := by unfold digitCount; rw [Int.natAbs_neg]
    rw [hn] at c2 c3
    simp only [Pi.add_apply, unit_apply, reduceCtorEq, if_true, if_false, c4, c5, enc_length]
    exact ⟨by omega, by omega, by trivial, by trivial⟩
  · rintro a c ⟨c1, c2, c3, c4, c5, c6⟩
    rw [enc_length, enc_length] at c2 c4
    exact ⟨by omega, by omega, c5, c6⟩

theorem post_subAssignS {k : ℕ} (hk : 2 ≤ k) (x y : ℤ) : Post (subAssignS .lenient k (enc x) (enc y)) (fun a c =>
    c .round + a.chunks.length ≤ 3 * max (digitCount x) (digitCount y) + 2 ∧
    c .written ≤ 2 * max (digitCount x) (digitCount y) + 1 ∧ c .moved = 0 ∧ c .subtraction = 0) := by
  obtain ⟨j, rfl⟩ : ∃ j, k = j + 2 := ⟨k - 2, by omega⟩
  have hn : digitCount (-y) = digitCount y := by unfold digitCount; rw [Int.natAbs_neg]
  unfold subAssignS
  refine post_ite (fun h => post_ite (fun _ => post_bind ((post_copyS _).mono ?_)) (fun _ => post_pure ?_)) (fun h => post_ite (fun hs => ?_) (fun hs => (post_subSameS _ _ _).mono ?_))
  · rintro a c ⟨e, rfl⟩
    rw [e]
    refine (post_copyS _).mono ?_
    rintro a c ⟨rfl, rfl⟩
    simp only [Pi.add_apply, unit_apply, reduceCtorEq, if_true, if_false, neg_enc, enc_length, hn]
    exact ⟨by omega, by omega, by trivial, by trivial⟩
  · simp [enc_length]; omega
  · refine post_bind ((post_copyS _).mono ?_)
    rintro a c ⟨e, rfl⟩
    rw [e]
    rw [not_or] at h
    unfold addAssignS
    rw [if_neg (by rw [not_or]; exact ⟨h.1, by simpa [neg] using h.2⟩), if_neg (by
      rw [not_not, neg_enc, enc_sign, enc_sign, Int.sign_neg]
      rw [enc_sign, enc_sign] at hs h
      rcases Int.sign_trichotomy x with a | a | a <;> rcases Int.sign_trichotomy y with b | b | b <;> rw [a, b] at hs ⊢ <;> simp_all)]
    refine (post_addSameS _ _ _).mono ?_
    rintro a c ⟨c1, c2, c3, c4, c5, c6⟩
    rw [neg_enc, enc_length, enc_length, hn] at c2 c4
    simp only [Pi.add_apply, unit_apply, reduceCtorEq, if_true, if_false, c5, c6, enc_length]
    exact ⟨by omega, by omega, by trivial, by trivial⟩
  · rintro a c ⟨c1, c2, c3, c4, c5⟩
    rw [enc_length, enc_length] at c2
    rw [enc_length] at c3
    exact ⟨by omega, by omega, c4, c5⟩

end BInt
end Pyincpp
