import Verif.Proof.IntCostInc

/-! # Counting the steps of `Int`: sequences of increments and decrements, comparison, sums -/

namespace Pyincpp
namespace BInt
open Steps

theorem incS_pos {z : ℤ} (hz : 0 < z) : ∃ i c, (incS (enc z)).run = .ok (enc (z + 1), c) ∧
    10 ^ i ∣ z.natAbs + 1 ∧ ¬ 10 ^ (i + 1) ∣ z.natAbs + 1 ∧ c .round + digitCount (z + 1) = 2 * i + (digitCount z + 1) ∧
    c .written = 1 ∧ c .moved = 0 ∧ c .subtraction = 0 := by
  have hs : (enc z).sign = 1 := by rw [enc_sign, Int.sign_eq_one_of_pos hz]
  have e : incS (enc z) = absIncS (enc z) := by unfold incS; rw [hs]; simp
  have hf : forget (incS (enc z)) = .ok (enc (z + 1)) := by rw [forget_incS, inc_enc]
  rw [e] at hf ⊢
  obtain ⟨c, h, i, hr, h1, h2, h3, h4⟩ := run_of_forget hf (post_absIncS _)
  obtain ⟨d1, d2⟩ := run_nines hr
  rw [enc_length, enc_length] at h1
  exact ⟨i, c, h, d1, d2, h1, h2, h3, h4⟩

theorem decS_pos {z : ℤ} (hz : 0 < z) : ∃ i c, (decS (enc z)).run = .ok (enc (z - 1), c) ∧
    10 ^ i ∣ z.natAbs ∧ ¬ 10 ^ (i + 1) ∣ z.natAbs ∧ c .round + digitCount (z - 1) = 2 * i + digitCount z ∧
    c .written = 0 ∧ c .moved = 0 ∧ c .subtraction = 0 := by
  have hs : (enc z).sign = 1 := by rw [enc_sign, Int.sign_eq_one_of_pos hz]
  have e : decS (enc z) = absDecS (enc z) := by unfold decS; rw [hs]; simp
  have hf : forget (decS (enc z)) = .ok (enc (z - 1)) := by rw [forget_decS, dec_enc]
  rw [e] at hf ⊢
  obtain ⟨c, h, i, hr, h1, h2, h3, h4⟩ := run_of_forget hf (post_absDecS _)
  obtain ⟨d1, d2⟩ := run_zeros hr
  rw [enc_length, enc_length] at h1
  exact ⟨i, c, h, d1, d2, h1, h2, h3, h4⟩

theorem incS_zero : (incS (enc 0)).run = .ok (enc 1, unit .written) := by
  have h0 : enc 0 = ⟨0, []⟩ := by simp [enc]
  have h1 : enc 1 = ⟨1, [1]⟩ := by simp [enc]
  rw [h0, h1]
  rfl

theorem bind_run {α β : Type} {x : Steps α} {f : α → Steps β} {a : α} {b : β} {c d : Count} (h : x.run = .ok (a, c))
    (h' : (f a).run = .ok (b, d)) : (x >>= f).run = .ok (b, c + d) := by
  show (x.run >>= fun p => (f p.1).run >>= fun q => Res.ok (q.1, p.2 + q.2)) = _
  rw [h, Res.ok_bind]
  show ((f a).run >>= fun q => Res.ok (q.1, c + q.2)) = _
  rw [h', Res.ok_bind]

theorem crementS_append {l m : List Bool} {x y z : BInt} {c d : Count} (h : (crementS l x).run = .ok (y, c)) (h' : (crementS m y).run = .ok (z, d)) :
    (crementS (l ++ m) x).run = .ok (z, c + d) := by
  induction l generalizing x c with
  | nil =>
    have e : (Res.ok (x, (0 : Count))) = .ok (y, c) := h
    injection e with e; injection e with e1 e2; subst e1 e2
    rw [zero_add]; exact h'
  | cons b l ih =>
    have key : ∀ {s : BInt → Steps BInt}, (s x >>= fun w => crementS l w).run = .ok (y, c) →
        (s x >>= fun w => crementS (l ++ m) w).run = .ok (z, c + d) := by
      intro s hs
      have hs' : ((s x).run >>= fun p => (crementS l p.1).run >>= fun q => Res.ok (q.1, p.2 + q.2)) = .ok (y, c) := hs
      rw [Res.bind_eq_ok] at hs'
      obtain ⟨⟨a, c1⟩, h1, h2⟩ := hs'
      rw [Res.bind_eq_ok] at h2
      obtain ⟨⟨b', c2⟩, h3, h4⟩ := h2
      injection h4 with h4; injection h4 with e1 e2; subst e1 e2
      rw [add_assoc]
      exact bind_run h1 (ih h3)
    cases b
    · exact key h
    · exact key h

theorem count_up : ∀ N : ℕ, ∃ c, (crementS (List.replicate N true) (enc 0)).run = .ok (enc N, c) ∧
    9 * c .round + 2 * digitSum N + 9 * digitCount N = 11 * N ∧ c .written = N ∧ c .moved = 0 ∧ c .subtraction = 0
  | 0 => ⟨0, rfl, by simp [digitSum, digitCount]⟩
  | N + 1 => by
    obtain ⟨c, h, h1, h2, h3, h4⟩ := count_up N
    rcases Nat.eq_zero_or_pos N with rfl | hN
    · refine ⟨unit .written + 0, ?_, ?_, ?_, ?_, ?_⟩
      · exact bind_run incS_zero rfl
      all_goals simp [digitSum, digitCount]
    obtain ⟨i, d, hd, d1, d2, d3, d4, d5, d6⟩ := incS_pos (z := N) (by exact_mod_cast hN)
    have e : (crementS [true] (enc N)).run = .ok (enc (N + 1), d + 0) := bind_run hd rfl
    refine ⟨c + (d + 0), ?_, ?_, ?_, ?_, ?_⟩
    · have := crementS_append h e
      rw [← List.replicate_succ'] at this
      exact_mod_cast this
    · have hs := sum_succ i N (by rwa [Int.natAbs_natCast] at d1) (by rwa [Int.natAbs_natCast] at d2)
      have e1 : digitSum ((N + 1 : ℕ) : ℤ) = (Nat.digits 10 (N + 1)).sum := by unfold digitSum; rw [Int.natAbs_natCast]
      have e2 : digitSum ((N : ℕ) : ℤ) = (Nat.digits 10 N).sum := by unfold digitSum; rw [Int.natAbs_natCast]
      rw [show (((N : ℕ) : ℤ) + 1) = ((N + 1 : ℕ) : ℤ) by push_cast; rfl] at d3
      simp only [Pi.add_apply, Pi.zero_apply]
      rw [e1]; rw [e2] at h1
      omega
    all_goals simp only [Pi.add_apply, Pi.zero_apply]; omega

theorem count_down : ∀ N : ℕ, ∃ c, (crementS (List.replicate N false) (enc N)).run = .ok (enc 0, c) ∧
    9 * c .round + 2 * digitSum N = 2 * N + 9 * digitCount N ∧ c .written = 0 ∧ c .moved = 0 ∧ c .subtraction = 0
  | 0 => ⟨0, rfl, by simp [digitSum, digitCount]⟩
  | N + 1 => by
    obtain ⟨c, h, h1, h2, h3, h4⟩ := count_down N
    obtain ⟨i, d, hd, d1, d2, d3, d4, d5, d6⟩ := decS_pos (z := ((N + 1 : ℕ) : ℤ)) (by positivity)
    rw [show (((N + 1 : ℕ) : ℤ) - 1) = (N : ℤ) by push_cast; ring] at hd d3
    refine ⟨d + c, bind_run hd h, ?_, ?_, ?_, ?_⟩
    · have hs := sum_succ i N (by rwa [Int.natAbs_natCast] at d1) (by rwa [Int.natAbs_natCast] at d2)
      have e1 : digitSum ((N + 1 : ℕ) : ℤ) = (Nat.digits 10 (N + 1)).sum := by unfold digitSum; rw [Int.natAbs_natCast]
      have e2 : digitSum ((N : ℕ) : ℤ) = (Nat.digits 10 N).sum := by unfold digitSum; rw [Int.natAbs_natCast]
      simp only [Pi.add_apply]
      rw [e1]; rw [e2] at h1
      omega
    all_goals simp only [Pi.add_apply]; omega

theorem digitCount_pow (d : ℕ) : digitCount (10 ^ d) = d + 1 := by
  unfold digitCount
  rw [show ((10 : ℤ) ^ d).natAbs = 10 ^ d by rw [Int.natAbs_pow]; rfl, Nat.length_digits 10 _ (by norm_num) (by positivity),
    Nat.log_pow (by norm_num)]

theorem exact_power {i d n : ℕ} (hn : n = 10 ^ d) (h : 10 ^ i ∣ n) (h' : ¬ 10 ^ (i + 1) ∣ n) : i = d := by
  subst hn
  have h1 : i ≤ d := (Nat.pow_dvd_pow_iff_le_right (by norm_num)).mp h
  have h2 : ¬ i + 1 ≤ d := fun c => h' ((Nat.pow_dvd_pow_iff_le_right (by norm_num)).mpr c)
  omega

/-- Going down from `10^d` by one and up again. -/
theorem down_up (d : ℕ) (hd : 0 < d) : ∃ c, (crementS [false, true] (enc (10 ^ d))).run = .ok (enc (10 ^ d), c) ∧ c .round = 4 * d + 1 := by
  have hp : (0 : ℤ) < 10 ^ d := by positivity
  have hp1 : (1 : ℤ) < 10 ^ d := one_lt_pow₀ (by norm_num) (by omega)
  obtain ⟨i, c, h, c1, c2, c3, -⟩ := decS_pos hp
  obtain ⟨j, b, h', b1, b2, b3, -⟩ := incS_pos (z := 10 ^ d - 1) (by omega)
  have ea : ((10 : ℤ) ^ d).natAbs = 10 ^ d := by rw [Int.natAbs_pow]; rfl
  have eb : ((10 : ℤ) ^ d - 1).natAbs + 1 = 10 ^ d := by
    zify
    rw [abs_of_pos (by omega)]; ring
  obtain rfl := exact_power ea c1 c2
  obtain rfl := exact_power eb b1 b2
  rw [sub_add_cancel] at h' b3
  refine ⟨c + (b + 0), bind_run h (bind_run h' rfl), ?_⟩
  simp only [Pi.add_apply, Pi.zero_apply]
  rw [digitCount_pow] at c3 b3
  omega

theorem down_ups (d : ℕ) (hd : 0 < d) : ∀ M : ℕ, ∃ c, (crementS (List.replicate M [false, true]).flatten (enc (10 ^ d))).run = .ok (enc (10 ^ d), c) ∧
    c .round = M * (4 * d + 1)
  | 0 => ⟨0, rfl, by simp⟩
  | M + 1 => by
    obtain ⟨c, h, h1⟩ := down_ups d hd M
    obtain ⟨b, h', h2⟩ := down_up d hd
    refine ⟨b + c, ?_, ?_⟩
    · rw [List.replicate_succ, List.flatten_cons]
      exact crementS_append h' h
    · simp only [Pi.add_apply]; rw [h1, h2]; ring

/-! ## Comparison -/

theorem post_absCmpLoopS (a b : List ℤ) : ∀ n, Post (absCmpLoopS a b n) (fun _ c =>
    c .round ≤ n ∧ c .written = 0 ∧ c .moved = 0 ∧ c .subtraction = 0)
  | 0 => post_pure (by simp)
  | n + 1 => by
    unfold absCmpLoopS
    refine post_bind (post_tick (post_bind (post_lift fun x _ => post_bind (post_lift fun y _ => post_ite (fun _ => post_pure ?_) (fun _ => ?_)))))
    · simp
    · refine (post_absCmpLoopS a b n).mono ?_
      rintro _ c ⟨h1, h2, h3, h4⟩
      simp [h2, h3, h4]; omega

theorem post_absCmpS (x y : BInt) : Post (absCmpS x y) (fun _ c =>
    c .round ≤ min x.chunks.length y.chunks.length ∧ c .written = 0 ∧ c .moved = 0 ∧ c .subtraction = 0) := by
  unfold absCmpS
  refine post_ite (fun _ => post_pure (by simp)) (fun h => (post_absCmpLoopS _ _ _).mono ?_)
  rintro _ c ⟨h1, h2⟩
  rw [not_not] at h
  exact ⟨by omega, h2⟩

theorem post_cmpS (x y : BInt) : Post (cmpS x y) (fun _ c =>
    c .round ≤ min x.chunks.length y.chunks.length ∧ c .written = 0 ∧ c .moved = 0 ∧ c .subtraction = 0) := by
  unfold cmpS
  refine post_ite (fun _ => post_ite (fun _ => post_pure (by simp)) (fun _ => post_ite (fun _ => post_pure (by simp)) (fun _ => post_pure (by simp))))
    (fun _ => post_bind ((post_absCmpS x y).mono ?_))
  rintro _ c ⟨h1, h2, h3, h4⟩
  exact post_pure (by simp [h2, h3, h4]; omega)

theorem post_geS (x y : BInt) : Post (geS x y) (fun _ c =>
    c .round ≤ min x.chunks.length y.chunks.length ∧ c .written = 0 ∧ c .moved = 0 ∧ c .subtraction = 0) := by
  unfold geS
  refine post_bind ((post_cmpS x y).mono ?_)
  rintro _ c ⟨h1, h2, h3, h4⟩
  exact post_pure (by simp [h2, h3, h4]; omega)

/-! ## Sums -/

theorem vaddAt_length {mem : Mem} {v w : List ℤ} {i : ℕ} {d : ℤ} (h : vaddAt mem v i d = .ok w) : w.length = v.length := by
  unfold vaddAt at h
  split at h
  · injection h with h; rw [h]
  · rw [Res.bind_eq_ok] at h
    obtain ⟨a, -, h⟩ := h
    rw [Res.bind_eq_ok] at h
    obtain ⟨b, -, h⟩ := h
    exact vset_length h

theorem post_addSameS (mem : Mem) (x y : BInt) : Post (addSameS mem false x y) (fun a c =>
    a.chunks.length ≤ max x.chunks.length y.chunks.length + 1 ∧
    c .round + a.chunks.length ≤ 2 * (max x.chunks.length y.chunks.length + 1) ∧ y.chunks.length ≤ c .round ∧
    c .written + x.chunks.length = max x.chunks.length y.chunks.length + 1 ∧ c .moved = 0 ∧ c .subtraction = 0) := by
  unfold addSameS
  simp only [Bool.false_eq_true, if_false]
  have hl : (vresize x.chunks (max x.chunks.length y.chunks.length + 1)).length = max x.chunks.length y.chunks.length + 1 := by
    simp [vresize]; omega
  refine post_bind (post_tick (post_bind ((post_forRange (fun i a c => a.length = max x.chunks.length y.chunks.length + 1 ∧
    c = unit .round i) y.chunks.length _ ⟨hl, by funext j; simp⟩ ?_).mono ?_)))
  · rintro j a c hj ⟨h1, rfl⟩
    refine post_bind (post_lift fun _ _ => post_bind (post_lift fun _ _ => post_bind (post_lift fun _ _ => post_bind (post_lift fun a' ha => post_lift fun a'' ha' => ⟨?_, ?_⟩))))
    · rw [vaddAt_length ha', vset_length ha, h1]
    · funext l; simp only [Pi.add_apply, Pi.zero_apply, unit_apply]; split <;> rfl
  · rintro a c ⟨h1, rfl⟩
    refine post_bind ((post_forUpWhile (fun i a c => a.length = max x.chunks.length y.chunks.length + 1 ∧
      c = unit .round (i - y.chunks.length)) _ y.chunks.length a 0 ⟨h1, by funext j; simp⟩ ?_).mono ?_)
    · rintro j a c hj hj' ⟨h1, rfl⟩
      refine post_bind (post_lift fun a' ha => post_lift fun a'' ha' => ⟨?_, ?_⟩)
      · rw [vset_length ha', vaddAt_length ha, h1]
      · funext l; simp only [Pi.add_apply, Pi.zero_apply, unit_apply]; split <;> omega
    · rintro a' c ⟨j, hj, hj', h2, h3⟩
      rw [zero_add] at h3
      subst h3
      refine (post_trimS _).mono ?_
      rintro b c ⟨rfl, rfl⟩
      have ht := trim_length_le { x with chunks := a' }
      simp only at ht
      simp only [Pi.add_apply, unit_apply, reduceCtorEq, if_true, if_false, hl]
      refine ⟨by omega, by omega, by omega, by omega, by trivial, by trivial⟩

theorem post_subSameS (mem : Mem) (x y : BInt) : Post (subSameS mem x y) (fun a c =>
    a.chunks.length ≤ max x.chunks.length y.chunks.length ∧
    c .round + a.chunks.length ≤ 2 * max x.chunks.length y.chunks.length + min x.chunks.length y.chunks.length ∧
    c .written = y.chunks.length ∧ c .moved = 0 ∧ c .subtraction = 0) := by
  unfold subSameS
  refine post_bind ((post_copyS y).mono ?_)
  rintro _ c ⟨e, rfl⟩
  rw [e]
  clear e
  have hc : Post (absCmpS x y) (fun r c => (r = -1 → x.chunks.length ≤ y.chunks.length) ∧ (r ≠ -1 → y.chunks.length ≤ x.chunks.length) ∧
      c .round ≤ min x.chunks.length y.chunks.length ∧ c .written = 0 ∧ c .moved = 0 ∧ c .subtraction = 0) := by
    refine ((post_absCmpS x y).and (P := _) (Q := fun r _ => (r = -1 → x.chunks.length ≤ y.chunks.length) ∧ (r ≠ -1 → y.chunks.length ≤ x.chunks.length)) ?_).mono ?_
    · unfold absCmpS
      refine post_ite (fun h => post_pure ?_) (fun h _ _ _ => by omega)
      split <;> simp <;> omega
    · rintro r c ⟨h1, h2, h3⟩; exact ⟨h2, h3, h1⟩
  refine post_bind (hc.mono ?_)
  rintro r c ⟨g1, g2, h1, h2, h3, h4⟩
  obtain ⟨s, a, b, e, hab, hmax⟩ : ∃ (s : ℤ) (a b : List ℤ), (if r = -1 then (-x.sign, y.chunks, x.chunks) else (x.sign, x.chunks, y.chunks)) = (s, a, b) ∧
      b.length ≤ a.length ∧ a.length = max x.chunks.length y.chunks.length := by
    split
    · exact ⟨_, _, _, rfl, g1 ‹_›, by have := g1 ‹_›; omega⟩
    · exact ⟨_, _, _, rfl, g2 ‹_›, by have := g2 ‹_›; omega⟩
  rw [e]
  simp only
  refine post_bind ((post_forRange (fun i v c => v.length = a.length ∧ c = unit .round i) b.length a ⟨rfl, by funext j; simp⟩ ?_).mono ?_)
  · rintro j a' c hj ⟨h1, rfl⟩
    refine post_bind (post_lift fun _ _ => post_bind (post_lift fun _ _ => post_bind (post_lift fun _ _ => post_bind (post_lift fun _ _ => post_bind (post_lift fun a'' ha => post_lift fun a''' ha' => ⟨?_, ?_⟩)))))
    · rw [vaddAt_length ha', vset_length ha, h1]
    · funext l; simp only [Pi.add_apply, Pi.zero_apply, unit_apply]; split <;> rfl
  · rintro a1 c1 ⟨k1, rfl⟩
    refine post_bind ((post_forUpWhile (fun i v c => v.length = a.length ∧ c = unit .round (i - b.length)) _ b.length a1 0
      ⟨k1, by funext j; simp⟩ ?_).mono ?_)
    · rintro j a' c hj hj' ⟨h1, rfl⟩
      refine post_bind (post_lift fun a'' ha => post_lift fun a''' ha' => ⟨?_, ?_⟩)
      · rw [vset_length ha', vaddAt_length ha, h1]
      · funext l; simp only [Pi.add_apply, Pi.zero_apply, unit_apply]; split <;> omega
    · rintro a2 c2 ⟨j, hj, hj', k2, k3⟩
      rw [zero_add] at k3
      subst k3
      refine (post_trimS _).mono ?_
      rintro w c3 ⟨rfl, rfl⟩
      have ht := trim_length_le { sign := s, chunks := a2 }
      simp only at ht
      simp only [Pi.add_apply, unit_apply, reduceCtorEq, if_true, if_false]
      refine ⟨by omega, by omega, by omega, by omega, by omega⟩

end BInt
end Pyincpp
