import Verif.Model.StrCost
import Verif.Proof.StrNum
import Verif.Props.IntCost
import Mathlib.Tactic.Ring
import Mathlib.Tactic.Linarith

/-! # What `to_integer` costs: lemmas -/

namespace Pyincpp
open BInt Steps

namespace Str

theorem forget_timesPlusS (mem : Mem) (k : Nat) (base : Int) (x : BInt) (c : UInt8) :
    forget (timesPlusS mem k base x c) = (do
      let p ← BInt.mul x (← BInt.ofInt base)
      BInt.add mem k p (← BInt.ofInt (← charToInteger c base))) := by
  unfold timesPlusS
  simp only [forget_bind, forget_lift, copyS, forget_tick, forget_pure, Res.ok_bind, forget_mulAssignS, forget_addAssignS]
  show _ = (BInt.ofInt base >>= fun b => BInt.mulAssign x b >>= fun p => charToInteger c base >>= fun d => BInt.ofInt d >>= fun e =>
    BInt.addAssign mem false k p e)
  congr 1; funext b
  congr 1; funext p
  congr 1; funext d
  congr 1; funext e
  cases BInt.addAssign mem false k p e <;> rfl

theorem res_assoc {α β γ : Type} (x : Res α) (f : α → Res β) (g : β → Res γ) : ((x >>= f) >>= g) = x >>= fun a => f a >>= g := by
  cases x <;> rfl

theorem forget_toIntegerLoopS (mem : Mem) (k : Nat) (s : List UInt8) (base : Int) : ∀ (cs : List UInt8) (st : St) (nn : Bool) (x : BInt),
    forget (toIntegerLoopS mem k s base cs st nn x) = toIntegerLoop mem k s base cs st nn x := by
  intro cs
  induction cs with
  | nil => intro _ _ _; rfl
  | cons c cs ih =>
    intro st nn x
    have step : forget (timesPlusS mem k base x c >>= fun integer => toIntegerLoopS mem k s base cs .int nn integer) = (do
        let p ← BInt.mul x (← BInt.ofInt base)
        let integer ← BInt.add mem k p (← BInt.ofInt (← charToInteger c base))
        toIntegerLoop mem k s base cs .int nn integer) := by
      rw [forget_bind, forget_timesPlusS]
      simp only [res_assoc, ih]
    rw [toIntegerLoopS, toIntegerLoop, forget_bind, forget_tick, Res.ok_bind, forget_bind, forget_lift]
    cases getEvent c base with
    | ok ev =>
      rw [Res.ok_bind, Res.ok_bind]
      cases ev <;> cases st <;> dsimp only <;> first
        | with_reducible exact ih _ _ _
        | with_reducible exact step
        | with_reducible exact forget_lift _
    | throw => rfl
    | ub => rfl
    | fuel => rfl

theorem forget_toIntegerS (mem : Mem) (k : Nat) (s : List UInt8) (base : Int) : forget (toIntegerS mem k s base) = toInteger mem k s base := by
  unfold toIntegerS toInteger
  split
  · exact forget_lift _
  · rw [forget_bind, forget_lift, ofInt_small (by omega) (by omega), Res.ok_bind, Res.ok_bind, forget_bind, forget_toIntegerLoopS]
    cases toIntegerLoop mem k s base (visited s) .start true (enc 0) with
    | ok r =>
      rcases r with ⟨st, nn, x⟩
      rw [Res.ok_bind, Res.ok_bind]
      dsimp only
      rw [forget_ite, forget_lift]
      rfl
    | throw => rfl
    | ub => rfl
    | fuel => rfl

/-! ## One digit -/

theorem digitCount_lt {z : ℤ} {n : ℕ} (h : z.natAbs < 10 ^ n) : digitCount z ≤ n := (Nat.digits_length_le_iff (by norm_num) _).mpr h

theorem copyS_run (x : BInt) : (copyS x).run = .ok (x, unit .written x.chunks.length) := by
  have := bind_run (x := tick .written x.chunks.length) (f := fun _ => (pure x : Steps BInt)) (c := unit .written x.chunks.length) (d := 0) rfl rfl
  rwa [add_zero] at this

theorem lift_run {α : Type} {r : Res α} {a : α} (h : r = .ok a) : (Steps.lift r).run = .ok (a, 0) := by rw [h]; rfl

theorem mulAssignS_zero (y : ℤ) : (mulAssignS (enc 0) (enc y)).run = .ok (enc 0, 0) := by
  rw [mulAssignS, if_pos (.inl (by simp [enc]))]
  exact lift_run (ofInt_small (by omega) (by omega))

theorem digitCount_le_two {b : ℤ} (h0 : 0 ≤ b) (h : b ≤ 36) : digitCount b ≤ 2 := digitCount_lt (by omega)

theorem digitCount_step (z : ℤ) {b v : ℤ} (hb : 0 ≤ b) (hb' : b ≤ 36) (hv : 0 ≤ v) (hv' : v < 36) : digitCount (z * b + v) ≤ digitCount z + 2 := by
  apply digitCount_lt
  have h1 := natAbs_lt_pow z
  have h2 : (z * b + v).natAbs ≤ z.natAbs * 36 + 35 := by
    refine (Int.natAbs_add_le _ _).trans ?_
    rw [Int.natAbs_mul]
    have : z.natAbs * b.natAbs ≤ z.natAbs * 36 := Nat.mul_le_mul_left _ (by omega)
    omega
  rw [pow_add]; omega

theorem mulAssignS_run (z : ℤ) {b : ℤ} (h0 : 2 ≤ b) (h : b ≤ 36) : ∃ c, (mulAssignS (enc z) (enc b)).run = .ok (enc (z * b), c) ∧
    2 * digitCount z ≤ c .round ∧ c .round ≤ 4 * digitCount z + 2 ∧ c .written ≤ 2 * digitCount z + 4 ∧ c .moved = 0 ∧ c .subtraction = 0 := by
  by_cases hz : z = 0
  · subst hz
    refine ⟨0, by rw [zero_mul]; exact mulAssignS_zero b, ?_⟩
    simp [digitCount]
  · obtain ⟨c, e, h1, h2, h3, h4⟩ := C100_mul hz (by omega : b ≠ 0)
    have d1 := digitCount_le_two (by omega) h
    have d0 : 1 ≤ digitCount b := by
      by_contra hc
      have : digitCount b = 0 := by omega
      have := natAbs_lt_pow b
      rw [‹digitCount b = 0›] at this; omega
    have d2 : digitCount (z * b) ≤ digitCount z + digitCount b := by
      apply digitCount_lt
      rw [Int.natAbs_mul, pow_add]
      exact Nat.mul_lt_mul'' (natAbs_lt_pow z) (natAbs_lt_pow b)
    refine ⟨c, e, ?_, ?_, by omega, h3, h4⟩
    · have : digitCount z * 2 ≤ digitCount z * (digitCount b + 1) := Nat.mul_le_mul_left _ (by omega)
      omega
    · have : digitCount z * (digitCount b + 1) ≤ digitCount z * 3 := Nat.mul_le_mul_left _ (by omega)
      omega

/-- One digit. -/
theorem timesPlusS_run {k : ℕ} (hk : 2 ≤ k) (z : ℤ) {b : ℕ} (hb : 2 ≤ b) (hb' : b ≤ 36) {ch : UInt8} (h : IsDigitIn b ch) :
    ∃ c, (timesPlusS .lenient k b (enc z) ch).run = .ok (enc (z * b + ((digitValue ch).getD 0 : ℕ)), c) ∧
      2 * digitCount z ≤ c .round ∧ c .round ≤ 7 * digitCount z + 10 ∧ c .written ≤ 8 * digitCount z + 15 ∧ c .moved = 0 ∧ c .subtraction = 0 ∧
      digitCount (z * b + ((digitValue ch).getD 0 : ℕ)) ≤ digitCount z + 2 := by
  have hv : (digitValue ch).getD 0 < 36 := by
    obtain ⟨v, hv, -⟩ := h; rw [hv]; exact digitValue_lt ch v hv
  generalize hd : (digitValue ch).getD 0 = v at hv ⊢
  obtain ⟨c1, e1, l1, u1, w1, m1, s1⟩ := mulAssignS_run z (b := b) (by omega) (by omega)
  obtain ⟨c2, e2, u2, w2, m2, s2⟩ := C100_add hk (z * b) (v : ℤ)
  have d0 := digitCount_step z (b := b) (v := 0) (by omega) (by omega) (by omega) (by omega)
  rw [add_zero] at d0
  have d1 := digitCount_step z (b := b) (v := v) (by omega) (by omega) (by omega) (by omega)
  have d2 := digitCount_le_two (b := (v : ℤ)) (by omega) (by omega)
  have e0 := copyS_run (enc z)
  have e3 := copyS_run (enc (z * b))
  have e4 := copyS_run (enc (z * b + v))
  rw [enc_length] at e0 e3 e4
  refine ⟨0 + (unit .written (digitCount z) + (c1 + (unit .written (digitCount (z * b)) + (0 + (0 + (unit .written (digitCount (z * b)) +
    (c2 + unit .written (digitCount (z * b + v))))))))), ?_, ?_⟩
  · unfold timesPlusS
    refine bind_run (lift_run (ofInt_small (by omega) (by omega))) ?_
    refine bind_run e0 ?_
    refine bind_run e1 ?_
    refine bind_run e3 ?_
    refine bind_run (lift_run (by rw [charToInteger_digit ch b hb' h, hd])) ?_
    refine bind_run (lift_run (ofInt_small (by omega) (by omega))) ?_
    refine bind_run e3 ?_
    exact bind_run e2 e4
  · simp only [Pi.add_apply, Pi.zero_apply, unit_apply, reduceCtorEq, if_true, if_false]
    refine ⟨by omega, by omega, by omega, by omega, by omega, d1⟩

theorem post_of_run {α : Type} {x : Steps α} {a : α} {c : Count} {P : α → Count → Prop} (h : x.run = .ok (a, c)) (hp : P a c) : Post x P := by
  intro a' c' e
  rw [h] at e
  injection e with e; injection e with e1 e2; subst e1 e2; exact hp

/-- The loop: quadratic at most. -/
theorem post_toIntegerLoopS {k : ℕ} (hk : 2 ≤ k) (s : List UInt8) {b : ℕ} (hb : 2 ≤ b) (hb' : b ≤ 36) : ∀ (cs : List UInt8) (st : St) (nn : Bool) (z : ℤ),
    Post (toIntegerLoopS .lenient k s b cs st nn (enc z)) (fun r c => (∃ z', r.2.2 = enc z' ∧ digitCount z' ≤ digitCount z + 2 * cs.length) ∧
      c .round ≤ 7 * digitCount z * cs.length + 7 * cs.length * cs.length + 4 * cs.length ∧
      c .written ≤ 8 * digitCount z * cs.length + 8 * cs.length * cs.length + 7 * cs.length ∧ c .moved = 0 ∧ c .subtraction = 0) := by
  intro cs
  induction cs with
  | nil => intro st nn z; exact post_pure ⟨⟨z, rfl, by simp⟩, by simp⟩
  | cons ch cs ih =>
    intro st nn z
    have same : ∀ st' nn', Post (toIntegerLoopS .lenient k s b cs st' nn' (enc z)) (fun r c => (∃ z', r.2.2 = enc z' ∧ digitCount z' ≤ digitCount z + 2 * (cs.length + 1)) ∧
      1 + c .round ≤ 7 * digitCount z * (cs.length + 1) + 7 * (cs.length + 1) * (cs.length + 1) + 4 * (cs.length + 1) ∧
      c .written ≤ 8 * digitCount z * (cs.length + 1) + 8 * (cs.length + 1) * (cs.length + 1) + 7 * (cs.length + 1) ∧ c .moved = 0 ∧ c .subtraction = 0) := by
      intro st' nn'
      refine (ih st' nn' z).mono ?_
      rintro r c ⟨⟨z', h1, h2⟩, h3, h4, h5, h6⟩
      refine ⟨⟨z', h1, by omega⟩, by nlinarith, by nlinarith, h5, h6⟩
    have step : IsDigitIn b ch → Post (timesPlusS .lenient k b (enc z) ch >>= fun x => toIntegerLoopS .lenient k s b cs .int nn x)
      (fun r c => (∃ z', r.2.2 = enc z' ∧ digitCount z' ≤ digitCount z + 2 * (cs.length + 1)) ∧
      1 + c .round ≤ 7 * digitCount z * (cs.length + 1) + 7 * (cs.length + 1) * (cs.length + 1) + 4 * (cs.length + 1) ∧
      c .written ≤ 8 * digitCount z * (cs.length + 1) + 8 * (cs.length + 1) * (cs.length + 1) + 7 * (cs.length + 1) ∧ c .moved = 0 ∧ c .subtraction = 0) := by
      intro hd
      obtain ⟨c1, e1, -, u1, w1, m1, s1, d1⟩ := timesPlusS_run hk z hb hb' hd
      refine post_bind (post_of_run e1 ?_)
      refine (ih .int nn _).mono ?_
      rintro r c ⟨⟨z', h1, h2⟩, h3, h4, h5, h6⟩
      simp only [Pi.add_apply]
      generalize digitCount (z * b + ((digitValue ch).getD 0 : ℕ)) = D at *
      have x1 : D * cs.length ≤ (digitCount z + 2) * cs.length := Nat.mul_le_mul_right _ d1
      refine ⟨⟨z', h1, by omega⟩, by nlinarith, by nlinarith, by omega, by omega⟩
    rw [toIntegerLoopS]
    refine post_bind (post_tick ?_)
    refine post_bind (post_lift ?_)
    intro ev hev
    rw [getEvent_eq ch b hb'] at hev
    injection hev with hev
    have fin : ∀ {x : Steps (St × Bool × BInt)}, Post x (fun r c => (∃ z', r.2.2 = enc z' ∧ digitCount z' ≤ digitCount z + 2 * (cs.length + 1)) ∧
      1 + c .round ≤ 7 * digitCount z * (cs.length + 1) + 7 * (cs.length + 1) * (cs.length + 1) + 4 * (cs.length + 1) ∧
      c .written ≤ 8 * digitCount z * (cs.length + 1) + 8 * (cs.length + 1) * (cs.length + 1) + 7 * (cs.length + 1) ∧ c .moved = 0 ∧ c .subtraction = 0) →
      Post x (fun r c => (∃ z', r.2.2 = enc z' ∧ digitCount z' ≤ digitCount z + 2 * (ch :: cs).length) ∧
      (unit .round 1 + (0 + c)) .round ≤ 7 * digitCount z * (ch :: cs).length + 7 * (ch :: cs).length * (ch :: cs).length + 4 * (ch :: cs).length ∧
      (unit .round 1 + (0 + c)) .written ≤ 8 * digitCount z * (ch :: cs).length + 8 * (ch :: cs).length * (ch :: cs).length + 7 * (ch :: cs).length ∧
      (unit .round 1 + (0 + c)) .moved = 0 ∧ (unit .round 1 + (0 + c)) .subtraction = 0) := by
      intro x hx
      refine hx.mono ?_
      rintro r c ⟨h1, h2, h3, h4, h5⟩
      simp only [Pi.add_apply, unit_apply, reduceCtorEq, if_true, if_false, List.length_cons, zero_add]
      exact ⟨h1, h2, h3, h4, h5⟩
    have out : ∀ st' : St, Post (Steps.lift (leaveLoop s (st', nn, enc z))) (fun r c => (∃ z', r.2.2 = enc z' ∧ digitCount z' ≤ digitCount z + 2 * (cs.length + 1)) ∧
      1 + c .round ≤ 7 * digitCount z * (cs.length + 1) + 7 * (cs.length + 1) * (cs.length + 1) + 4 * (cs.length + 1) ∧
      c .written ≤ 8 * digitCount z * (cs.length + 1) + 8 * (cs.length + 1) * (cs.length + 1) + 7 * (cs.length + 1) ∧ c .moved = 0 ∧ c .subtraction = 0) := by
      intro st'
      refine post_lift ?_
      intro a ha
      unfold leaveLoop at ha
      obtain ⟨_, -, ha⟩ := Res.bind_eq_ok.mp ha
      rw [Res.pure_eq, Res.ok.injEq] at ha
      subst ha
      refine ⟨⟨z, rfl, by omega⟩, ?_, by simp, rfl, rfl⟩
      show 1 + 0 ≤ _
      nlinarith
    apply fin
    cases ev
    case digit =>
      have hd := evOf_digit.1 hev
      cases st <;> dsimp only <;> first | with_reducible exact out _ | with_reducible exact step hd
    case blank =>
      cases st <;> dsimp only <;> first | with_reducible exact out _ | with_reducible exact same _ _
    case sign =>
      cases st <;> dsimp only <;> first | with_reducible exact out _ | with_reducible exact same _ _
    all_goals cases st <;> dsimp only <;> with_reducible exact out _

/-- The whole function. -/
theorem post_toIntegerS {k : ℕ} (hk : 2 ≤ k) (s : List UInt8) {b : ℕ} (hb : 2 ≤ b) (hb' : b ≤ 36) :
    Post (toIntegerS .lenient k s b) (fun _ c => c .round ≤ 7 * s.length * s.length + 4 * s.length ∧
      c .written ≤ 8 * s.length * s.length + 9 * s.length ∧ c .moved = 0 ∧ c .subtraction = 0) := by
  unfold toIntegerS
  rw [if_neg (by omega)]
  refine post_bind (post_lift ?_)
  intro x hx
  rw [ofInt_small (by omega) (by omega)] at hx
  injection hx with hx
  subst hx
  refine post_bind ((post_toIntegerLoopS hk s hb hb' (visited s) .start true 0).mono ?_)
  rintro ⟨st, nn, x⟩ c ⟨⟨z', h1, h2⟩, h3, h4, h5, h6⟩
  have hl : (visited s).length ≤ s.length := List.length_take_le' _ _
  have d0 : digitCount 0 = 0 := by simp [digitCount]
  rw [d0] at h2 h3 h4
  have hsq : (visited s).length * (visited s).length ≤ s.length * s.length := Nat.mul_le_mul hl hl
  dsimp only at h1 ⊢
  refine post_ite (fun _ => post_lift (fun a ha => nomatch ha)) (fun _ => ?_)
  refine post_bind (post_of_run (copyS_run x) ?_)
  refine post_pure ?_
  rw [h1, enc_length]
  simp only [Pi.add_apply, Pi.zero_apply, unit_apply, reduceCtorEq, if_true, if_false]
  refine ⟨?_, ?_, by omega, by omega⟩
  · nlinarith
  · nlinarith

/-! ## A numeral of decimal digits -/

theorem digitCount_ge {z : ℤ} {n : ℕ} (h : 10 ^ n ≤ z.natAbs) : n + 1 ≤ digitCount z := by
  have := natAbs_lt_pow z
  have := (Nat.pow_lt_pow_iff_right (a := 10) (by norm_num)).1 (lt_of_le_of_lt h this)
  omega

theorem digitCount_ten {z : ℤ} (hz : 0 < z) {v : ℤ} (hv : 0 ≤ v) : digitCount z + 1 ≤ digitCount (z * 10 + v) := by
  obtain ⟨n, hn⟩ : ∃ n, digitCount z = n + 1 := by
    refine ⟨digitCount z - 1, ?_⟩
    have := digitCount_ge (z := z) (n := 0) (by simp; omega)
    omega
  have h1 : 10 ^ n ≤ z.natAbs := by
    by_contra hc
    have := digitCount_lt (z := z) (n := n) (by omega)
    omega
  rw [hn]
  apply digitCount_ge
  rw [pow_succ]; omega

/-- The loop over digits, from a positive number: the count of rounds is the square at least. -/
theorem toIntegerLoopS_digits {k : ℕ} (hk : 2 ≤ k) (s : List UInt8) (nn : Bool) : ∀ (cs : List UInt8) (z : ℤ), 0 < z → (∀ ch ∈ cs, IsDigitIn 10 ch) →
    ∃ z' c, (toIntegerLoopS .lenient k s 10 cs .int nn (enc z)).run = .ok ((.int, nn, enc z'), c) ∧
      cs.length * cs.length + 2 * digitCount z * cs.length ≤ c .round := by
  intro cs
  induction cs with
  | nil => intro z _ _; exact ⟨z, 0, rfl, by simp⟩
  | cons ch cs ih =>
    intro z hz hd
    have hd0 := hd ch (by simp)
    obtain ⟨c1, e1, l1, -⟩ := timesPlusS_run hk z (b := 10) (by omega) (by omega) hd0
    have hg := digitCount_ten hz (v := ((digitValue ch).getD 0 : ℕ)) (by omega)
    obtain ⟨z', c2, e2, l2⟩ := ih (z * (10 : ℕ) + ((digitValue ch).getD 0 : ℕ)) (by push_cast; omega) (fun x hx => hd x (by simp [hx]))
    have ev : getEvent ch 10 = .ok .digit := by
      have := getEvent_eq ch 10 (by omega)
      rw [evOf_digit.2 hd0] at this
      exact this
    refine ⟨z', unit .round 1 + (0 + (c1 + c2)), ?_, ?_⟩
    · rw [toIntegerLoopS]
      refine bind_run rfl ?_
      refine bind_run (lift_run ev) ?_
      dsimp only
      exact bind_run e1 e2
    · simp only [Pi.add_apply, unit_apply, if_true, List.length_cons, Pi.zero_apply]
      have x1 : (digitCount z + 1) * cs.length ≤ digitCount (z * (10 : ℕ) + ((digitValue ch).getD 0 : ℕ)) * cs.length := Nat.mul_le_mul_right _ hg
      generalize digitCount (z * (10 : ℕ) + ((digitValue ch).getD 0 : ℕ)) = D at *
      nlinarith

theorem toIntegerS_digits {k : ℕ} (hk : 2 ≤ k) (d : UInt8) (ds : List UInt8) (hl : (d :: ds).length ≤ maxLen) (h0 : d ≠ 48)
    (hd : ∀ ch ∈ d :: ds, IsDigitIn 10 ch) :
    ∃ z c, (toIntegerS .lenient k (d :: ds) 10).run = .ok (enc z, c) ∧ (d :: ds).length * (d :: ds).length ≤ c .round := by
  have hd0 := hd d (by simp)
  have hv : 0 < (digitValue d).getD 0 := by
    rcases Nat.eq_zero_or_pos ((digitValue d).getD 0) with e | e
    · exfalso
      obtain ⟨v, hv, -⟩ := hd0
      rw [hv, Option.getD_some] at e
      subst e
      refine h0 (UInt8.toNat_inj.1 ?_)
      rw [show (48 : UInt8).toNat = 48 from rfl]
      unfold digitValue at hv
      split at hv
      · rw [Option.some.injEq] at hv; omega
      split at hv
      · rw [Option.some.injEq] at hv; omega
      split at hv
      · rw [Option.some.injEq] at hv; omega
      · exact nomatch hv
    · exact e
  obtain ⟨c1, e1, -⟩ := timesPlusS_run hk 0 (b := 10) (by omega) (by omega) hd0
  rw [zero_mul, zero_add] at e1
  have g : 1 ≤ digitCount ((digitValue d).getD 0 : ℕ) := digitCount_ge (by simp; omega)
  obtain ⟨z, c2, e2, l2⟩ := toIntegerLoopS_digits hk (d :: ds) true ds ((digitValue d).getD 0 : ℕ) (by omega) (fun x hx => hd x (by simp [hx]))
  have ev : getEvent d 10 = .ok .digit := by
    have := getEvent_eq d 10 (by omega)
    rw [evOf_digit.2 hd0] at this
    exact this
  refine ⟨z, 0 + ((unit .round 1 + (0 + (c1 + c2))) + (unit .written (enc z).chunks.length + 0)), ?_, ?_⟩
  · unfold toIntegerS
    rw [if_neg (by omega)]
    refine bind_run (lift_run (ofInt_small (by omega) (by omega))) ?_
    rw [visited_eq hl, toIntegerLoopS]
    refine bind_run (bind_run rfl (bind_run (lift_run ev) (bind_run e1 e2))) ?_
    dsimp only
    rw [if_neg (by simp)]
    exact bind_run (copyS_run _) rfl
  · simp only [Pi.add_apply, unit_apply, if_true, List.length_cons, Pi.zero_apply, reduceCtorEq, if_false]
    have x1 : 1 * ds.length ≤ digitCount ((digitValue d).getD 0 : ℕ) * ds.length := Nat.mul_le_mul_right _ g
    nlinarith

end Str
end Pyincpp
