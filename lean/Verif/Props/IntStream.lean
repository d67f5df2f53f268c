import Verif.Model.IntMethods
import Verif.Props.IntMore

/-! # Further property theorems about `Int`: streams, hash, throwing operators -/

namespace Pyincpp

/-! ## C02 / C01 on streams -/

/-- C02: `operator>>` on a stream that holds white space, a word and then white space or nothing. It takes exactly the
word; the value is the integer that the part of the word in front of its first NUL byte denotes, and if that part is not a
literal the call throws. -/
theorem C02_stream_word (ws w rest : List UInt8) (hws : ∀ c ∈ ws, IsWhite c) (hw : w ≠ [])
    (hws' : ∀ c ∈ w, ¬ IsWhite c) (hrest : ∀ c r, rest = c :: r → IsWhite c) :
    (∀ u v z, w = u ++ v → (∀ c ∈ u, c ≠ 0) → (∀ c r, v = c :: r → c = 0) → Literal u z →
      BInt.input { buf := ws ++ w ++ rest } = .ok (enc z, { buf := rest, eof := rest.isEmpty })) ∧
    (∀ u v, w = u ++ v → (∀ c ∈ u, c ≠ 0) → (∀ c r, v = c :: r → c = 0) → (¬ ∃ z, Literal u z) →
      BInt.input { buf := ws ++ w ++ rest } = .throw "Error: Wrong integer literal.") := by
  simp only [← isSpace_neg] at hws'
  simp only [← isSpace_iff] at hws hrest
  have key : ∀ u v, w = u ++ v → (∀ c ∈ u, c ≠ 0) → (∀ c r, v = c :: r → c = 0) →
      BInt.input { buf := ws ++ w ++ rest } =
        (do let x ← BInt.ofChars u; pure (x, { buf := rest, eof := rest.isEmpty })) := by
    intro u v huv hu hv
    unfold BInt.input IStream.readWord IStream.sentry IStream.good
    have e1 : (ws ++ w ++ rest).dropWhile IStream.isSpace = w ++ rest := by
      rw [List.append_assoc, dropWhile_all hws]
      match w, hw, hws' with
      | c :: t, _, hc => simp [hc c (by simp)]
    have e2 : (w ++ rest).takeWhile (fun c => !IStream.isSpace c) = w := by
      rw [takeWhile_all (fun c h => by simp [hws' c h])]
      cases hr : rest with
      | nil => simp
      | cons c r => simp [hrest c r hr]
    have e3 : (w ++ rest).dropWhile (fun c => !IStream.isSpace c) = rest := by
      rw [dropWhile_all (fun c h => by simp [hws' c h])]
      cases hr : rest with
      | nil => simp
      | cons c r => simp [hrest c r hr]
    have e4 : w.takeWhile (fun c => c != 0) = u := by
      rw [huv, takeWhile_all (fun c h => by simp [hu c h])]
      cases hr : v with
      | nil => simp
      | cons c r => simp [hv c r hr]
    have e5 : (w ++ rest).isEmpty = false := by
      match w, hw with
      | c :: t, _ => rfl
    simp only [Bool.not_false, Bool.and_self, Bool.not_true, Bool.false_eq_true, if_false, e1, e5, e2, e3, e4]
  constructor
  · intro u v z h1 h2 h3 hl
    rw [key u v h1 h2 h3, ofChars_literal hl, Res.ok_bind, Res.pure_eq]
  · intro u v h1 h2 h3 hl
    rw [key u v h1 h2 h3, ofChars_not_literal hl, Res.throw_bind]

-- the word "12\0x" in " 12\0x\n": read as 12
example : BInt.input { buf := [32, 49, 50, 0, 120, 10] } = .ok (⟨1, [2, 1]⟩, { buf := [10] }) := by decide
example : ∃ (u v : List UInt8) (z : ℤ), ([49, 50, 0, 120] : List UInt8) = u ++ v ∧ (∀ c ∈ u, c ≠ 0) ∧
    (∀ c r, v = c :: r → c = 0) ∧ Literal u z :=
  ⟨[49, 50], [0, 120], 12, rfl, by decide, by intro c r h; cases h; rfl, Literal.plain [49, 50] (by simp) (by simp [IsDigit])⟩

/-! ## C10: the hash -/

/-- C10: the hash of an `Int` is a function of its value only: the library's hash of the sign, combined with the decimal
digits from the least significant one on. -/
theorem C10_hash_value (h8 h32 : Int → BitVec 64) (z : ℤ) :
    BInt.hash h8 h32 (enc z) =
      (Nat.digits 10 z.natAbs).foldl (fun (v : BitVec 64) (d : ℕ) => v ^^^ (h32 (d : ℤ) <<< 1)) (h8 z.sign) := by
  unfold BInt.hash enc
  simp only [List.foldl_map]

/-- C10: opposite values have different hashes whenever the library separates 1 from -1. -/
theorem C10_hash_sign (h8 h32 : Int → BitVec 64) (hs : h8 1 ≠ h8 (-1)) (z : ℤ) (hz : z ≠ 0) :
    BInt.hash h8 h32 (enc z) ≠ BInt.hash h8 h32 (enc (-z)) := by
  rw [C10_hash_value, C10_hash_value, Int.natAbs_neg]
  have gen : ∀ (l : List ℕ) (a b : BitVec 64), l.foldl (fun (v : BitVec 64) (d : ℕ) => v ^^^ (h32 (d : ℤ) <<< 1)) a =
      l.foldl (fun (v : BitVec 64) (d : ℕ) => v ^^^ (h32 (d : ℤ) <<< 1)) b → a = b := by
    intro l
    induction l with
    | nil => intro a b h; exact h
    | cons d l ih =>
      intro a b h
      have := ih _ _ h
      beta_reduce at this
      calc a = (a ^^^ (h32 (d : ℤ) <<< 1)) ^^^ (h32 (d : ℤ) <<< 1) := by rw [BitVec.xor_assoc, BitVec.xor_self, BitVec.xor_zero]
        _ = (b ^^^ (h32 (d : ℤ) <<< 1)) ^^^ (h32 (d : ℤ) <<< 1) := by rw [this]
        _ = b := by rw [BitVec.xor_assoc, BitVec.xor_self, BitVec.xor_zero]
  intro h
  have := gen _ _ _ h
  rcases lt_trichotomy z 0 with h1 | h1 | h1
  · rw [Int.sign_eq_neg_one_of_neg h1, Int.sign_eq_one_of_pos (by omega)] at this; exact hs this.symm
  · exact hz h1
  · rw [Int.sign_eq_one_of_pos h1, Int.sign_eq_neg_one_of_neg (by omega)] at this; exact hs this

example : ∃ h8 : Int → BitVec 64, h8 1 ≠ h8 (-1) := ⟨fun z => BitVec.ofInt 64 z, by decide⟩

/-! ## C55 -/

/-- C55: reading an `Int` finishes on every stream, exhausted and failed ones included: it yields a canonical `Int` or
throws. -/
theorem C55_int_terminates (s : IStream) :
    (∃ z s', BInt.input s = .ok (enc z, s')) ∨ BInt.input s = .throw "Error: Wrong integer literal." := by
  have key : ∀ (w : List UInt8) (s' : IStream),
      (∃ z s'', (do let x ← BInt.ofChars (w.takeWhile (· != 0)); pure (x, s')) = Res.ok (enc z, s'')) ∨
      (do let x ← BInt.ofChars (w.takeWhile (· != 0)); pure (x, s')) = Res.throw "Error: Wrong integer literal." := by
    intro w s'
    by_cases h : ∃ z, Literal (w.takeWhile (· != 0)) z
    · obtain ⟨z, hz⟩ := h
      left
      refine ⟨z, s', ?_⟩
      rw [ofChars_literal hz, Res.ok_bind, Res.pure_eq]
    · right
      rw [ofChars_not_literal h, Res.throw_bind]
  exact key _ _

example : BInt.input { buf := [] } = .throw "Error: Wrong integer literal." := by decide

/-! ## C61 -/

theorem assignM_ok (o : IntBin) (self : Bool) (x y : ℤ) (k : ℕ) {r : BInt} (hz : ¬ ((o = .div ∨ o = .mod) ∧ y = 0))
    (h : o.runAssign .lenient k self (enc x) (enc y) = .ok r) : BInt.assignM .lenient k self o (enc y) (enc x) = (.ok (), r) := by
  have hs : y ≠ 0 → ((enc y).sign == 0) = false := by
    intro hy; simp [enc_sign, Int.sign_eq_zero_iff_zero, hy]
  cases o
  case div =>
    have hy : y ≠ 0 := fun e => hz ⟨Or.inl rfl, e⟩
    simp only [BInt.assignM, hs hy, checkZero_false]
    simp only [IntBin.runAssign] at h
    simp only [Meth.lift_ok_bind, Meth.get_bind, Meth.set_bind, h, Meth.set_run]
  case mod =>
    have hy : y ≠ 0 := fun e => hz ⟨Or.inr rfl, e⟩
    simp only [BInt.assignM, hs hy, checkZero_false]
    simp only [IntBin.runAssign] at h
    simp only [Meth.lift_ok_bind, Meth.get_bind, Meth.set_bind, h, Meth.set_run]
  all_goals
    unfold BInt.assignM
    simp only [Meth.get_bind, h, Meth.lift_ok_bind, Meth.set_run]

/-- C61: a compound assignment (`self`: both operands are the same object) throws exactly when it divides by zero, and then
leaves the object as it was; otherwise the object ends up holding the value computed by the operator. -/
theorem C61_int_assign (o : IntBin) (self : Bool) (x y : ℤ) (k : ℕ) (hk : 11 ≤ k) (hself : self = true → x = y) :
    ((∃ m, (BInt.assignM .lenient k self o (enc y) (enc x)).1 = .throw m) ↔ (o = .div ∨ o = .mod) ∧ y = 0) ∧
    ((∃ m, (BInt.assignM .lenient k self o (enc y) (enc x)).1 = .throw m) →
      (BInt.assignM .lenient k self o (enc y) (enc x)).2 = enc x) ∧
    (¬ ((o = .div ∨ o = .mod) ∧ y = 0) → ∃ z, o.runAssign .lenient k self (enc x) (enc y) = .ok (enc z) ∧
      BInt.assignM .lenient k self o (enc y) (enc x) = (.ok (), enc z)) := by
  have hzero : (o = .div ∨ o = .mod) ∧ y = 0 →
      BInt.assignM .lenient k self o (enc y) (enc x) = (.throw "Error: Divide by zero.", enc x) := by
    rintro ⟨ho, rfl⟩
    have hs : ((enc 0).sign == 0) = true := by simp [enc_zero]
    rcases ho with rfl | rfl <;>
    · simp only [BInt.assignM, hs]
      exact Meth.lift_throw_bind _ _ _
  have hok : ¬ ((o = .div ∨ o = .mod) ∧ y = 0) → ∃ z, o.runAssign .lenient k self (enc x) (enc y) = .ok (enc z) := by
    intro hz
    by_cases hs : o = .add ∧ self = true
    · obtain ⟨rfl, rfl⟩ := hs
      obtain ⟨z, hz', -⟩ := addAssign_self_settles x
      have hxy := hself rfl
      subst hxy
      exact ⟨z, hz' k hk⟩
    · have e : o.runAssign .lenient k self (enc x) (enc y) = o.run .lenient k (enc x) (enc y) := by
        by_cases ho : o = .add
        · have : self = false := by simpa [ho] using hs
          rw [this, runAssign_eq_run]
        · exact runAssign_eq_run' o ho _ _ _ _ _
      rw [e]
      cases o
      · exact ⟨_, add_enc (by omega) x y⟩
      · exact ⟨_, sub_enc (by omega) x y⟩
      · exact ⟨_, mul_enc x y⟩
      · exact ⟨_, div_enc hk x (fun h => hz ⟨Or.inl rfl, h⟩)⟩
      · exact ⟨_, mod_enc hk x (fun h => hz ⟨Or.inr rfl, h⟩)⟩
  by_cases hz : (o = .div ∨ o = .mod) ∧ y = 0
  · rw [hzero hz]
    exact ⟨⟨fun _ => hz, fun _ => ⟨_, rfl⟩⟩, fun _ => rfl, fun h => absurd hz h⟩
  · obtain ⟨z, h⟩ := hok hz
    have hm := assignM_ok o self x y k hz h
    refine ⟨⟨fun ⟨m, hm'⟩ => ?_, fun h => absurd h hz⟩, fun ⟨m, hm'⟩ => ?_, fun _ => ⟨z, h, hm⟩⟩ <;>
    · rw [hm] at hm'; cases hm'

-- -5 /= 0
example : BInt.assignM .lenient 11 false .div ⟨0, []⟩ ⟨-1, [5]⟩ = (.throw "Error: Divide by zero.", ⟨-1, [5]⟩) := by decide
example : BInt.assignM .lenient 11 false .div ⟨1, [2]⟩ ⟨-1, [5]⟩ = (.ok (), ⟨-1, [2]⟩) := by decide

/-- C61: `operator>>` that throws leaves the `Int` as it was; otherwise it holds what `BInt.input` says. -/
theorem C61_int_input (x : BInt) (s : IStream) :
    (∀ m, (BInt.inputM (x, s)).1 = .throw m → (BInt.inputM (x, s)).2.1 = x) ∧
    (∀ r, BInt.input s = .ok r → BInt.inputM (x, s) = (.ok (), r)) := by
  have e : BInt.inputM (x, s) = (match BInt.ofChars (s.readWord.1.takeWhile (· != 0)) with
      | .ok r => (.ok (), (r, s.readWord.2))
      | .throw m => (.throw m, (x, s.readWord.2))
      | .ub u => (.ub u, (x, s.readWord.2))
      | .fuel => (.fuel, (x, s.readWord.2))) := by
    unfold BInt.inputM
    simp only [Meth.get_bind, Meth.set_bind]
    cases BInt.ofChars (s.readWord.1.takeWhile (· != 0)) <;> rfl
  have e' : BInt.input s = (do let x ← BInt.ofChars (s.readWord.1.takeWhile (· != 0)); pure (x, s.readWord.2)) := rfl
  rw [e, e']
  cases BInt.ofChars (s.readWord.1.takeWhile (· != 0)) with
  | ok r =>
    refine ⟨fun m h => (by simp at h), fun r' h => ?_⟩
    rw [Res.ok_bind, Res.pure_eq] at h; rw [← Res.ok.inj h]
  | throw m => exact ⟨fun _ _ => rfl, fun r h => by simp at h⟩
  | ub u => exact ⟨fun _ _ => rfl, fun r h => by simp at h⟩
  | fuel => exact ⟨fun _ _ => rfl, fun r h => by simp at h⟩

example : (BInt.inputM (⟨1, [7]⟩, { buf := [120] })).1 = .throw "Error: Wrong integer literal." := by decide

end Pyincpp
