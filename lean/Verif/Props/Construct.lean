import Verif.Model.Construct
import Verif.Props.Dict
import Verif.Props.Deque
import Verif.Props.IntBasic

/-! # C75: construction -/

namespace Pyincpp

theorem strlen_eq (s r : List UInt8) (h : (0 : UInt8) ∉ s) : strlen (s ++ 0 :: r) = .ok s.length := by
  induction s with
  | nil => rfl
  | cons c s ih =>
    rw [List.mem_cons, not_or] at h
    rw [List.cons_append, strlen, if_neg (fun e => h.1 e.symm), ih h.2]
    rfl

/-- C75: a `Str` built from a C string holds the characters before the first NUL, whatever follows it in memory. -/
theorem C75_chars (s r : List UInt8) (h : (0 : UInt8) ∉ s) : Str.ofChars (s ++ 0 :: r) = .ok s := by
  unfold Str.ofChars
  rw [strlen_eq s r h]
  change Res.ok (List.take s.length (s ++ 0 :: r)) = _
  rw [List.take_left]

/-- Memory without a NUL is read beyond its end. -/
theorem C75_chars_ub (m : List UInt8) (h : (0 : UInt8) ∉ m) : Str.ofChars m = .ub .outOfBounds := by
  have : strlen m = .ub .outOfBounds := by
    induction m with
    | nil => rfl
    | cons c m ih =>
      rw [List.mem_cons, not_or] at h
      rw [strlen, if_neg (fun e => h.1 e.symm), ih h.2]; rfl
  unfold Str.ofChars
  rw [this]; rfl

/-- C75 (partial): `Str(s.data())` is the part of `s` before the first NUL; it is `s` exactly when `s` has no NUL. -/
theorem C75_data_partial (s : List UInt8) :
    Str.ofChars (Str.data s) = .ok (s.takeWhile (· ≠ 0)) ∧ (Str.ofChars (Str.data s) = .ok s ↔ (0 : UInt8) ∉ s) := by
  have h1 : ∃ r, Str.data s = s.takeWhile (· ≠ 0) ++ 0 :: r := by
    unfold Str.data
    induction s with
    | nil => exact ⟨[], rfl⟩
    | cons c s ih =>
      obtain ⟨r, e⟩ := ih
      by_cases hc : c = 0
      · subst hc; exact ⟨s ++ [0], by simp⟩
      · exact ⟨r, by rw [List.takeWhile_cons_of_pos (by simpa using hc), List.cons_append, e, List.cons_append]⟩
  have h2 : (0 : UInt8) ∉ s.takeWhile (· ≠ 0) := by
    intro h
    have := List.mem_takeWhile_imp (p := fun c : UInt8 => decide (c ≠ 0)) h
    simp at this
  have h3 : Str.ofChars (Str.data s) = .ok (s.takeWhile (· ≠ 0)) := by
    obtain ⟨r, e⟩ := h1
    rw [e]; exact C75_chars _ r h2
  refine ⟨h3, ?_⟩
  rw [h3]
  constructor
  · intro e
    have e' : s.takeWhile (· ≠ 0) = s := by simpa using e
    rw [← e']; exact h2
  · intro h
    have : s.takeWhile (· ≠ 0) = s := List.takeWhile_eq_self_iff.2 (fun c hc => by
      simp only [decide_eq_true_eq]; rintro rfl; exact h hc)
    rw [this]

example : Str.ofChars ([104, 105] ++ 0 :: [9, 9]) = .ok [104, 105] ∧ Str.ofChars (Str.data [104, 0, 105]) = .ok [104] ∧
    Str.ofChars [104, 105] = .ub .outOfBounds := by decide

/-- C75 fails: a string with a NUL is cut. -/
theorem C75_data_not : ∃ s, Str.ofChars (Str.data s) ≠ .ok s :=
  ⟨[97, 0, 98], by decide⟩

/-- A literal holds no NUL. -/
theorem literal_no_nul {s : List UInt8} {z : ℤ} (h : Literal s z) : (0 : UInt8) ∉ s := by
  have key : ∀ ds : List UInt8, (∀ c ∈ ds, IsDigit c) → (0 : UInt8) ∉ ds := fun ds hd h0 =>
    absurd (hd 0 h0) (by decide)
  cases h with
  | plain _ _ hd => exact key _ hd
  | plus ds _ hd => rw [List.mem_cons, not_or]; exact ⟨by decide, key _ hd⟩
  | minus ds _ hd => rw [List.mem_cons, not_or]; exact ⟨by decide, key _ hd⟩

/-- C75: `Int(s.data())` is the number written in `s`, for every `s` that writes one. -/
theorem C75_int_data (s : List UInt8) (z : ℤ) (h : Literal s z) : BInt.ofPtr (Str.data s) = .ok (enc z) := by
  have h0 : (0 : UInt8) ∉ s := literal_no_nul h
  unfold BInt.ofPtr Str.data
  rw [strlen_eq s [] h0]
  change BInt.ofChars (List.take s.length (s ++ [0])) = _
  rw [List.take_left]
  exact C01_parse_literal s z h

/-- C75 fails: a string that writes no number, but does so before a NUL, is taken for a number. -/
theorem C75_int_data_not : ∃ s, (¬ ∃ z, Literal s z) ∧ BInt.ofPtr (Str.data s) = .ok (enc 7) :=
  ⟨[55, 0, 120], fun ⟨_, h⟩ => literal_no_nul h (by decide), by decide +kernel⟩

/-- C75: a `List` and a `Deque` built from elements have that many, and every index reads the element at its place. -/
theorem C75_sequence {α : Type} (xs : List α) (h : xs.length ≤ maxLen) :
    Lst.size (Lst.ofRange xs) = xs.length ∧ Dq.size (Dq.ofRange xs) = xs.length ∧
      ∀ (i : Nat) (hi : i < xs.length), Lst.get (Lst.ofRange xs) i = .ok xs[i] ∧ Dq.get (Dq.ofRange xs) i = .ok xs[i] := by
  refine ⟨Lst.size_eq h, Lst.size_eq h, fun i hi => ?_⟩
  have key : Lst.get xs i = .ok xs[i] := by
    obtain ⟨x, h1, h2⟩ := (C33_list_index xs h i).1 ⟨by omega, by omega⟩
    rw [Int.toNat_natCast, List.getElem?_eq_getElem hi, Option.some_inj] at h1
    rw [h2, h1]
  exact ⟨key, by rw [Dq.get_eq]; exact key⟩

example : Lst.get (Lst.ofRange [5, 6, 7]) 2 = .ok 7 ∧ Dq.size (Dq.ofRange [5, 6, 7]) = 3 := by decide +kernel

/-- C75 fails: the constructors take more elements than `size()` can count. -/
theorem C75_size_not {α : Type} (xs : List α) (h : xs.length = maxLen + 1) :
    Lst.size (Lst.ofRange xs) = -2147483648 ∧ Dq.size (Dq.ofRange xs) = -2147483648 := by
  simp [Lst.ofRange, Dq.ofRange, Lst.size, Dq.size, wrap32, h, maxLen]

end Pyincpp
