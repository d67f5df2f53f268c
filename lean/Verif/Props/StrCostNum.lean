import Verif.Proof.StrCostNum

/-! # C115: what reading an integer from a string costs

A step is one round of a loop over characters or digits (`round`), or a digit that is written (`written`), as in C100. -/

namespace Pyincpp
open Steps

/-- The counted function is that of Model/Str.lean. -/
theorem C115_same_integer (mem : Mem) (k : ℕ) (s : List UInt8) (base : ℤ) :
    forget (Str.toIntegerS mem k s base) = Str.toInteger mem k s base := Str.forget_toIntegerS mem k s base

example : forget (Str.toIntegerS .lenient 3 [52, 50] 10) = .ok (enc 42) := by
  rw [C115_same_integer]; decide +kernel

/-- **C115** `to_integer` takes at most a multiple of the square of the length, for every string that it accepts. -/
theorem C115_to_integer_partial {k : ℕ} (hk : 2 ≤ k) (s : List UInt8) {b : ℕ} (hb : 2 ≤ b) (hb' : b ≤ 36) (x : BInt) (c : Count)
    (h : (Str.toIntegerS .lenient k s b).run = .ok (x, c)) :
    c .round ≤ 7 * s.length * s.length + 4 * s.length ∧ c .written ≤ 8 * s.length * s.length + 9 * s.length ∧ c .moved = 0 ∧ c .subtraction = 0 :=
  Str.post_toIntegerS hk s hb hb' x c h

/-- **C115** A decimal numeral without leading zeros takes the square of its length at least. -/
theorem C115_to_integer_square {k : ℕ} (hk : 2 ≤ k) (d : UInt8) (ds : List UInt8) (hl : (d :: ds).length ≤ maxLen) (h0 : d ≠ 48)
    (hd : ∀ ch ∈ d :: ds, IsDigitIn 10 ch) :
    ∃ x c, (Str.toIntegerS .lenient k (d :: ds) 10).run = .ok (x, c) ∧ (d :: ds).length * (d :: ds).length ≤ c .round ∧
      c .round ≤ 11 * ((d :: ds).length * (d :: ds).length) := by
  obtain ⟨z, c, e, l⟩ := Str.toIntegerS_digits hk d ds hl h0 hd
  refine ⟨enc z, c, e, l, ?_⟩
  have h := (C115_to_integer_partial hk (d :: ds) (b := 10) (by omega) (by omega) _ c e).1
  have : 1 ≤ (d :: ds).length := by simp
  nlinarith

/-- "1999" meets the hypotheses. -/
example : ∃ x c, (Str.toIntegerS .lenient 2 [49, 57, 57, 57] 10).run = .ok (x, c) ∧ 16 ≤ c .round ∧ c .round ≤ 176 :=
  C115_to_integer_square le_rfl 49 [57, 57, 57] (by decide) (by decide) (by
    intro ch hc
    simp only [List.mem_cons, List.not_mem_nil, or_false] at hc
    rcases hc with rfl | rfl | rfl | rfl
    · exact ⟨1, by decide, by decide⟩
    all_goals exact ⟨9, by decide, by decide⟩)

/-- **C115** The cost is not proportional to the length. -/
theorem C115_to_integer_not (C : ℕ) (hC : C ≤ 2000000000) : ∃ (s : List UInt8) (x : BInt) (c : Count),
    (Str.toIntegerS .lenient 2 s 10).run = .ok (x, c) ∧ C * s.length < c .round ∧ s.length ≤ maxLen := by
  have hl : (57 :: List.replicate C (57 : UInt8)).length ≤ maxLen := by
    rw [List.length_cons, List.length_replicate]; unfold maxLen; omega
  obtain ⟨x, c, e, l, -⟩ := C115_to_integer_square le_rfl 57 (List.replicate C 57) hl (by decide) (by
    intro ch hc
    rw [← List.replicate_succ] at hc
    rw [(List.mem_replicate.1 hc).2]
    exact ⟨9, by decide, by decide⟩)
  refine ⟨_, x, c, e, ?_, hl⟩
  rw [List.length_cons, List.length_replicate] at l ⊢
  nlinarith

end Pyincpp
