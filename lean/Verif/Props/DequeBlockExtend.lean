import Verif.Proof.DequeBlockExtendFront

/-! # C121: `extend_back` and `extend_front` of `Deque` on the blocks of libstdc++

`Rep` and `place` are as in C120. -/

namespace Pyincpp
open Blk
variable {α : Type} {d : Blk α} {xs : List α}

/-- C121: `extend_back` appends the elements of the range, or throws `std::bad_alloc` and the deque is as before. Either way every reference stays valid. -/
theorem C121_extend_back (R : Rep d xs) (ys : List α) :
    (∃ d', stdExtendBack ys d = (.throw "std::bad_alloc", d') ∧ Rep d' xs ∧ ∀ i < xs.length, place d' i = place d i) ∨
    ∃ d', stdExtendBack ys d = (.ok (), d') ∧ Rep d' (xs ++ ys) ∧ ∀ i < xs.length, place d' i = place d i := by
  rcases stdExtendBack_ok R ys with ⟨d', a1, a2, a3, -⟩ | ⟨d', a1, a2, a3, -⟩
  · exact Or.inl ⟨d', a1, a2, a3⟩
  · exact Or.inr ⟨d', a1, a2, a3⟩

/-- C121: `extend_front` puts the elements of the range before the others, in the order of the range, or throws `std::bad_alloc` and the deque is as before.
Either way every reference stays valid. -/
theorem C121_extend_front (R : Rep d xs) (ys : List α) :
    (∃ d', stdExtendFront ys d = (.throw "std::bad_alloc", d') ∧ Rep d' xs ∧ ∀ i < xs.length, place d' i = place d i) ∨
    ∃ d', stdExtendFront ys d = (.ok (), d') ∧ Rep d' (ys ++ xs) ∧ ∀ i < xs.length, place d' (ys.length + i) = place d i := by
  rcases extendFront_ok R ys with ⟨d', a1, a2, a3, -⟩ | ⟨d', a1, a2, a3, -⟩
  · exact Or.inl ⟨d', a1, a2, a3⟩
  · exact Or.inr ⟨d', a1, a2, a3⟩

/-- C121: `extend_back` by `n` elements asks for memory at most `n / S + 2` times, and with that much it does not throw. -/
theorem C121_requests_back (R : Rep d xs) (ys : List α) (hg : ys.length / d.S + 2 ≤ d.grants) :
    (stdExtendBack ys d).1 = .ok () ∧ d.grants ≤ (stdExtendBack ys d).2.grants + (ys.length / d.S + 2) := by
  rcases stdExtendBack_ok R ys with ⟨d', -, -, -, a4, -⟩ | ⟨d', a1, -, -, a4⟩
  · omega
  · rw [a1]
    exact ⟨rfl, a4⟩

/-- C121: likewise `extend_front`. -/
theorem C121_requests_front (R : Rep d xs) (ys : List α) (hg : ys.length / d.S + 2 ≤ d.grants) :
    (stdExtendFront ys d).1 = .ok () ∧ d.grants ≤ (stdExtendFront ys d).2.grants + (ys.length / d.S + 2) := by
  have hp := R.pos
  have hc := count_le (n := ys.length) hp (show ys.length - d.so + d.S - 1 ≤ _ by omega)
  rcases extendFront_ok R ys with ⟨d', -, -, -, a4, -⟩ | ⟨d', a1, -, -, a4⟩
  · omega
  · rw [stdExtendFront, a1]
    exact ⟨rfl, le_trans a4 (Nat.add_le_add_left hc _)⟩

/-- C121: when `extend_back` throws, no block is lost: each one that is allocated was so before. -/
theorem C121_no_leak_back (R : Rep d xs) (ys : List α) (h : (stdExtendBack ys d).1 ≠ .ok ()) (id : Nat)
    (hl : (stdExtendBack ys d).2.live id = true) : d.live id = true := by
  rcases stdExtendBack_ok R ys with ⟨d', a1, -, -, -, a5⟩ | ⟨d', a1, -⟩
  · rw [a1] at hl
    exact a5 id hl
  · rw [a1] at h
    exact absurd rfl h

/-- C121: likewise `extend_front`. -/
theorem C121_no_leak_front (R : Rep d xs) (ys : List α) (h : (stdExtendFront ys d).1 ≠ .ok ()) (id : Nat)
    (hl : (stdExtendFront ys d).2.live id = true) : d.live id = true := by
  rw [stdExtendFront] at h hl
  rcases extendFront_ok R ys with ⟨d', a1, -, -, -, a5⟩ | ⟨d', a1, -⟩
  · rw [a1] at hl
    exact a5 id hl
  · rw [a1] at h
    exact absurd rfl h

/-- Blocks of two places: the range goes over three more of them. -/
example : (let d := (stdExtendBack [2, 3, 4, 5, 6] (run [.pushBack 1] (init 2 5 : Blk Nat)).2)
    (d.1, (run [.get 0, .get 1, .get 4, .get 5, .back] d.2).1)) =
    (.ok (), [.ok (some 1), .ok (some 2), .ok (some 5), .ok (some 6), .ok (some 6)]) := by decide +kernel

/-- The same at the front. -/
example : (let d := (stdExtendFront [2, 3, 4, 5, 6] (run [.pushBack 1] (init 2 5 : Blk Nat)).2)
    (d.1, (run [.get 0, .get 1, .get 4, .get 5, .front] d.2).1)) =
    (.ok (), [.ok (some 2), .ok (some 3), .ok (some 6), .ok (some 1), .ok (some 2)]) := by decide +kernel

/-- Memory for the first two of these blocks only: they are given back, and the element is still there. -/
example : (let d := (stdExtendBack [2, 3, 4, 5, 6, 7] (run [.pushBack 1] (init 2 2 : Blk Nat)).2)
    (d.1, (run [.get 0, .back] d.2).1, (List.range 4).map d.2.live)) =
    (.throw "std::bad_alloc", [.ok (some 1), .ok (some 1)], [true, false, false, false]) := by decide +kernel

/-- The hypotheses of the theorems hold of a deque of one element. -/
example : Rep (run [.pushBack 1] (init 2 5 : Blk Nat)).2 [1] := (run_ok [.pushBack 1] (init_rep (by decide) 5) (by decide)).2

end Pyincpp
