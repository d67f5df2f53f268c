import Verif.Proof.DequeBlockRun

/-! # C120: `Deque` on the blocks of libstdc++

`Rep d xs`: the blocks between `_M_start` and `_M_finish` are allocated and different, and hold the elements `xs`. `place d i` is the block and the
place in it of element `i`, so a reference to that element. -/

namespace Pyincpp
open Blk

/-- C120: `operator+=` of the iterators goes to block and place of the sum, forwards and backwards. -/
theorem C120_iterator_add (S : Nat) (hS : 0 < S) (k o n : Int) : itAdd S k o n = (k + (n + o) / S, (n + o) % S) := itAdd_eq hS k o n

/-- C120: `operator-` is the inverse of `operator+=`. -/
theorem C120_iterator_sub (S : Nat) (hS : 0 < S) (k o n : Int) : itSub S (itAdd S k o n).1 (itAdd S k o n).2 k o = n := by
  rw [itAdd_eq hS]
  unfold itSub
  have := Int.mul_ediv_add_emod (n + o) S
  dsimp only
  generalize (n + o) / (S : Int) = q at *
  generalize (n + o) % (S : Int) = r at *
  rw [show k + q - k - 1 = q - 1 by omega, Int.mul_sub]
  omega

example : itAdd 64 3 5 (-70) = (1, 63) ∧ itAdd 64 3 5 59 = (4, 0) := by decide +kernel

section
variable {α : Type} {d : Blk α} {xs : List α} {x : α}

/-- C120: a new deque. -/
theorem C120_new (S : Nat) (hS : 0 < S) (g : Nat) : Rep (init S g : Blk α) [] := init_rep hS g

/-- C120: `size()`. -/
theorem C120_size (R : Rep d xs) : d.size = Dq.size xs := R.size_ok

/-- C120: `operator[]` reads the element. -/
theorem C120_index (R : Rep d xs) (i : Nat) (hi : i < xs.length) : (do let p ← d.stdAt i; d.read p.1 p.2) = .ok xs[i] := by
  rw [R.at_ok, Res.ok_bind]
  exact R.read_ok (List.getElem?_eq_getElem hi)

/-- C120: different elements are at different places. -/
theorem C120_places (R : Rep d xs) (i j : Nat) (hi : i < xs.length) (hj : j < xs.length) (h : place d i = place d j) : i = j := by
  by_contra hne
  unfold place at h
  simp only [Prod.mk.injEq] at h
  obtain ⟨id, h1, -⟩ := R.nodes _ (Nat.le_add_right _ _) (R.k_le hi.le)
  have := R.inj _ _ id (Nat.le_add_right _ _) (R.k_le hi.le) (Nat.le_add_right _ _) (R.k_le hj.le) h1 (by rw [← h.1]; exact h1)
  rcases div_ne (S := d.S) (show d.so + i ≠ d.so + j by omega) with h' | h'
  · omega
  · exact h' h.2

/-- C120: `push_back` appends, or throws `std::bad_alloc` and the deque is as before. Either way every reference stays valid. -/
theorem C120_push_back (R : Rep d xs) (e : α) :
    (∃ d', stdPushBack e d = (.throw "std::bad_alloc", d') ∧ Rep d' xs ∧ (∀ i < xs.length, place d' i = place d i) ∧ d.grants < 2) ∨
    ∃ d', stdPushBack e d = (.ok (), d') ∧ Rep d' (xs ++ [e]) ∧ ∀ i < xs.length, place d' i = place d i := by
  rcases R.pushBack_ok e with ⟨d', a1, a2, a3, a4, -⟩ | ⟨d', a1, a2, a3, -⟩
  · exact Or.inl ⟨d', a1, a2, a3, a4⟩
  · exact Or.inr ⟨d', a1, a2, a3⟩

/-- C120: `push_front` likewise; what was element `i` is element `i + 1`. -/
theorem C120_push_front (R : Rep d xs) (e : α) :
    (∃ d', stdPushFront e d = (.throw "std::bad_alloc", d') ∧ Rep d' xs ∧ (∀ i < xs.length, place d' i = place d i) ∧ d.grants < 2) ∨
    ∃ d', stdPushFront e d = (.ok (), d') ∧ Rep d' (e :: xs) ∧ ∀ i < xs.length, place d' (i + 1) = place d i := by
  rcases R.pushFront_ok e with ⟨d', a1, a2, a3, a4, -⟩ | ⟨d', a1, a2, a3, -⟩
  · exact Or.inl ⟨d', a1, a2, a3, a4⟩
  · exact Or.inr ⟨d', a1, a2, a3⟩

/-- C120: `pop_back` removes the last element; the references to the others stay valid. -/
theorem C120_pop_back (R : Rep d (xs ++ [x])) : d.stdBack = .ok x ∧
    ∃ d', stdPopBack d = (.ok (), d') ∧ Rep d' xs ∧ ∀ i < xs.length, place d' i = place d i := by
  obtain ⟨d', a1, a2, a3, -⟩ := R.popBack_ok
  exact ⟨R.back_ok, d', a1, a2, a3⟩

/-- C120: `pop_front` removes the first element; the references to the others stay valid. -/
theorem C120_pop_front (R : Rep d (x :: xs)) : d.stdFront = .ok x ∧
    ∃ d', stdPopFront d = (.ok (), d') ∧ Rep d' xs ∧ ∀ i < xs.length, place d' i = place d (i + 1) := by
  obtain ⟨d', a1, a2, a3, -⟩ := R.popFront_ok
  exact ⟨R.front_ok, d', a1, a2, a3⟩

/-- C120: with two requests for memory per call, every history returns and leaves what it does on a list. -/
theorem C120_history (S g : Nat) (hS : 0 < S) (ops : List (Op α)) (hg : 2 * ops.length ≤ g) :
    (run ops (init S g)).1 = (DOp.run (ops.map Op.toD) []).1 ∧ Rep (run ops (init S g)).2 (DOp.run (ops.map Op.toD) []).2 :=
  run_ok ops (init_rep hS g) hg

/-- C120: with less memory, every history is that of a list in which some calls of `push_back` and `push_front` throw and change nothing. -/
theorem C120_memory (S g : Nat) (hS : 0 < S) (ops : List (Op α)) :
    ∃ zs, Hist ops [] (run ops (init S g)).1 zs ∧ Rep (run ops (init S g)).2 zs :=
  run_hist ops (init_rep hS g)

end

/-- Blocks of two places: five elements need two more blocks. -/
example : (run [.pushBack 1, .pushBack 2, .pushBack 3, .pushFront 0, .get (-1), .popFront, .popBack, .back] (init 2 5 : Blk Nat)).1 =
    [.ok none, .ok none, .ok none, .ok none, .ok (some 3), .ok (some 0), .ok (some 3), .ok (some 2)] := by decide +kernel

/-- Without memory the second element does not find a place, and the first one is still there. -/
example : (run [.pushBack 1, .pushBack 2, .get 0] (init 1 1 : Blk Nat)).1 = [.ok none, .throw "std::bad_alloc", .ok (some 1)] := by decide +kernel

end Pyincpp
