import Verif.Model.ListLoop
import Verif.Model.DequeLoop

/-! # Reverse loops over a `List` or `Deque` that is changed

`rbegin()` and `rend()` (list.hpp:72-82, deque.hpp:74-84) are `std::reverse_iterator`s of `end()` and `begin()`. A `std::reverse_iterator` holds the iterator
behind the element it refers to: `*it` is `*(base - 1)`, and `++it` is `--base`. So it is lost when that iterator is lost, which at first is the end. -/

namespace Pyincpp
namespace Lst

variable {α : Type}

/-- An iterator: the number of a place, or the end (see Model/ListLoop.lean). -/
inductive It
  | node (c : Nat)
  | last (e : List Nat × Nat)
  deriving DecidableEq, Repr

/-- list.hpp:61-64 `begin`. -/
def Vec.front (s : Vec α) : It :=
  match s.slots with
  | [] => .last s.end
  | c :: _ => .node c

/-- The place before the index `i`. -/
def Vec.before (s : Vec α) (i : Nat) : Res Nat :=
  match i with
  | 0 => .ub .badRange
  | i + 1 => vget s.slots i

/-- `--it`: the place it then refers to. -/
def Vec.dec (s : Vec α) : It → Res Nat
  | .node c => if s.slots.findIdx (· == c) < s.slots.length then s.before (s.slots.findIdx (· == c)) else .ub .badDeref
  | .last e => if s.end = e then s.before s.slots.length else .ub .badDeref

/-- `for (auto it = l.rbegin(); it != l.rend(); ++it) body(*it);` from `base` on. `v` are the elements visited so far. -/
def Vec.backLoop [BEq α] [Inhabited α] (mem : Mem) (grow : Nat → Nat → Nat) (body : α → List (VOp α)) : Nat → It → Vec α → List α → Res (List α × Vec α)
  | 0, _, _, _ => .fuel
  | k + 1, base, s, v =>
    if base = s.front then .ok (v, s)
    else do
      let x ← s.read (← s.dec base)
      let s' ← s.exec mem grow (body x)
      Vec.backLoop mem grow body k (.node (← s'.dec base)) s' (v ++ [x])

end Lst

namespace Dq

variable {α : Type}

/-- The iterator before the index `i`. -/
def Iters.before (s : Iters α) (i : Nat) : Res It :=
  match i with
  | 0 => .ub .badRange
  | i + 1 => do let p ← vget s.c.d i; .ok (.node p.1 s.age)

/-- `--it`. -/
def Iters.dec (s : Iters α) : It → Res It
  | .node c a =>
    if a = s.age ∧ s.c.d.findIdx (·.1 == c) < s.c.d.length then s.before (s.c.d.findIdx (·.1 == c)) else .ub .badDeref
  | .last a t => if s.end = .last a t then s.before s.c.d.length else .ub .badDeref

/-- `for (auto it = d.rbegin(); it != d.rend(); ++it) body(*it);` from `base` on. `v` are the elements visited so far. -/
def Iters.backLoop (body : α → List (DOp α)) : Nat → It → Iters α → List α → Res (List α × Iters α)
  | 0, _, _, _ => .fuel
  | k + 1, base, s, v =>
    if base = s.begin then .ok (v, s)
    else do
      let x ← s.deref (← s.dec base)
      let s' ← Iters.exec (body x) s
      Iters.backLoop body k (← s'.dec base) s' (v ++ [x])

end Dq
end Pyincpp
