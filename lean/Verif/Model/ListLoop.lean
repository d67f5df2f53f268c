import Verif.Model.ListRef

/-! # Loops over a `List` that is changed

`begin()` and `end()` (list.hpp:61-70) return iterators of the `std::vector`. An iterator to an element is the number of its place (Model/ListRef.lean).
The end is lost as soon as a place is lost or added: it is kept as the numbers of all places together with the next number.
Using an iterator that is lost is undefined. In the bodies exceptions are caught; a body that is itself undefined ends the loop with
`outOfBounds`, whatever it was. -/

namespace Pyincpp
namespace Lst

variable {α : Type}

/-- list.hpp:61-64 `begin`; `none` is the end. -/
def Vec.begin (s : Vec α) : Option Nat := s.slots[0]?

/-- list.hpp:67-70 `end`. -/
def Vec.end (s : Vec α) : List Nat × Nat := (s.slots, s.next)

/-- `++it`. -/
def Vec.inc (s : Vec α) (c : Nat) : Res (Option Nat) :=
  if s.slots.findIdx (· == c) < s.slots.length then .ok s.slots[s.slots.findIdx (· == c) + 1]? else .ub .badDeref

/-- The body of a loop. -/
def Vec.exec [BEq α] [Inhabited α] (mem : Mem) (grow : Nat → Nat → Nat) (ops : List (VOp α)) (s : Vec α) : Res (Vec α) :=
  match VOp.run mem grow ops s with
  | some s' => .ok s'
  | none => .ub .outOfBounds

/-- `for (int i = 0; i < l.size(); i++) body(l[i]);` from `i` on. `v` are the elements visited so far. -/
def Vec.indexLoop [BEq α] [Inhabited α] (mem : Mem) (grow : Nat → Nat → Nat) (body : α → List (VOp α)) : Nat → Int → Vec α → List α → Res (List α × Vec α)
  | 0, _, _, _ => .fuel
  | k + 1, i, s, v =>
    if i < size s.l then do
      let x ← s.read (← s.at i)
      let s' ← s.exec mem grow (body x)
      Vec.indexLoop mem grow body k (← iadd i 1) s' (v ++ [x])
    else .ok (v, s)

/-- `for (auto it = l.begin(); it != l.end(); ++it) body(*it);` from `it` on. -/
def Vec.iterLoop [BEq α] [Inhabited α] (mem : Mem) (grow : Nat → Nat → Nat) (body : α → List (VOp α)) : Nat → Option Nat → Vec α → List α → Res (List α × Vec α)
  | 0, _, _, _ => .fuel
  | _ + 1, none, s, v => .ok (v, s)
  | k + 1, some c, s, v => do
    let x ← s.read c
    let s' ← s.exec mem grow (body x)
    Vec.iterLoop mem grow body k (← s'.inc c) s' (v ++ [x])

/-- `for (const auto& x : l) body(x);`: the same with `last`, the end at the beginning of the loop. -/
def Vec.rangeLoop [BEq α] [Inhabited α] (mem : Mem) (grow : Nat → Nat → Nat) (body : α → List (VOp α)) (last : List Nat × Nat) :
    Nat → Option Nat → Vec α → List α → Res (List α × Vec α)
  | 0, _, _, _ => .fuel
  | k + 1, it, s, v =>
    if s.end ≠ last then .ub .badDeref
    else match it with
      | none => .ok (v, s)
      | some c => do
        let x ← s.read c
        let s' ← s.exec mem grow (body x)
        Vec.rangeLoop mem grow body last k (← s'.inc c) s' (v ++ [x])

end Lst
end Pyincpp
