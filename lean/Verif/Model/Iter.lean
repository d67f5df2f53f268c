import Verif.Model.Dict
import Verif.Model.List

/-! # Iterators

An iterator of a container is a position in its sequence of elements; a reverse iterator is the position behind the element it refers
to, as in `std::reverse_iterator`. The containers are `List` (list.hpp:61-82), `Deque` (deque.hpp:63-84), `Set` (set.hpp:87-108), `Dict`
(dict.hpp:67-88) and `Str` (str.hpp:164-185). All iterators they hand out are constant. -/

namespace Pyincpp
namespace Iter

variable {α : Type}

/-- `begin()`. -/
def begin (_l : List α) : Nat := 0
/-- `end()`. -/
def «end» (l : List α) : Nat := l.length
/-- `rbegin()`. -/
def rbegin (l : List α) : Nat := l.length
/-- `rend()`. -/
def rend (_l : List α) : Nat := 0

/-- `*it`. -/
def deref (l : List α) (it : Nat) : Res α :=
  match l[it]? with
  | some x => .ok x
  | none => .ub .badDeref

/-- `++it`. -/
def next (l : List α) (it : Nat) : Res Nat := if it < l.length then .ok (it + 1) else .ub .badRange

/-- `*it` of a reverse iterator. -/
def rderef (l : List α) (it : Nat) : Res α := if it = 0 then .ub .badDeref else deref l (it - 1)

/-- `++it` of a reverse iterator. -/
def rnext (_l : List α) (it : Nat) : Res Nat := if it = 0 then .ub .badRange else .ok (it - 1)

/-- `while (it != last) { v.push_back(*it); ++it; }` -/
def walk (deref : Nat → Res α) (next : Nat → Res Nat) (last : Nat) : Nat → Nat → List α → Res (List α)
  | 0, _, _ => .fuel
  | k + 1, it, v =>
    if it = last then .ok v
    else do
      let x ← deref it
      walk deref next last k (← next it) (v ++ [x])

/-- `for (auto it = c.begin(); it != c.end(); ++it) v.push_back(*it);`, which is also the range-based `for`. -/
def forward (k : Nat) (l : List α) : Res (List α) := walk (deref l) (next l) («end» l) k (begin l) []

/-- `for (auto it = c.rbegin(); it != c.rend(); ++it) v.push_back(*it);` -/
def backward (k : Nat) (l : List α) : Res (List α) := walk (rderef l) (rnext l) (rend l) k (rbegin l) []

end Iter

namespace PDict

/-- dict.hpp:135-138 `find`, as a position; `end()` if there is no such key. -/
def find {K V : Type} (lt : K → K → Bool) (d : List (K × V)) (k : K) : Nat := (mapFind lt k d).getD (Iter.end d)

end PDict

namespace PSet

/-- set.hpp:127-130 `find`, as a position; `end()` if there is no such element. -/
def findIter {α : Type} (lt : α → α → Bool) (s : List α) (e : α) : Nat := (find lt s e).getD (Iter.end s)

/-- set.hpp:210-213 `extend` with the range of the set itself. The standard forbids it (`strict`); nothing is inserted. -/
def extendSelf {α : Type} (mem : Mem) (lt : α → α → Bool) : Meth (List α) Unit := do
  let s ← Meth.get
  match mem with
  | .strict => Meth.lift (.ub .badRange)
  | .lenient => extend lt s

end PSet

namespace PDict

/-- dict.hpp:217-220 `extend` with the range of the dictionary itself. -/
def extendSelf {K V : Type} (mem : Mem) (lt : K → K → Bool) : Meth (List (K × V)) Unit := do
  let d ← Meth.get
  match mem with
  | .strict => Meth.lift (.ub .badRange)
  | .lenient => extend lt d

end PDict

namespace Lst

/-- `vector_.insert(end(), begin(), end())` in libstdc++. With enough capacity (`room`) the elements are copied behind the old ones. Otherwise
the old ones first get to the new storage by `std::move_if_noexcept`, and what is left of them is copied. It moves if the move constructor is `noexcept`
(`nothrow`) and copies otherwise. The move constructors of `Int`, `Fraction`, `Complex` and `Str` are not (int.hpp:209, fraction.hpp:54, complex.hpp:40,
str.hpp:129), that of `List` is implicit and is. `left x` is what moving leaves of `x`. -/
def insertSelfMoved {α : Type} (nothrow : Bool) (left : α → α) (room : Bool) (l : List α) : List α :=
  if room || !nothrow then l ++ l else l ++ l.map left

end Lst
end Pyincpp
