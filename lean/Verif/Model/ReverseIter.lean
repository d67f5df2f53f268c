import Verif.Model.DictIter

/-! # Reverse iterators into a `Set` or `Dict` that is changed

`rbegin()` and `rend()` (set.hpp:99-108, dict.hpp:78-87) are `std::reverse_iterator`s of `end()` and `begin()`. A `std::reverse_iterator` holds the iterator
behind the element it refers to, its base: `*rit` is `*std::prev(base)` and `++rit` is `--base`. Here a reverse iterator is its base. -/

namespace Pyincpp
namespace PSet

variable {α : Type}

/-- The last node; there is nothing before the end of an empty set. -/
def It.final : List (α × Nat) → Res It
  | [] => .ub .badRange
  | [p] => .ok (.node p.2)
  | _ :: p :: ps => It.final (p :: ps)

/-- The node before the node `c`, in a range that follows the node `p`. -/
def It.beforeIn (c : Nat) (p : α × Nat) : List (α × Nat) → Res It
  | [] => .ub .badDeref
  | q :: qs => if q.2 == c then .ok (.node p.2) else It.beforeIn c q qs

/-- The node before the node `c`; there is nothing before the first one. -/
def It.before (c : Nat) : List (α × Nat) → Res It
  | [] => .ub .badDeref
  | p :: ps => if p.2 == c then .ub .badRange else It.beforeIn c p ps

/-- `--it`. -/
def Nodes.dec (s : Nodes α) : It → Res It
  | .node c => It.before c s.s
  | .last => It.final s.s

/-- `*rit`. -/
def Nodes.derefBack (s : Nodes α) (base : It) : Res α := do
  let it ← s.dec base
  s.deref it

/-- `for (auto it = s.rbegin(); it != s.rend(); ++it) body(*it);` from `base` on. `v` are the elements visited so far. -/
def Nodes.loopBack (lt : α → α → Bool) (body : α → List (SOp α)) : Nat → It → Nodes α → List α → Res (List α × Nodes α)
  | 0, _, _, _ => .fuel
  | k + 1, base, s, v =>
    if base = s.begin then .ok (v, s)
    else do
      let x ← s.derefBack base
      let s' ← Nodes.run lt (body x) s
      Nodes.loopBack lt body k (← s'.dec base) s' (v ++ [x])

end PSet

namespace PDict

variable {K V : Type}

/-- `--it`. -/
def Nodes.dec (s : Nodes K V) (it : PSet.It) : Res PSet.It := s.tree.dec it

/-- `*rit`. -/
def Nodes.derefBack (s : Nodes K V) (base : PSet.It) : Res (K × V) := do
  let it ← s.dec base
  s.deref it

/-- `for (auto it = d.rbegin(); it != d.rend(); ++it) body(*it);` from `base` on. `v` are the pairs visited so far. -/
def Nodes.loopBack (lt : K → K → Bool) (body : K × V → List (MOp K V)) : Nat → PSet.It → Nodes K V → List (K × V) → Res (List (K × V) × Nodes K V)
  | 0, _, _, _ => .fuel
  | k + 1, base, s, v =>
    if base = s.begin then .ok (v, s)
    else do
      let p ← s.derefBack base
      let s' ← Nodes.run lt (body p) s
      Nodes.loopBack lt body k (← s'.dec base) s' (v ++ [p])

end PDict
end Pyincpp
