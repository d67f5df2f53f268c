import Verif.Model.Reference
import Verif.Model.SetIter

/-! # Iterators into a `Dict` that is changed

`begin()`, `end()` and `find()` (dict.hpp:66-75, 134-137) return iterators of a `std::map`. The nodes are those of Model/Reference.lean. `std::map` and
`std::set` are the same tree, and going from node to node looks at neither keys nor values, so `begin`, `find` and `++` are those of Model/SetIter.lean on the
keys. What the standard says is the same as well: inserting loses no iterator, erasing loses those to the erased pair. -/

namespace Pyincpp
namespace PDict

variable {K V : Type}

/-- The tree without the values. -/
def Nodes.tree (s : Nodes K V) : PSet.Nodes K := ⟨s.d.map fun p => (p.1, p.2.1), s.next⟩

/-- The pairs. -/
def Nodes.pairs (s : Nodes K V) : List (K × V) := s.d.map fun p => (p.1, p.2.2)

/-- dict.hpp:66-69 `begin`. -/
def Nodes.begin (s : Nodes K V) : PSet.It := s.tree.begin

/-- dict.hpp:134-137 `find`. -/
def Nodes.find (lt : K → K → Bool) (s : Nodes K V) (k : K) : PSet.It := s.tree.find lt k

/-- `*it`. -/
def Nodes.deref (s : Nodes K V) : PSet.It → Res (K × V)
  | .node c =>
    match s.d.find? (fun p => p.2.1 == c) with
    | some p => .ok (p.1, p.2.2)
    | none => .ub .badDeref
  | .last => .ub .badDeref

/-- `++it`. -/
def Nodes.inc (s : Nodes K V) (it : PSet.It) : Res PSet.It := s.tree.inc it

/-- The operation on the nodes; `none` for those that only look at the dictionary. -/
def change : MOp K V → Option (ROp K V)
  | .add k v => some (.add k v)
  | .remove k => some (.remove k)
  | .assign k v => some (.assign k v)
  | .pop => some .pop
  | .extend xs => some (.extend xs)
  | .clear => some .clear
  | .get _ => none
  | .getOr _ _ => none
  | .contains _ => none
  | .size => none

/-- One operation. -/
def Nodes.step (lt : K → K → Bool) (s : Nodes K V) (op : MOp K V) : Res Unit × Nodes K V :=
  match change op with
  | some o => o.step lt s
  | none => (do let _ ← (op.step lt s.pairs).1; pure (), s)

/-- Operations one after the other, exceptions caught. -/
def Nodes.run (lt : K → K → Bool) : List (MOp K V) → Nodes K V → Res (Nodes K V)
  | [], s => .ok s
  | op :: ops, s =>
    match s.step lt op with
    | (.ok _, s') => Nodes.run lt ops s'
    | (.throw _, s') => Nodes.run lt ops s'
    | (.ub u, _) => .ub u
    | (.fuel, _) => .fuel

/-- `for (auto it = d.begin(); it != d.end(); ++it) body(*it);` from `it` on, which is also the range-based `for`. `v` are the pairs
visited so far. -/
def Nodes.loop (lt : K → K → Bool) (body : K × V → List (MOp K V)) : Nat → PSet.It → Nodes K V → List (K × V) → Res (List (K × V) × Nodes K V)
  | 0, _, _, _ => .fuel
  | k + 1, it, s, v =>
    if it = .last then .ok (v, s)
    else do
      let p ← s.deref it
      let s' ← Nodes.run lt (body p) s
      Nodes.loop lt body k (← s'.inc it) s' (v ++ [p])

end PDict
end Pyincpp
