import Verif.Model.Dict

/-! # Iterators into a `Set` that is changed

`begin()`, `end()` and `find()` (set.hpp:87-96, 127-130) return iterators of a `std::set`. Its elements live in nodes that stay where they are until
they are erased; an iterator is the number of a node, or the end. Nodes are numbered when they are made, and numbers are not used
again. What the standard says: inserting loses no iterator, erasing loses those to the erased element. `&=`, `|=`, `-=` and `^=`
(set.hpp:182-206) move in another set, whose nodes are new. The elements change as in Model/Set.lean. -/

namespace Pyincpp
namespace PSet

variable {α : Type}

/-- A set with numbered nodes, and the next number. -/
structure Nodes (α : Type) where
  s : List (α × Nat)
  next : Nat
  deriving DecidableEq

/-- An iterator. -/
inductive It
  | node (c : Nat)
  | last
  deriving DecidableEq, Repr

/-- The first node of a range, or its end. -/
def It.first : List (α × Nat) → It
  | [] => .last
  | p :: _ => .node p.2

/-- set.hpp:87-90 `begin`. -/
def Nodes.begin (s : Nodes α) : It := It.first s.s

/-- set.hpp:127-130 `find`. -/
def Nodes.find (lt : α → α → Bool) (s : Nodes α) (e : α) : It :=
  match Tree.find (PDict.keyLt lt) (e, 0) s.s with
  | some i => It.first (s.s.drop i)
  | none => .last

/-- `*it`. -/
def Nodes.deref (s : Nodes α) : It → Res α
  | .node c =>
    match s.s.find? (fun p => p.2 == c) with
    | some p => .ok p.1
    | none => .ub .badDeref
  | .last => .ub .badDeref

/-- The iterator behind the node `c`. -/
def It.behind (c : Nat) : List (α × Nat) → Res It
  | [] => .ub .badDeref
  | p :: ps => if p.2 == c then .ok (It.first ps) else It.behind c ps

/-- `++it`. -/
def Nodes.inc (s : Nodes α) : It → Res It
  | .node c => It.behind c s.s
  | .last => .ub .badRange

/-- The operation on the nodes; `none` for those that move in another set. -/
def tag (n : Nat) : SOp α → Option (SOp (α × Nat))
  | .add e => some (.add (e, n))
  | .remove e => some (.remove (e, n))
  | .pop => some .pop
  | .min => some .min
  | .max => some .max
  | .contains e => some (.contains (e, n))
  | .size => some .size
  | .extend xs => some (.extend (xs.zipIdx n))
  | .clear => some .clear
  | .inter _ => none
  | .union _ => none
  | .diff _ => none
  | .symDiff _ => none

/-- How many numbers an operation on the nodes uses up. -/
def uses : SOp α → Nat
  | .add _ => 1
  | .extend xs => xs.length
  | _ => 0

/-- One operation. -/
def Nodes.step (lt : α → α → Bool) (s : Nodes α) (op : SOp α) : Res Unit × Nodes α :=
  match tag s.next op with
  | some o =>
    let r := o.step (PDict.keyLt lt) s.s
    (do let _ ← r.1; pure (), ⟨r.2, s.next + uses op⟩)
  | none =>
    let r := op.step lt (s.s.map Prod.fst)
    (do let _ ← r.1; pure (), ⟨r.2.zipIdx s.next, s.next + r.2.length⟩)

/-- Operations one after the other, exceptions caught. -/
def Nodes.run (lt : α → α → Bool) : List (SOp α) → Nodes α → Res (Nodes α)
  | [], s => .ok s
  | op :: ops, s =>
    match s.step lt op with
    | (.ok _, s') => Nodes.run lt ops s'
    | (.throw _, s') => Nodes.run lt ops s'
    | (.ub u, _) => .ub u
    | (.fuel, _) => .fuel

/-- `for (auto it = s.begin(); it != s.end(); ++it) body(*it);` from `it` on, which is also the range-based `for`. `v` are the elements
visited so far. -/
def Nodes.loop (lt : α → α → Bool) (body : α → List (SOp α)) : Nat → It → Nodes α → List α → Res (List α × Nodes α)
  | 0, _, _, _ => .fuel
  | k + 1, it, s, v =>
    if it = .last then .ok (v, s)
    else do
      let x ← s.deref it
      let s' ← Nodes.run lt (body x) s
      Nodes.loop lt body k (← s'.inc it) s' (v ++ [x])

end PSet
end Pyincpp
