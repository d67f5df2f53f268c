import Verif.Model.Deque

/-! # References into a `Deque`

`front()`, `back()` and `deque[index]` (deque.hpp:91-130) return references. In a `std::deque` inserting and erasing at the ends leaves
the other elements where they are. Every element has a numbered place, numbers are not used again, and a reference is the
number of a place. `std::rotate` and `std::reverse` assign and swap values; the places stay. -/

namespace Pyincpp
namespace Dq

variable {α : Type}

/-- Places with their values, and the next number. -/
structure Cells (α : Type) where
  d : List (Nat × α)
  next : Nat

/-- The place an index refers to: deque.hpp:119-124 `operator[]`. -/
def Cells.at (s : Cells α) (index : Int) : Res Nat := do
  let p ← get s.d index
  pure p.1

/-- deque.hpp:91-96 `back`, as a reference. -/
def Cells.backRef (s : Cells α) : Res Nat := do
  let p ← back s.d
  pure p.1

/-- deque.hpp:105-110 `front`, as a reference. -/
def Cells.frontRef (s : Cells α) : Res Nat := do
  let p ← front s.d
  pure p.1

/-- Reading through a reference. -/
def Cells.read (s : Cells α) (c : Nat) : Res α :=
  match s.d.find? (fun p => p.1 == c) with
  | some p => .ok p.2
  | none => .ub .badDeref

/-- Places for the elements of a range. -/
def number (n : Nat) : List α → List (Nat × α)
  | [] => []
  | x :: xs => (n, x) :: number (n + 1) xs

/-- The operation on the places; `none` for those that rearrange values. -/
def tag (s : Cells α) : DOp α → Option (Res (DOp (Nat × α)))
  | .pushBack e => some (.ok (.pushBack (s.next, e)))
  | .pushFront e => some (.ok (.pushFront (s.next, e)))
  | .popBack => some (.ok .popBack)
  | .popFront => some (.ok .popFront)
  | .back => some (.ok .back)
  | .front => some (.ok .front)
  | .get i => some (.ok (.get i))
  | .assign i e => some (do let c ← s.at i; pure (.assign i (c, e)))
  | .extendBack m => some (.ok (.extendBack (number s.next m)))
  | .extendFront m => some (.ok (.extendFront (number s.next m)))
  | .clear => some (.ok .clear)
  | .rotL _ => none
  | .rotR _ => none
  | .reverse => none

/-- How many numbers an operation uses up. -/
def uses : DOp α → Nat
  | .pushBack _ => 1
  | .pushFront _ => 1
  | .extendBack m => m.length
  | .extendFront m => m.length
  | _ => 0

/-- One operation. -/
def Cells.step (s : Cells α) (op : DOp α) : Res Unit × Cells α :=
  match tag s op with
  | some (.ok o) =>
    match o.step s.d with
    | (.ok _, d) => (.ok (), ⟨d, s.next + uses op⟩)
    | (.throw m, d) => (.throw m, ⟨d, s.next + uses op⟩)
    | (.ub u, d) => (.ub u, ⟨d, s.next + uses op⟩)
    | (.fuel, d) => (.fuel, ⟨d, s.next + uses op⟩)
  | some (.throw m) => (.throw m, s)
  | some (.ub u) => (.ub u, s)
  | some .fuel => (.fuel, s)
  | none =>
    match op.step (s.d.map Prod.snd) with
    | (.ok _, l) => (.ok (), ⟨(s.d.map Prod.fst).zip l, s.next⟩)
    | (.throw m, l) => (.throw m, ⟨(s.d.map Prod.fst).zip l, s.next⟩)
    | (.ub u, l) => (.ub u, ⟨(s.d.map Prod.fst).zip l, s.next⟩)
    | (.fuel, l) => (.fuel, ⟨(s.d.map Prod.fst).zip l, s.next⟩)

/-- Operations one after the other, exceptions caught; `none` if one of them is undefined. -/
def Cells.run : List (DOp α) → Cells α → Option (Cells α)
  | [], s => some s
  | op :: ops, s =>
    match s.step op with
    | (.ok _, s') => Cells.run ops s'
    | (.throw _, s') => Cells.run ops s'
    | _ => none

end Dq
end Pyincpp
