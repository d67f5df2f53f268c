import Verif.Model.ListProgram

/-! # References into a `List`

`list[index]` (list.hpp:90-102) returns a reference to an element of a `std::vector`. The elements live in consecutive places of a buffer. A
reference is the number of its place. What the standard says about `std::vector`: a place is lost when the buffer is replaced (more
elements than the capacity, or another buffer is moved in), and when an element at or before it is inserted or erased;
assigning, swapping and moving elements (`std::rotate`, `std::reverse`, `std::stable_sort`, `std::remove`) loses no place. Places that are lost get new
numbers; numbers are not used again. The contents change as in Model/List.lean. -/

namespace Pyincpp
namespace Lst

variable {α : Type}

/-- A vector: elements, numbers of their places, capacity, next number. -/
structure Vec (α : Type) where
  l : List α
  slots : List Nat
  cap : Nat
  next : Nat

/-- list.hpp:90-102 `operator[]`: the place. -/
def Vec.at (s : Vec α) (index : Int) : Res Nat := do
  let i ← refAt s.l index
  if 0 ≤ i then vget s.slots i.toNat else .ub .outOfBounds

/-- Reading through a reference. -/
def Vec.read (s : Vec α) (c : Nat) : Res α :=
  match s.l[s.slots.findIdx (· == c)]? with
  | some x => .ok x
  | none => .ub .badDeref

/-- Assigning through a reference. -/
def Vec.write (s : Vec α) (c : Nat) (x : α) : Res (Vec α) :=
  if s.slots.findIdx (· == c) < s.l.length then .ok { s with l := s.l.set (s.slots.findIdx (· == c)) x } else .ub .badDeref

/-- The operations: those of the histories, and the other members that change a list (`map` assigns to the elements only). -/
inductive VOp (α : Type)
  | op (o : LOp α)
  | sort (lt : α → α → Bool)
  | uniquify
  | mulAssign (times : Int)
  | filter (p : α → Bool)

/-- The operation on the elements. -/
def VOp.on [BEq α] [Inhabited α] (mem : Mem) : VOp α → Meth (List α) Unit
  | .op o => do let _ ← o.step mem
  | .sort lt => Lst.sort lt
  | .uniquify => Lst.uniquify
  | .mulAssign n => Lst.mulAssign n
  | .filter p => Lst.filter mem p

/-- The place an index refers to (after the checks). -/
def place (n : Nat) (index : Int) : Nat := (if 0 ≤ index then index else index + n).toNat

/-- How many places, from the first on, are not lost when the operation changes `l` into `l'`. -/
def VOp.stay [BEq α] (cap : Nat) (l l' : List α) : VOp α → Nat
  | .op (.insert i _) => if l.length < cap then place l.length i else 0
  | .op (.remove i) => place l.length i
  | .op (.append _) => if l.length < cap then l.length else 0
  | .op (.extendList m) => if l.length + m.length ≤ cap then l.length else 0
  | .op (.extend m) => if l.length + m.length ≤ cap then l.length else 0
  | .op .addSelf => if l.length + l.length ≤ cap then l.length else 0
  | .op (.removeFirst e) => l.findIdx (fun x => x == e)
  | .op (.removeAll _) => l'.length
  | .op (.rotL _) => l.length
  | .op (.rotR _) => l.length
  | .op .reverse => l.length
  | .op (.erase a b) => if a = b then l.length else a.toNat
  | .op (.assign _ _) => l.length
  | .op .clear => 0
  | .sort _ => l.length
  | .uniquify => 0
  | .mulAssign _ => 0
  | .filter _ => l'.length

/-- Whether another buffer is moved in. -/
def VOp.replaces : VOp α → Bool
  | .uniquify => true
  | .mulAssign _ => true
  | _ => false

/-- The vector after an operation. `grow c n` is the capacity a vector of capacity `c` gets when it has to hold `n` elements. -/
def Vec.after [BEq α] (grow : Nat → Nat → Nat) (s : Vec α) (o : VOp α) (l' : List α) : Vec α :=
  let k := min (o.stay s.cap s.l l') l'.length
  let n := l'.length - (s.slots.take k).length
  { l := l', slots := s.slots.take k ++ List.range' s.next n,
    cap := if o.replaces then grow 0 l'.length else if l'.length ≤ s.cap then s.cap else grow s.cap l'.length,
    next := s.next + n }

/-- One operation; if it throws, no place is lost. -/
def VOp.step [BEq α] [Inhabited α] (mem : Mem) (grow : Nat → Nat → Nat) (o : VOp α) (s : Vec α) : Res Unit × Vec α :=
  match o.on mem s.l with
  | (.ok _, l') => (.ok (), s.after grow o l')
  | (.throw m, l') => (.throw m, { s with l := l' })
  | (.ub u, l') => (.ub u, { s with l := l' })
  | (.fuel, l') => (.fuel, { s with l := l' })

/-- Operations one after the other, exceptions caught; `none` if one of them is undefined. -/
def VOp.run [BEq α] [Inhabited α] (mem : Mem) (grow : Nat → Nat → Nat) : List (VOp α) → Vec α → Option (Vec α)
  | [], s => some s
  | o :: ops, s =>
    match o.step mem grow s with
    | (.ok _, s') => VOp.run mem grow ops s'
    | (.throw _, s') => VOp.run mem grow ops s'
    | _ => none

end Lst
end Pyincpp
