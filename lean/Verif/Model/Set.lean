import Verif.Model.Tree
import Verif.Model.Utility

/-! # sources/set.hpp

`Set<T>`: a `std::set<T>`, here the list of its elements in iteration order (class name `PSet`). `lt` is `std::less<T>`. -/

namespace Pyincpp
namespace PSet

variable {α : Type} (lt : α → α → Bool)

/-- set.hpp:33-43 the constructors from a list and a range; the one from a `std::set` (45-49) copies. -/
def ofRange (xs : List α) : List α := Tree.insertAll lt xs []

/-- set.hpp:115-118 `int size() const { return set_.size(); }`. -/
def size (s : List α) : Int := wrap32 s.length

/-- set.hpp:121-124 `is_empty`. -/
def isEmpty (s : List α) : Bool := s.isEmpty

/-- set.hpp:56 `operator==`, defaulted: `std::set` compares the sizes and the elements in order with `==`. -/
def eq [BEq α] (s t : List α) : Bool := s == t

/-- set.hpp:65-68 `operator<=`. -/
def le (s t : List α) : Bool := Tree.includes lt t s

/-- set.hpp:59-62 `operator<`. -/
def lss (s t : List α) : Bool := size s != size t && le lt s t

/-- set.hpp:71-74 `operator>`. -/
def gtr (s t : List α) : Bool := lss lt t s

/-- set.hpp:77-80 `operator>=`. -/
def ge (s t : List α) : Bool := le lt t s

/-- set.hpp:127-130 `find`. -/
def find (s : List α) (e : α) : Option Nat := Tree.find lt e s

/-- set.hpp:133-136 `contains`. -/
def contains (s : List α) (e : α) : Bool := find lt s e != none

/-- `*cbegin()`, `*begin()`, undefined for an empty set. -/
def stdBegin (s : List α) : Res α := if s.length = 0 then .ub .badDeref else vget s 0

/-- `*crbegin()`. -/
def stdRbegin (s : List α) : Res α := if s.length = 0 then .ub .badDeref else vget s (s.length - 1)

/-- set.hpp:139-144 `min`. -/
def min (s : List α) : Res α := do
  checkEmpty (size s)
  stdBegin s

/-- set.hpp:147-152 `max`. -/
def max (s : List α) : Res α := do
  checkEmpty (size s)
  stdRbegin s

/-- set.hpp:159-164 `add`. -/
def add (e : α) : Meth (List α) Bool := do
  let s ← Meth.get
  Meth.lift (checkFull (size s) INT_MAX)
  let r := Tree.insert lt e s
  Meth.set r.1
  pure r.2

/-- set.hpp:167-170 `remove`. -/
def remove (e : α) : Meth (List α) Bool := do
  let s ← Meth.get
  let r := Tree.erase lt e s
  Meth.set r.1
  pure (r.2 == 1)

/-- set.hpp:173-178 `pop`: `extract(begin())`, undefined for an empty set. -/
def pop : Meth (List α) α := do
  let s ← Meth.get
  Meth.lift (checkEmpty (size s))
  let x ← Meth.lift (stdBegin s)
  Meth.set (s.drop 1)
  pure x

/-- set.hpp:227-232 `operator&`. -/
def inter (s t : List α) : List α := Tree.insertAll lt (Tree.setIntersection lt s t) []
/-- set.hpp:236-241 `operator|`. -/
def union (s t : List α) : List α := Tree.insertAll lt (Tree.setUnion lt s t) []
/-- set.hpp:245-250 `operator-`. -/
def diff (s t : List α) : List α := Tree.insertAll lt (Tree.setDifference lt s t) []
/-- set.hpp:254-259 `operator^`. -/
def symDiff (s t : List α) : List α := Tree.insertAll lt (Tree.setSymmetricDifference lt s t) []

/-- set.hpp:182-185 `operator&=`; `none` is the set itself. -/
def interAssign (t : Option (List α)) : Meth (List α) Unit := do
  let s ← Meth.get
  Meth.set (inter lt s (t.getD s))
/-- set.hpp:189-192 `operator|=`. -/
def unionAssign (t : Option (List α)) : Meth (List α) Unit := do
  let s ← Meth.get
  Meth.set (union lt s (t.getD s))
/-- set.hpp:196-199 `operator-=`. -/
def diffAssign (t : Option (List α)) : Meth (List α) Unit := do
  let s ← Meth.get
  Meth.set (diff lt s (t.getD s))
/-- set.hpp:203-206 `operator^=`. -/
def symDiffAssign (t : Option (List α)) : Meth (List α) Unit := do
  let s ← Meth.get
  Meth.set (symDiff lt s (t.getD s))

/-- set.hpp:210-213 `extend`. -/
def extend (xs : List α) : Meth (List α) Unit := do
  let s ← Meth.get
  Meth.set (Tree.insertAll lt xs s)

/-- set.hpp:216-219 `clear`. -/
def clear : Meth (List α) Unit := Meth.set []

end PSet

/-! ## Histories -/

/-- The operations of `Set`. The operand of a set operation is another set, or the set itself (`none`). -/
inductive SOp (α : Type)
  | add (e : α)
  | remove (e : α)
  | pop
  | min
  | max
  | contains (e : α)
  | size
  | extend (xs : List α)
  | clear
  | inter (t : Option (List α))
  | union (t : Option (List α))
  | diff (t : Option (List α))
  | symDiff (t : Option (List α))
  deriving Repr

/-- What an operation returns. -/
inductive SRet (α : Type)
  | unit
  | bool (b : Bool)
  | elem (x : α)
  | int (n : Int)
  deriving Repr, DecidableEq

def SOp.step {α : Type} (lt : α → α → Bool) : SOp α → Meth (List α) (SRet α)
  | .add e => do pure (.bool (← PSet.add lt e))
  | .remove e => do pure (.bool (← PSet.remove lt e))
  | .pop => do pure (.elem (← PSet.pop))
  | .min => do let s ← Meth.get; pure (.elem (← Meth.lift (PSet.min s)))
  | .max => do let s ← Meth.get; pure (.elem (← Meth.lift (PSet.max s)))
  | .contains e => do let s ← Meth.get; pure (.bool (PSet.contains lt s e))
  | .size => do let s ← Meth.get; pure (.int (PSet.size s))
  | .extend xs => do PSet.extend lt xs; pure .unit
  | .clear => do PSet.clear; pure .unit
  | .inter t => do PSet.interAssign lt t; pure .unit
  | .union t => do PSet.unionAssign lt t; pure .unit
  | .diff t => do PSet.diffAssign lt t; pure .unit
  | .symDiff t => do PSet.symDiffAssign lt t; pure .unit

/-- A history, as for lists: the caller catches exceptions and goes on. -/
def SOp.run {α : Type} (lt : α → α → Bool) : List (SOp α) → List α → List (Res (SRet α)) × List α
  | [], s => ([], s)
  | op :: ops, s =>
    match op.step lt s with
    | (.ok r, s') => (.ok r :: (SOp.run lt ops s').1, (SOp.run lt ops s').2)
    | (.throw m, s') => (.throw m :: (SOp.run lt ops s').1, (SOp.run lt ops s').2)
    | (.ub u, s') => ([.ub u], s')
    | (.fuel, s') => ([.fuel], s')

end Pyincpp
