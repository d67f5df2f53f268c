import Verif.Model.Set

/-! # sources/dict.hpp

`Dict<K, V>`: a `std::map<K, V>`, here the list of its pairs in iteration order (class name `PDict`). `lt` is `std::less<K>`. -/

namespace Pyincpp
namespace PDict

variable {K V : Type} (lt : K → K → Bool)

/-- The comparator of the map: the keys decide. -/
def keyLt (p q : K × V) : Bool := lt p.1 q.1

/-- `map_.find(key)`: the position, `none` is `end()`. -/
def mapFind (k : K) : List (K × V) → Option Nat
  | [] => none
  | p :: ps =>
    if lt p.1 k then (mapFind k ps).map (· + 1)
    else if lt k p.1 then none
    else some 0

/-- `map_.erase(key)`. -/
def mapErase (k : K) : List (K × V) → List (K × V) × Nat
  | [] => ([], 0)
  | p :: ps =>
    if lt p.1 k then (p :: (mapErase k ps).1, (mapErase k ps).2)
    else if lt k p.1 then (p :: ps, 0)
    else (ps, 1)

/-- dict.hpp:37-47 the constructors from a list and a range; the one from a `std::map` (49-53) copies. -/
def ofRange (xs : List (K × V)) : List (K × V) := Tree.insertAll (keyLt lt) xs []

/-- dict.hpp:60 `operator==`, defaulted. -/
def eq [BEq K] [BEq V] (d e : List (K × V)) : Bool := d == e

/-- dict.hpp:123-126 `int size() const { return map_.size(); }`. -/
def size (d : List (K × V)) : Int := wrap32 d.length

/-- dict.hpp:129-132 `is_empty`. -/
def isEmpty (d : List (K × V)) : Bool := d.isEmpty

/-- dict.hpp:95-104 `operator[]`: the place of the value. -/
def refAt (d : List (K × V)) (k : K) : Res Nat :=
  match mapFind lt k d with
  | none => .throw "Error: Key is not found in the dictionary."
  | some i => .ok i

/-- dict.hpp:95-110 `operator[]`, reading. -/
def get (d : List (K × V)) (k : K) : Res V := do
  let i ← refAt lt d k
  let p ← vget d i
  pure p.2

/-- dict.hpp:95-104 `dict[k] = v`. -/
def assign (k : K) (v : V) : Meth (List (K × V)) Unit := do
  let d ← Meth.get
  let i ← Meth.lift (refAt lt d k)
  let p ← Meth.lift (vget d i)
  Meth.set (d.set i (p.1, v))

/-- dict.hpp:141-144 `contains`. -/
def contains (d : List (K × V)) (k : K) : Bool := mapFind lt k d != none

/-- dict.hpp:113-116 `get`. -/
def getOr (d : List (K × V)) (k : K) (defaults : V) : Res V :=
  if contains lt d k then get lt d k else .ok defaults

/-- dict.hpp:147-150 `min`: `map_.cbegin()->first`, not checked. -/
def min (d : List (K × V)) : Res K := do
  let p ← PSet.stdBegin d
  pure p.1

/-- dict.hpp:153-156 `max`: `map_.crbegin()->first`, not checked. -/
def max (d : List (K × V)) : Res K := do
  let p ← PSet.stdRbegin d
  pure p.1

/-- `for_each` with `set.add(...)`. -/
def addAll {α : Type} (lt : α → α → Bool) : List α → Meth (List α) Unit
  | [] => pure ()
  | x :: xs => do
    let _ ← PSet.add lt x
    addAll lt xs

/-- dict.hpp:159-166 `keys`. -/
def keys (d : List (K × V)) : Res (List K) :=
  match addAll lt (d.map (·.1)) [] with
  | (.ok _, s) => .ok s
  | (.throw m, _) => .throw m
  | (.ub u, _) => .ub u
  | (.fuel, _) => .fuel

/-- dict.hpp:169-176 `values`, in the order `ltV` of the values. -/
def values (ltV : V → V → Bool) (d : List (K × V)) : Res (List V) :=
  match addAll ltV (d.map (·.2)) [] with
  | (.ok _, s) => .ok s
  | (.throw m, _) => .throw m
  | (.ub u, _) => .ub u
  | (.fuel, _) => .fuel

/-- `operator<` of `std::pair`. -/
def pairLt (ltV : V → V → Bool) (p q : K × V) : Bool := lt p.1 q.1 || (!(lt q.1 p.1) && ltV p.2 q.2)

/-- dict.hpp:179-186 `items`. -/
def items (ltV : V → V → Bool) (d : List (K × V)) : Res (List (K × V)) :=
  match addAll (pairLt lt ltV) d [] with
  | (.ok _, s) => .ok s
  | (.throw m, _) => .throw m
  | (.ub u, _) => .ub u
  | (.fuel, _) => .fuel

/-- dict.hpp:193-198 `add`. -/
def add (k : K) (v : V) : Meth (List (K × V)) Bool := do
  let d ← Meth.get
  Meth.lift (checkFull (size d) INT_MAX)
  let r := Tree.insert (keyLt lt) (k, v) d
  Meth.set r.1
  pure r.2

/-- dict.hpp:201-204 `remove`. -/
def remove (k : K) : Meth (List (K × V)) Bool := do
  let d ← Meth.get
  let r := mapErase lt k d
  Meth.set r.1
  pure (r.2 == 1)

/-- dict.hpp:207-213 `pop`: `extract(begin())`. -/
def pop : Meth (List (K × V)) (K × V) := do
  let d ← Meth.get
  Meth.lift (checkEmpty (size d))
  let x ← Meth.lift (PSet.stdBegin d)
  Meth.set (d.drop 1)
  pure x

/-- dict.hpp:217-220 `extend`. -/
def extend (xs : List (K × V)) : Meth (List (K × V)) Unit := do
  let d ← Meth.get
  Meth.set (Tree.insertAll (keyLt lt) xs d)

/-- dict.hpp:223-226 `clear`. -/
def clear : Meth (List (K × V)) Unit := Meth.set []

end PDict

/-! ## Histories -/

/-- The operations of `Dict`. -/
inductive MOp (K V : Type)
  | add (k : K) (v : V)
  | remove (k : K)
  | assign (k : K) (v : V)
  | get (k : K)
  | getOr (k : K) (v : V)
  | contains (k : K)
  | pop
  | size
  | extend (xs : List (K × V))
  | clear
  deriving Repr

/-- What an operation returns. -/
inductive MRet (K V : Type)
  | unit
  | bool (b : Bool)
  | val (v : V)
  | pair (p : K × V)
  | int (n : Int)
  deriving Repr, DecidableEq

def MOp.step {K V : Type} (lt : K → K → Bool) : MOp K V → Meth (List (K × V)) (MRet K V)
  | .add k v => do pure (.bool (← PDict.add lt k v))
  | .remove k => do pure (.bool (← PDict.remove lt k))
  | .assign k v => do PDict.assign lt k v; pure .unit
  | .get k => do let d ← Meth.get; pure (.val (← Meth.lift (PDict.get lt d k)))
  | .getOr k v => do let d ← Meth.get; pure (.val (← Meth.lift (PDict.getOr lt d k v)))
  | .contains k => do let d ← Meth.get; pure (.bool (PDict.contains lt d k))
  | .pop => do pure (.pair (← PDict.pop))
  | .size => do let d ← Meth.get; pure (.int (PDict.size d))
  | .extend xs => do PDict.extend lt xs; pure .unit
  | .clear => do PDict.clear; pure .unit

def MOp.run {K V : Type} (lt : K → K → Bool) : List (MOp K V) → List (K × V) → List (Res (MRet K V)) × List (K × V)
  | [], d => ([], d)
  | op :: ops, d =>
    match op.step lt d with
    | (.ok r, d') => (.ok r :: (MOp.run lt ops d').1, (MOp.run lt ops d').2)
    | (.throw m, d') => (.throw m :: (MOp.run lt ops d').1, (MOp.run lt ops d').2)
    | (.ub u, d') => ([.ub u], d')
    | (.fuel, d') => ([.fuel], d')

end Pyincpp
