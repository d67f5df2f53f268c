import Verif.Model.RbTree
import Verif.Model.Set
import Verif.Model.Dict

/-! # `Set` and `Dict` on the trees of libstdc++

The methods of sources/set.hpp and sources/dict.hpp again, on a tree instead of a sorted list; the state is the tree and the number of calls of the
comparator so far. What a method leaves behind if the comparator throws is not described. -/

namespace Pyincpp
namespace BT

/-- A function of the tree, on the state. -/
def onTree {α β : Type} (f : BT α → Meth Nat (BT α × β)) : Meth (BT α × Nat) β := fun s =>
  match f s.1 s.2 with
  | (.ok (t, b), n) => (.ok b, (t, n))
  | (.throw m, n) => (.throw m, (s.1, n))
  | (.ub u, n) => (.ub u, (s.1, n))
  | (.fuel, n) => (.fuel, (s.1, n))

section set
variable {α : Type} (cmp : α → α → Res Bool) (B : Balancer α)

/-- bits/stl_algo.h:2811-2827 `__includes`. -/
def includes : List α → List α → Meth Nat Bool
  | _, [] => pure true
  | [], _ :: _ => pure false
  | a :: as, b :: bs => do
    if ← ask cmp b a then pure false
    else if !(← ask cmp a b) then includes as bs
    else includes as (b :: bs)

/-- One element of the first range against the second range, see `walk`. -/
def walkInner (l r b : Bool) (a : α) (as : List α) (next : List α → Meth Nat (List α)) : List α → Meth Nat (List α)
  | [] => pure (if l then a :: as else [])
  | c :: cs => do
    if ← ask cmp a c then do
      let z ← next (c :: cs)
      pure (if l then a :: z else z)
    else if ← ask cmp c a then do
      let z ← walkInner l r b a as next cs
      pure (if r then c :: z else z)
    else do
      let z ← next cs
      pure (if b then a :: z else z)

/-- bits/stl_algo.h:5126-5157 `__set_union`, 5260-5281 `__set_intersection`, 5381-5403 `__set_difference`, 5508-5536
`__set_symmetric_difference`: the elements that are copied. -/
def walk (l r b : Bool) : List α → List α → Meth Nat (List α)
  | [], cs => pure (if r then cs else [])
  | a :: as, cs => walkInner cmp l r b a as (walk l r b as) cs

/-- set.hpp:227-259 the operators: into `std::inserter(new_set.set_, new_set.set_.begin())`. The copies are made after the walk here, not during it. -/
def setOp (l r b : Bool) (other : Option (List α)) (t : BT α) : Meth Nat (BT α × Unit) := do
  let xs ← walk cmp l r b t.elems (other.getD t.elems)
  let t' ← insertIter id cmp B xs 0 leaf
  pure (t', ())

/-- set.hpp:65-68 `operator<=`. -/
def setLe (s t : BT α) : Meth Nat Bool := includes cmp t.elems s.elems

/-- The methods of `Set`, as `SOp.step`. -/
def setStep : SOp α → Meth (BT α × Nat) (SRet α)
  | .add e => do
    let s ← Meth.get
    Meth.lift (checkFull (PSet.size s.1.elems) INT_MAX)
    let b ← onTree (insert id cmp B e)
    pure (.bool b)
  | .remove e => do
    let r ← onTree (erase id cmp B e)
    pure (.bool (r == 1))
  | .pop => do
    let s ← Meth.get
    Meth.lift (checkEmpty (PSet.size s.1.elems))
    let x ← Meth.lift (PSet.stdBegin s.1.elems)
    Meth.set (B.del s.1 0, s.2)
    pure (.elem x)
  | .min => do let s ← Meth.get; pure (.elem (← Meth.lift (PSet.min s.1.elems)))
  | .max => do let s ← Meth.get; pure (.elem (← Meth.lift (PSet.max s.1.elems)))
  | .contains e => do
    let s ← Meth.get
    let j ← onTree (fun t => do pure (t, ← find id cmp e t))
    pure (.bool (j != s.1.size))
  | .size => do let s ← Meth.get; pure (.int (PSet.size s.1.elems))
  | .extend xs => do
    onTree (fun t => do pure (← insertRange id cmp B xs t, ()))
    pure .unit
  | .clear => do let s ← Meth.get; Meth.set (leaf, s.2); pure .unit
  | .inter t => do onTree (setOp cmp B false false true t); pure .unit
  | .union t => do onTree (setOp cmp B true true true t); pure .unit
  | .diff t => do onTree (setOp cmp B true false false t); pure .unit
  | .symDiff t => do onTree (setOp cmp B true true false t); pure .unit

/-- A history, as `SOp.run`. -/
def setRun : List (SOp α) → BT α × Nat → List (Res (SRet α)) × BT α × Nat
  | [], s => ([], s)
  | op :: ops, s =>
    match setStep cmp B op s with
    | (.ok r, s') => (.ok r :: (setRun ops s').1, (setRun ops s').2)
    | (.throw m, s') => (.throw m :: (setRun ops s').1, (setRun ops s').2)
    | (.ub u, s') => ([.ub u], s')
    | (.fuel, s') => ([.fuel], s')

end set

section dict
variable {K V : Type} (cmp : K → K → Res Bool) (B : Balancer (K × V))

/-- Writing `it->second` of the node `j`. -/
def setVal (v : V) : BT (K × V) → Nat → BT (K × V)
  | leaf, _ => leaf
  | node c l x r, j =>
    if j < l.size then node c (setVal v l j) x r
    else if j = l.size then node c l (x.1, v) r
    else node c l x (setVal v r (j - l.size - 1))

/-- dict.hpp:95-104 `operator[]`. -/
def refAt (k : K) : Meth (BT (K × V) × Nat) Nat := do
  let s ← Meth.get
  let j ← onTree (fun t => do pure (t, ← find Prod.fst cmp k t))
  if j = s.1.size then Meth.lift (.throw "Error: Key is not found in the dictionary.") else pure j

/-- dict.hpp:95-110 `operator[]`, reading. -/
def getVal (k : K) : Meth (BT (K × V) × Nat) V := do
  let j ← refAt cmp k
  let s ← Meth.get
  let p ← Meth.lift (vget s.1.elems j)
  pure p.2

/-- dict.hpp:141-144 `contains`. -/
def hasKey (k : K) : Meth (BT (K × V) × Nat) Bool := do
  let s ← Meth.get
  let j ← onTree (fun t => do pure (t, ← find Prod.fst cmp k t))
  pure (j != s.1.size)

/-- The methods of `Dict`, as `MOp.step`. -/
def dictStep : MOp K V → Meth (BT (K × V) × Nat) (MRet K V)
  | .add k v => do
    let s ← Meth.get
    Meth.lift (checkFull (PDict.size s.1.elems) INT_MAX)
    let b ← onTree (insert Prod.fst cmp B (k, v))
    pure (.bool b)
  | .remove k => do
    let r ← onTree (erase Prod.fst cmp B k)
    pure (.bool (r == 1))
  | .assign k v => do
    let j ← refAt cmp k
    let s ← Meth.get
    Meth.set (setVal v s.1 j, s.2)
    pure .unit
  | .get k => do pure (.val (← getVal cmp k))
  | .getOr k v => do
    if ← hasKey cmp k then do pure (.val (← getVal cmp k))
    else pure (.val v)
  | .contains k => do pure (.bool (← hasKey cmp k))
  | .pop => do
    let s ← Meth.get
    Meth.lift (checkEmpty (PDict.size s.1.elems))
    let x ← Meth.lift (PSet.stdBegin s.1.elems)
    Meth.set (B.del s.1 0, s.2)
    pure (.pair x)
  | .size => do let s ← Meth.get; pure (.int (PDict.size s.1.elems))
  | .extend xs => do
    onTree (fun t => do pure (← insertRange Prod.fst cmp B xs t, ()))
    pure .unit
  | .clear => do let s ← Meth.get; Meth.set (leaf, s.2); pure .unit

/-- A history, as `MOp.run`. -/
def dictRun : List (MOp K V) → BT (K × V) × Nat → List (Res (MRet K V)) × BT (K × V) × Nat
  | [], s => ([], s)
  | op :: ops, s =>
    match dictStep cmp B op s with
    | (.ok r, s') => (.ok r :: (dictRun ops s').1, (dictRun ops s').2)
    | (.throw m, s') => (.throw m :: (dictRun ops s').1, (dictRun ops s').2)
    | (.ub u, s') => ([.ub u], s')
    | (.fuel, s') => ([.fuel], s')

end dict

end BT
end Pyincpp
