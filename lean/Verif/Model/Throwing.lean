import Verif.Model.List
import Verif.Model.Dict

/-! # Element types and callbacks that throw

The other files take comparisons of elements as functions. Here `==`, `<` and predicates may throw (`Res Bool`), and the members of the
containers that call them are modelled again. Moving an element leaves `gone x` in its place. `List::sort` is left out: what
`std::stable_sort` leaves behind when the comparator throws is not specified (Model/StableSort.lean has what libstdc++ leaves). Copying and moving never throw. -/

namespace Pyincpp
namespace Lst

variable {α : Type}

/-- `std::find` over a whole vector. -/
def findT (eqv : α → α → Res Bool) : List α → α → Res Nat
  | [], _ => .ok 0
  | x :: xs, e => do
    if ← eqv x e then pure 0
    else do pure ((← findT eqv xs e) + 1)

/-- list.hpp:196-204 `operator-=`. -/
def removeFirstT (eqv : α → α → Res Bool) (e : α) : Meth (List α) Unit := do
  let l ← Meth.get
  let it ← Meth.lift (findT eqv l e)
  if it ≠ l.length then do
    let r ← Meth.lift (stdErase l it (it + 1))
    Meth.set r
  else pure ()

/-- The loop of `std::remove` from position `i` on, `res` being the output position; `n` elements are left. An element that
is kept is moved down, and its old place holds what moving leaves. -/
def removeLoopT (eqv : α → α → Res Bool) (gone : α → α) (e : α) : (n i res : Nat) → Meth (List α) Nat
  | 0, _, res => pure res
  | n + 1, i, res => do
    let v ← Meth.get
    let x ← Meth.lift (vget v i)
    let b ← Meth.lift (eqv x e)
    if b then removeLoopT eqv gone e n (i + 1) res
    else do
      let w ← Meth.lift (vset v res x)
      Meth.set (w.set i (gone x))
      removeLoopT eqv gone e n (i + 1) (res + 1)

/-- list.hpp:213-218 `operator/=`, for an element outside the list. -/
def removeAllT (eqv : α → α → Res Bool) (gone : α → α) (e : α) : Meth (List α) Unit := do
  let l ← Meth.get
  let p ← Meth.lift (findT eqv l e)
  let res ← if p = l.length then pure p else removeLoopT eqv gone e (l.length - (p + 1)) (p + 1) p
  let v ← Meth.get
  let r ← Meth.lift (stdErase v res v.length)
  Meth.set r

/-- list.hpp:268-275, the loop of `uniquify`. -/
def uniquifyLoopT (eqv : α → α → Res Bool) : List α → List α → Res (List α)
  | [], buffer => .ok buffer
  | e :: es, buffer => do
    let it ← findT eqv buffer e
    uniquifyLoopT eqv es (if it = buffer.length then buffer ++ [e] else buffer)

/-- list.hpp:266-279 `uniquify`. -/
def uniquifyT (eqv : α → α → Res Bool) : Meth (List α) Unit := do
  let l ← Meth.get
  let b ← Meth.lift (uniquifyLoopT eqv l [])
  Meth.set b

/-- The loop of `std::copy_if` within one vector, as for `copyIfLoop`. -/
def copyIfLoopT (predicate : α → Res Bool) : (n i res : Nat) → Meth (List α) Nat
  | 0, _, res => pure res
  | n + 1, i, res => do
    let v ← Meth.get
    let x ← Meth.lift (vget v i)
    let b ← Meth.lift (predicate x)
    if b then do
      let w ← Meth.lift (vset v res x)
      Meth.set w
      copyIfLoopT predicate n (i + 1) (res + 1)
    else copyIfLoopT predicate n (i + 1) res

/-- list.hpp:313-319 `filter`, as performed by the usual `std::copy_if` (see `Lst.filter`). -/
def filterT (predicate : α → Res Bool) : Meth (List α) Unit := do
  let l ← Meth.get
  let res ← copyIfLoopT predicate l.length 0 0
  let v ← Meth.get
  let r ← Meth.lift (stdErase v res v.length)
  Meth.set r

end Lst

namespace Tree

variable {α β : Type}

/-- What the comparison says if it does not throw. -/
def said (lt : α → α → Res Bool) (a b : α) : Bool :=
  match lt a b with
  | .ok r => r
  | _ => false

/-- Comparisons one after the other. -/
def compareAll (lt : α → α → Res Bool) : List (α × α) → Res Unit
  | [] => .ok ()
  | (a, b) :: qs => do
    let _ ← lt a b
    compareAll lt qs

/-- The comparisons a search makes depend on the shape of the tree: `ask x s` are those for `x` in the set `s`. -/
abbrev Ask (α : Type) := α → List α → List (α × α)

/-- `insert(x)`: comparisons, then the change. -/
def insertT (lt : α → α → Res Bool) (ask : Ask α) (x : α) : Meth (List α) Bool := do
  let s ← Meth.get
  Meth.lift (compareAll lt (ask x s))
  Meth.set (insert (said lt) x s).1
  pure (insert (said lt) x s).2

/-- `insert(first, last)`, `std::inserter`: one after the other. -/
def insertAllT (lt : α → α → Res Bool) (ask : Ask α) : List α → Meth (List α) Unit
  | [] => pure ()
  | x :: xs => do
    let _ ← insertT lt ask x
    insertAllT lt ask xs

/-- One step of the merge loops (`walkInner`). -/
def walkInnerT (lt : α → α → Res Bool) (l r b : Bool) (a : α) (as : List α) (next : List α → Res (List α)) : List α → Res (List α)
  | [] => .ok (if l then a :: as else [])
  | c :: cs => do
    if ← lt a c then do
      let t ← next (c :: cs)
      pure (if l then a :: t else t)
    else if ← lt c a then do
      let t ← walkInnerT lt l r b a as next cs
      pure (if r then c :: t else t)
    else do
      let t ← next cs
      pure (if b then a :: t else t)

/-- The merge loops (`walk`). What is copied is collected, and inserted afterwards: the new set is lost when a comparison throws. -/
def walkT (lt : α → α → Res Bool) (l r b : Bool) : List α → List α → Res (List α)
  | [], cs => .ok (if r then cs else [])
  | a :: as, cs => walkInnerT lt l r b a as (walkT lt l r b as) cs

end Tree

namespace PSet

variable {α : Type} (lt : α → α → Res Bool) (ask : Tree.Ask α)

/-- set.hpp:159-164 `add`. -/
def addT (e : α) : Meth (List α) Bool := do
  let s ← Meth.get
  Meth.lift (checkFull (size s) INT_MAX)
  Tree.insertT lt ask e

/-- set.hpp:167-170 `remove`. -/
def removeT (e : α) : Meth (List α) Bool := do
  let s ← Meth.get
  Meth.lift (Tree.compareAll lt (ask e s))
  let r := Tree.erase (Tree.said lt) e s
  Meth.set r.1
  pure (r.2 == 1)

/-- set.hpp:227-259: `&`, `|`, `-` and `^`, according to what is copied. -/
def combineT (l r b : Bool) (s t : List α) : Res (List α) := do
  let xs ← Tree.walkT lt l r b s t
  match Tree.insertAllT lt ask xs [] with
  | (.ok _, u) => pure u
  | (.throw e, _) => .throw e
  | (.ub u, _) => .ub u
  | (.fuel, _) => .fuel

/-- set.hpp:182-206 `&=`, `|=`, `-=` and `^=`; `none` is the set itself. -/
def combineAssignT (l r b : Bool) (t : Option (List α)) : Meth (List α) Unit := do
  let s ← Meth.get
  let u ← Meth.lift (combineT lt ask l r b s (t.getD s))
  Meth.set u

/-- set.hpp:210-213 `extend`. -/
def extendT (xs : List α) : Meth (List α) Unit := Tree.insertAllT lt ask xs

end PSet

namespace PDict

variable {K V : Type} (lt : K → K → Res Bool)


/-- The comparisons a search for a key makes. -/
abbrev Ask (K V : Type) := K → List (K × V) → List (K × K)

variable (ask : Ask K V)

/-- dict.hpp:95-104 `dict[k] = v`. -/
def assignT (k : K) (v : V) : Meth (List (K × V)) Unit := do
  let d ← Meth.get
  Meth.lift (Tree.compareAll lt (ask k d))
  assign (Tree.said lt) k v

/-- `map_.insert({k, v})`. -/
def insertT (k : K) (v : V) : Meth (List (K × V)) Bool := do
  let d ← Meth.get
  Meth.lift (Tree.compareAll lt (ask k d))
  let r := Tree.insert (keyLt (Tree.said lt)) (k, v) d
  Meth.set r.1
  pure r.2

/-- dict.hpp:193-198 `add`. -/
def addT (k : K) (v : V) : Meth (List (K × V)) Bool := do
  let d ← Meth.get
  Meth.lift (checkFull (size d) INT_MAX)
  insertT lt ask k v

/-- dict.hpp:201-204 `remove`. -/
def removeT (k : K) : Meth (List (K × V)) Bool := do
  let d ← Meth.get
  Meth.lift (Tree.compareAll lt (ask k d))
  remove (Tree.said lt) k

/-- dict.hpp:217-220 `extend`. -/
def extendT : List (K × V) → Meth (List (K × V)) Unit
  | [] => pure ()
  | (k, v) :: xs => do
    let _ ← insertT lt ask k v
    extendT xs

end PDict
end Pyincpp
