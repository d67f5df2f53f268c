import Verif.Model.List

/-! # sources/deque.hpp

`Deque<T>`: a `std::deque<T>`, here a Lean `List α` (class name `Dq`). -/

namespace Pyincpp
namespace Dq

variable {α : Type}

/-- deque.hpp:137-140 `int size() const { return deque_.size(); }`. -/
def size (d : List α) : Int := wrap32 d.length

/-- deque.hpp:143-146 `is_empty`. -/
def isEmpty (d : List α) : Bool := d.isEmpty

/-- `deque_.back()`, undefined for an empty deque. -/
def stdBack (d : List α) : Res α := if d.length = 0 then .ub .badDeref else vget d (d.length - 1)

/-- `deque_.front()`, undefined for an empty deque. -/
def stdFront (d : List α) : Res α := if d.length = 0 then .ub .badDeref else vget d 0

/-- deque.hpp:91-102 `back`. -/
def back (d : List α) : Res α := do
  checkEmpty (size d)
  stdBack d

/-- deque.hpp:105-116 `front`. -/
def front (d : List α) : Res α := do
  checkEmpty (size d)
  stdFront d

/-- deque.hpp:119-124, the position an index refers to. -/
def refAt (d : List α) (index : Int) : Res Int := do
  checkBounds index (← ineg (size d)) (size d)
  if index ≥ 0 then pure index else iadd index (size d)

/-- deque.hpp:119-130 `operator[]`, reading. -/
def get (d : List α) (index : Int) : Res α := do Lst.vat d (← refAt d index)

/-- deque.hpp:119-124 `deque[index] = e`. -/
def assign (index : Int) (e : α) : Meth (List α) Unit := do
  let d ← Meth.get
  let i ← Meth.lift (refAt d index)
  let _ ← Meth.lift (Lst.vat d i)
  Meth.set (d.set i.toNat e)

/-- deque.hpp:153-158 `push_back`. -/
def pushBack (e : α) : Meth (List α) Unit := do
  let d ← Meth.get
  Meth.lift (checkFull (size d) INT_MAX)
  Meth.set (d ++ [e])

/-- deque.hpp:161-166 `push_front`. -/
def pushFront (e : α) : Meth (List α) Unit := do
  let d ← Meth.get
  Meth.lift (checkFull (size d) INT_MAX)
  Meth.set (e :: d)

/-- deque.hpp:170-177 `pop_back`. -/
def popBack : Meth (List α) α := do
  let d ← Meth.get
  Meth.lift (checkEmpty (size d))
  let data ← Meth.lift (stdBack d)
  Meth.set d.dropLast
  pure data

/-- deque.hpp:181-188 `pop_front`. -/
def popFront : Meth (List α) α := do
  let d ← Meth.get
  Meth.lift (checkEmpty (size d))
  let data ← Meth.lift (stdFront d)
  Meth.set d.tail
  pure data

/-- deque.hpp:192-195 `extend_back` with a range outside the deque. -/
def extendBack (m : List α) : Meth (List α) Unit := do
  let d ← Meth.get
  Meth.set (d ++ m)

/-- deque.hpp:199-202 `extend_front` with a range outside the deque. -/
def extendFront (m : List α) : Meth (List α) Unit := do
  let d ← Meth.get
  Meth.set (m ++ d)

/-- deque.hpp:192-195 with the range of the deque itself: the standard forbids it (`strict`). In libstdc++ a push at the end
of a deque invalidates the iterators only when the map is reallocated, so nothing is claimed for `lenient` either. -/
def extendBackSelf : Meth (List α) Unit := Meth.lift (.ub .badRange)

/-- deque.hpp:199-202 with the range of the deque itself, as test_deque.cpp:177 calls it: forbidden likewise. -/
def extendFrontSelf : Meth (List α) Unit := Meth.lift (.ub .badRange)

/-- deque.hpp:221-238 `operator<<=`. -/
def rotL (n : Int) : Meth (List α) Unit := do
  let l ← Meth.get
  if size l ≤ 1 ∨ n = 0 then pure ()
  else do
    let n ← Meth.lift (imod n (size l))
    let n ← Meth.lift (if n < 0 then iadd n (size l) else .ok n)
    let p ← Meth.lift (Lst.iter l n)
    Meth.set (Lst.stdRotate l p)

/-- deque.hpp:205-218 `operator>>=`. -/
def rotR (n : Int) : Meth (List α) Unit := do
  let l ← Meth.get
  if size l ≤ 1 ∨ n = 0 then pure ()
  else if n < 0 then do
    let m ← Meth.lift (ineg n)
    rotL m
  else do
    let m ← Meth.lift (isub (size l) n)
    rotL m

/-- deque.hpp:241-246 `reverse`. -/
def reverse : Meth (List α) Unit := do
  let d ← Meth.get
  Meth.set d.reverse

/-- deque.hpp:249-252 `clear`. -/
def clear : Meth (List α) Unit := Meth.set []

end Dq

/-- The operations of a `Deque`. -/
inductive DOp (α : Type)
  | pushBack (e : α)
  | pushFront (e : α)
  | popBack
  | popFront
  | back
  | front
  | get (i : Int)
  | assign (i : Int) (e : α)
  | extendBack (m : List α)
  | extendFront (m : List α)
  | rotL (n : Int)
  | rotR (n : Int)
  | reverse
  | clear
  deriving Repr

/-- Read something from the object without changing it. -/
def Meth.ask {σ β : Type} (f : σ → Res β) : Meth σ β := do
  let s ← Meth.get
  Meth.lift (f s)

/-- One operation, with the element it returns if it returns one. -/
def DOp.step {α : Type} : DOp α → Meth (List α) (Option α)
  | .pushBack e => do Dq.pushBack e; pure none
  | .pushFront e => do Dq.pushFront e; pure none
  | .popBack => do pure (some (← Dq.popBack))
  | .popFront => do pure (some (← Dq.popFront))
  | .back => do pure (some (← Meth.ask Dq.back))
  | .front => do pure (some (← Meth.ask Dq.front))
  | .get i => do pure (some (← Meth.ask (fun d => Dq.get d i)))
  | .assign i e => do Dq.assign i e; pure none
  | .extendBack m => do Dq.extendBack m; pure none
  | .extendFront m => do Dq.extendFront m; pure none
  | .rotL n => do Dq.rotL n; pure none
  | .rotR n => do Dq.rotR n; pure none
  | .reverse => do Dq.reverse; pure none
  | .clear => do Dq.clear; pure none

/-- A history: exceptions are caught, after undefined behaviour nothing more is said. -/
def DOp.run {α : Type} : List (DOp α) → List α → List (Res (Option α)) × List α
  | [], l => ([], l)
  | op :: ops, l =>
    match op.step l with
    | (.ok r, l') => (.ok r :: (DOp.run ops l').1, (DOp.run ops l').2)
    | (.throw m, l') => (.throw m :: (DOp.run ops l').1, (DOp.run ops l').2)
    | (.ub u, l') => ([.ub u], l')
    | (.fuel, l') => ([.fuel], l')

end Pyincpp
