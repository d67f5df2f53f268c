import Verif.Model.DequeBlock

/-! # `extend_back` and `extend_front` of sources/deque.hpp on the blocks of libstdc++

deque.hpp:192-195 calls `deque_.insert(deque_.end(), first, last)`, deque.hpp:199-202 `deque_.insert(deque_.begin(), first, last)`, which is `_M_range_insert_aux` of deque.tcc:595-638. The range is one of forward
iterators outside the deque. Line numbers without a file are of stl_deque.h of libstdc++ 13. Left out: the check against `max_size`, and copying an element
that throws. -/

namespace Pyincpp
namespace Blk
variable {α : Type}

/-- deque.tcc:921-924: deallocate the blocks after `fn`, the first `n` of them. -/
def freeNodes (fn : Nat) : Nat → Meth (Blk α) Unit
  | 0 => pure ()
  | n + 1 => do
    freeNodes fn n
    upd (freeNode (fn + (n + 1)))

/-- deque.tcc:915-926: allocate blocks `fn + i` and the `n - 1` after it; when there is no memory the new ones are given back. -/
def newNodes (fn : Nat) : Nat → Nat → Meth (Blk α) Unit
  | _, 0 => pure ()
  | i, n + 1 => fun d =>
    match allocNode d with
    | (.ok id, d') => (do upd (setMap (fn + i) id); newNodes fn (i + 1) n) d'
    | (.throw m, d') => (do freeNodes fn (i - 1); Meth.lift (.throw m)) d'
    | (.ub u, d') => (.ub u, d')
    | (.fuel, d') => (.fuel, d')

/-- 2168-2173 `_M_reserve_map_at_back`. -/
def reserveBackN (n : Nat) : Meth (Blk α) Unit := do
  let d ← Meth.get
  if n + 1 > d.msize - d.fn then reallocMap n false else pure ()

/-- 2142-2149 `_M_reserve_elements_at_back` and deque.tcc:907-927 `_M_new_elements_at_back`; gives the new `_M_finish`. -/
def reserveElements (n : Nat) : Meth (Blk α) (Int × Int) := do
  let d ← Meth.get
  let vacancies := d.S - d.fo - 1
  if n > vacancies then do
    let nodes := (n - vacancies + d.S - 1) / d.S
    reserveBackN nodes
    let d ← Meth.get
    newNodes d.fn 1 nodes
    let d ← Meth.get
    pure (itAdd d.S d.fn d.fo n)
  else pure (itAdd d.S d.fn d.fo n)

/-- `std::uninitialized_copy` to an iterator, with 189-199 `operator++`. -/
def fill : List α → Nat → Nat → Meth (Blk α) Unit
  | [], _, _ => pure ()
  | x :: xs, k, o => do
    let d ← Meth.get
    upd (write k o (some x))
    if o + 1 = d.S then fill xs (k + 1) 0 else fill xs k (o + 1)

/-- deque.tcc:621-626 `_M_range_insert_aux`, the branch for the end. -/
def extendBack (xs : List α) : Meth (Blk α) Unit := do
  let p ← reserveElements xs.length
  let d ← Meth.get
  fill xs d.fn d.fo
  let q ← Meth.lift (natIt p)
  upd (fun d => .ok { d with fn := q.1, fo := q.2 })

/-- deque.tcc:898-899: deallocate the blocks before `sn`, the nearest `n` of them. -/
def freeFront (sn : Nat) : Nat → Meth (Blk α) Unit
  | 0 => pure ()
  | n + 1 => do
    freeFront sn n
    upd (fun d => if n + 1 ≤ sn then freeNode (sn - (n + 1)) d else .ub .outOfBounds)

/-- deque.tcc:891-901: allocate block `sn - i` and the `n - 1` before it; when there is no memory the new ones are given back. -/
def newFront (sn : Nat) : Nat → Nat → Meth (Blk α) Unit
  | _, 0 => pure ()
  | i, n + 1 => fun d =>
    match allocNode d with
    | (.ok id, d') => (do upd (fun d => if i ≤ sn then setMap (sn - i) id d else .ub .outOfBounds); newFront sn (i + 1) n) d'
    | (.throw m, d') => (do freeFront sn (i - 1); Meth.lift (.throw m)) d'
    | (.ub u, d') => (.ub u, d')
    | (.fuel, d') => (.fuel, d')

/-- 2175-2181 `_M_reserve_map_at_front`. -/
def reserveFrontN (n : Nat) : Meth (Blk α) Unit := do
  let d ← Meth.get
  if n > d.sn then reallocMap n true else pure ()

/-- 2131-2139 `_M_reserve_elements_at_front` and deque.tcc:882-902 `_M_new_elements_at_front`; gives the new `_M_start`. -/
def reserveElementsFront (n : Nat) : Meth (Blk α) (Int × Int) := do
  let d ← Meth.get
  if n > d.so then do
    let nodes := (n - d.so + d.S - 1) / d.S
    reserveFrontN nodes
    let d ← Meth.get
    newFront d.sn 1 nodes
    let d ← Meth.get
    pure (itAdd d.S d.sn d.so (-(n : Int)))
  else pure (itAdd d.S d.sn d.so (-(n : Int)))

/-- deque.tcc:606-611 `_M_range_insert_aux`, the branch for the begin. -/
def extendFront (xs : List α) : Meth (Blk α) Unit := do
  let p ← reserveElementsFront xs.length
  let q ← Meth.lift (natIt p)
  fill xs q.1 q.2
  upd (fun d => .ok { d with sn := q.1, so := q.2 })

/-- deque.hpp:192-195 `extend_back`: the position is the end, and deque.tcc:604 asks first whether that is the begin. -/
def stdExtendBack (xs : List α) : Meth (Blk α) Unit := do
  let d ← Meth.get
  if d.fn = d.sn ∧ d.fo = d.so then extendFront xs else extendBack xs

/-- deque.hpp:199-202 `extend_front`: the position is the begin. -/
def stdExtendFront (xs : List α) : Meth (Blk α) Unit := extendFront xs

end Blk
end Pyincpp
