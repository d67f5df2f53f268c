import Verif.Model.Deque

/-! # sources/deque.hpp on the blocks of libstdc++

`std::deque` keeps its elements in blocks of `S` places (nodes), and a row of pointers to the blocks (the map). The functions are those of
bits/stl_deque.h and bits/deque.tcc (GCC 13). Simplified: `_M_first` and `_M_last` of an iterator are read from the map when needed; copying an
element does not throw; `max_size()` is not reached; moving from an element that is destroyed next is copying it. -/

namespace Pyincpp

/-- A `std::deque` and the memory it uses. Blocks have numbers, which are never used again. -/
structure Blk (α : Type) where
  /-- `_S_buffer_size()`. -/
  S : Nat
  /-- `_M_map_size` and the pointers of `_M_map`; `none` is one that was never written. -/
  msize : Nat
  map : Nat → Option Nat
  /-- `_M_start`: the place of the block in the map, and of `_M_cur` in the block. -/
  sn : Nat
  so : Nat
  /-- `_M_finish`. -/
  fn : Nat
  fo : Nat
  /-- The objects in the blocks. -/
  mem : Nat → Nat → Option α
  /-- The blocks that are allocated. -/
  live : Nat → Bool
  /-- The number of the next block. -/
  next : Nat
  /-- How many requests for memory will be granted. -/
  grants : Nat

namespace Blk
variable {α : Type}

/-- 639-672 `_M_initialize_map(0)`: a map of 8 pointers and one block in the middle. -/
def init (S grants : Nat) : Blk α :=
  ⟨S, 8, fun k => if k = 3 then some 0 else none, 3, 0, 3, 0, fun _ _ => none, fun i => decide (i = 0), 1, grants⟩

/-- `*(_M_map + k)`, which must point to a block. -/
def node (d : Blk α) (k : Nat) : Res Nat :=
  if k < d.msize then
    match d.map k with
    | some id => if d.live id then .ok id else .ub .badDeref
    | none => .ub .uninit
  else .ub .outOfBounds

/-- Read place `o` of block `k`. -/
def read (d : Blk α) (k o : Nat) : Res α := do
  let id ← d.node k
  if o < d.S then
    match d.mem id o with
    | some x => .ok x
    | none => .ub .uninit
  else .ub .outOfBounds

/-- Change the state. -/
def upd (f : Blk α → Res (Blk α)) : Meth (Blk α) Unit := fun d =>
  match f d with
  | .ok d' => (.ok (), d')
  | .throw m => (.throw m, d)
  | .ub u => (.ub u, d)
  | .fuel => (.fuel, d)

/-- Construct (`some`), assign (`some`) or destroy (`none`) the object in place `o` of block `k`. -/
def write (k o : Nat) (v : Option α) (d : Blk α) : Res (Blk α) := do
  let id ← d.node k
  if o < d.S then .ok { d with mem := fun i p => if i = id ∧ p = o then v else d.mem i p } else .ub .outOfBounds

/-- `_M_allocate_node()`. -/
def allocNode : Meth (Blk α) Nat := fun d =>
  match d.grants with
  | 0 => (.throw "std::bad_alloc", d)
  | g + 1 => (.ok d.next, { d with
      grants := g, next := d.next + 1, live := fun i => if i = d.next then true else d.live i, mem := fun i p => if i = d.next then none else d.mem i p })

/-- `_M_deallocate_node` of block `k`. -/
def freeNode (k : Nat) (d : Blk α) : Res (Blk α) := do
  let id ← d.node k
  .ok { d with live := fun i => if i = id then false else d.live i }

/-- `*(_M_map + k) = id`. -/
def setMap (k id : Nat) (d : Blk α) : Res (Blk α) :=
  if k < d.msize then .ok { d with map := fun j => if j = k then some id else d.map j } else .ub .outOfBounds

/-- deque.tcc:931-975 `_M_reallocate_map`: the pointers are moved within the map, or to a new map. -/
def reallocMap (add : Nat) (front : Bool) : Meth (Blk α) Unit := fun d =>
  let old := d.fn - d.sn + 1
  let new := old + add
  if d.msize > 2 * new then
    let ns := (d.msize - new) / 2 + if front then add else 0
    if ns + old ≤ d.msize then
      (.ok (), { d with map := fun k => if ns ≤ k ∧ k < ns + old then d.map (d.sn + (k - ns)) else d.map k, sn := ns, fn := ns + old - 1 })
    else (.ub .outOfBounds, d)
  else
    match d.grants with
    | 0 => (.throw "std::bad_alloc", d)
    | g + 1 =>
      let m := d.msize + Nat.max d.msize add + 2
      let ns := (m - new) / 2 + if front then add else 0
      if ns + old ≤ m then
        (.ok (), { d with
          grants := g, msize := m, map := fun k => if ns ≤ k ∧ k < ns + old then d.map (d.sn + (k - ns)) else none, sn := ns, fn := ns + old - 1 })
      else (.ub .outOfBounds, d)

/-- 2168-2173 `_M_reserve_map_at_back(1)`. -/
def reserveBack : Meth (Blk α) Unit := do
  let d ← Meth.get
  if 1 + 1 > d.msize - d.fn then reallocMap 1 false else pure ()

/-- 2176-2181 `_M_reserve_map_at_front(1)`. -/
def reserveFront : Meth (Blk α) Unit := do
  let d ← Meth.get
  if 1 > d.sn then reallocMap 1 true else pure ()

/-- 1538-1549 `push_back`, deque.tcc:485-517 `_M_push_back_aux`. -/
def stdPushBack (e : α) : Meth (Blk α) Unit := do
  let d ← Meth.get
  if d.fo ≠ d.S - 1 then do
    upd (write d.fn d.fo (some e))
    upd (fun d => .ok { d with fo := d.fo + 1 })
  else do
    reserveBack
    let id ← allocNode
    let d ← Meth.get
    upd (setMap (d.fn + 1) id)
    upd (write d.fn d.fo (some e))
    upd (fun d => .ok { d with fn := d.fn + 1, fo := 0 })

/-- 1501-1512 `push_front`, deque.tcc:524-556 `_M_push_front_aux`. -/
def stdPushFront (e : α) : Meth (Blk α) Unit := do
  let d ← Meth.get
  if d.so ≠ 0 then do
    upd (write d.sn (d.so - 1) (some e))
    upd (fun d => .ok { d with so := d.so - 1 })
  else do
    reserveFront
    let id ← allocNode
    let d ← Meth.get
    upd (setMap (d.sn - 1) id)
    upd (fun d => .ok { d with sn := d.sn - 1, so := d.S - 1 })
    upd (write (d.sn - 1) (d.S - 1) (some e))

/-- 1597-1609 `pop_back`, deque.tcc:561-568 `_M_pop_back_aux`. -/
def stdPopBack : Meth (Blk α) Unit := do
  let d ← Meth.get
  if d.fo ≠ 0 then do
    upd (fun d => .ok { d with fo := d.fo - 1 })
    upd (write d.fn (d.fo - 1) none)
  else do
    upd (freeNode d.fn)
    upd (fun d => .ok { d with fn := d.fn - 1, fo := d.S - 1 })
    upd (write (d.fn - 1) (d.S - 1) none)

/-- 1574-1586 `pop_front`, deque.tcc:577-585 `_M_pop_front_aux`. -/
def stdPopFront : Meth (Blk α) Unit := do
  let d ← Meth.get
  if d.so ≠ d.S - 1 then do
    upd (write d.sn d.so none)
    upd (fun d => .ok { d with so := d.so + 1 })
  else do
    upd (write d.sn d.so none)
    upd (freeNode d.sn)
    upd (fun d => .ok { d with sn := d.sn + 1, so := 0 })

/-- 229-247 `operator+=` of the iterators: block and place. -/
def itAdd (S : Nat) (k o n : Int) : Int × Int :=
  let off := n + o
  if 0 ≤ off ∧ off < S then (k, o + n)
  else
    let nd := if off > 0 then off.tdiv S else -((-off - 1).tdiv S) - 1
    (k + nd, off - nd * S)

/-- 369-376 `operator-` of the iterators. -/
def itSub (S : Nat) (k o k' o' : Int) : Int := S * (k - k' - 1) + o + (S - o')

/-- An iterator as natural numbers, to be dereferenced. -/
def natIt (p : Int × Int) : Res (Nat × Nat) := if 0 ≤ p.1 ∧ 0 ≤ p.2 then .ok (p.1.toNat, p.2.toNat) else .ub .badRange

/-- `deque_[n]`: where the element is. -/
def stdAt (d : Blk α) (n : Int) : Res (Nat × Nat) := natIt (itAdd d.S d.sn d.so n)

/-- 1468-1474 `back()`: `end()` and 209-219 `operator--`. -/
def stdBack (d : Blk α) : Res α := if d.fo = 0 then d.read (d.fn - 1) (d.S - 1) else d.read d.fn (d.fo - 1)

/-- 1444-1448 `front()`. -/
def stdFront (d : Blk α) : Res α := d.read d.sn d.so

/-- deque.hpp:137-140 `size`: `_M_finish - _M_start`. -/
def size (d : Blk α) : Int := wrap32 (itSub d.S d.fn d.fo d.sn d.so)

/-- deque.hpp:119-124, the position an index refers to. -/
def refAt (d : Blk α) (index : Int) : Res Int := do
  checkBounds index (← ineg d.size) d.size
  if index ≥ 0 then pure index else iadd index d.size

/-- The operations of `Deque` that are written out on the blocks. -/
inductive Op (α : Type)
  | pushBack (e : α)
  | pushFront (e : α)
  | popBack
  | popFront
  | back
  | front
  | get (i : Int)
  | assign (i : Int) (e : α)
  deriving Repr

/-- The same operation on a list. -/
def Op.toD : Op α → DOp α
  | .pushBack e => .pushBack e
  | .pushFront e => .pushFront e
  | .popBack => .popBack
  | .popFront => .popFront
  | .back => .back
  | .front => .front
  | .get i => .get i
  | .assign i e => .assign i e

/-- deque.hpp:91-188, the functions that the operations call. -/
def Op.step : Op α → Meth (Blk α) (Option α)
  | .pushBack e => do
    let d ← Meth.get
    Meth.lift (checkFull d.size INT_MAX)
    stdPushBack e
    pure none
  | .pushFront e => do
    let d ← Meth.get
    Meth.lift (checkFull d.size INT_MAX)
    stdPushFront e
    pure none
  | .popBack => do
    let d ← Meth.get
    Meth.lift (checkEmpty d.size)
    let x ← Meth.lift d.stdBack
    stdPopBack
    pure (some x)
  | .popFront => do
    let d ← Meth.get
    Meth.lift (checkEmpty d.size)
    let x ← Meth.lift d.stdFront
    stdPopFront
    pure (some x)
  | .back => do
    let d ← Meth.get
    Meth.lift (checkEmpty d.size)
    let x ← Meth.lift d.stdBack
    pure (some x)
  | .front => do
    let d ← Meth.get
    Meth.lift (checkEmpty d.size)
    let x ← Meth.lift d.stdFront
    pure (some x)
  | .get i => do
    let d ← Meth.get
    let j ← Meth.lift (d.refAt i)
    let p ← Meth.lift (d.stdAt j)
    let x ← Meth.lift (d.read p.1 p.2)
    pure (some x)
  | .assign i e => do
    let d ← Meth.get
    let j ← Meth.lift (d.refAt i)
    let p ← Meth.lift (d.stdAt j)
    let _ ← Meth.lift (d.read p.1 p.2)
    upd (write p.1 p.2 (some e))
    pure none

/-- A history, as `DOp.run`. -/
def run : List (Op α) → Blk α → List (Res (Option α)) × Blk α
  | [], d => ([], d)
  | op :: ops, d =>
    match op.step d with
    | (.ok r, d') => (.ok r :: (run ops d').1, (run ops d').2)
    | (.throw m, d') => (.throw m :: (run ops d').1, (run ops d').2)
    | (.ub u, d') => ([.ub u], d')
    | (.fuel, d') => ([.fuel], d')

end Blk
end Pyincpp
