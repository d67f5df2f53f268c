import Verif.Model.Dict

/-! # The trees under `std::set` and `std::map`

`Set` and `Dict` are sorted lists in Model/Tree.lean. libstdc++ 13 keeps the elements in a binary tree; here are its functions from bits/stl_tree.h
(line numbers without a file are those), with the number of calls of the comparator as the state. An iterator is the number of elements before it,
`end()` is the size. The comparator may throw.

How the tree is balanced after a node was linked in or taken out is in the compiled part of libstdc++ and a parameter here (`Balancer`); it keeps the
order of the elements and gives a red-black tree (`Balancer.Keeps`, Proof/RbTree.lean). -/

namespace Pyincpp

/-- A tree of nodes; the colour comes first. -/
inductive BT (α : Type)
  | leaf
  | node (red : Bool) (l : BT α) (x : α) (r : BT α)
  deriving DecidableEq, Repr

namespace BT

variable {α κ : Type}

/-- The elements in iteration order. -/
def elems : BT α → List α
  | leaf => []
  | node _ l x r => l.elems ++ x :: r.elems

/-- `_M_node_count`. -/
def size (t : BT α) : Nat := t.elems.length

/-- The number of nodes on the longest way down. -/
def height : BT α → Nat
  | leaf => 0
  | node _ l _ r => 1 + Nat.max l.height r.height

def isLeaf : BT α → Bool
  | leaf => true
  | node .. => false

/-- `_S_left(j) == 0`. -/
def leftLeaf : BT α → Nat → Bool
  | leaf, _ => false
  | node _ l _ r, j => if j < l.size then l.leftLeaf j else if j = l.size then l.isLeaf else r.leftLeaf (j - l.size - 1)

/-- `_S_right(j) == 0`. -/
def rightLeaf : BT α → Nat → Bool
  | leaf, _ => false
  | node _ l _ r, j => if j < l.size then l.rightLeaf j else if j = l.size then r.isLeaf else r.rightLeaf (j - l.size - 1)

/-- Linking the new node of `v` below the node `j`. Where there is a child already, it is lost; this is `ub`. -/
def hang (v : α) (left : Bool) : BT α → Nat → Res (BT α)
  | leaf, _ => .ub .badDeref
  | node c l x r, j =>
    if j < l.size then do pure (node c (← hang v left l j) x r)
    else if j = l.size then
      if left then (if l.isLeaf then .ok (node c (node true leaf v leaf) x r) else .ub .outOfBounds)
      else (if r.isLeaf then .ok (node c l x (node true leaf v leaf)) else .ub .outOfBounds)
    else do pure (node c l x (← hang v left r (j - l.size - 1)))

/-- `_Rb_tree_insert_and_rebalance` after the linking, and `_Rb_tree_rebalance_for_erase` of the node `j`. -/
structure Balancer (α : Type) where
  ins : BT α → BT α
  del : BT α → Nat → BT α

variable (key : α → κ) (cmp : κ → κ → Res Bool) (B : Balancer α)

/-- A call of the comparator. -/
def ask (a b : κ) : Meth Nat Bool := fun n => (cmp a b, n + 1)

/-- `_S_key(j)`. -/
def keyAt (t : BT α) (j : Nat) : Meth Nat κ := do
  let x ← Meth.lift (vget t.elems j)
  pure (key x)

/-- 1948-1957 `_M_lower_bound` and 1980-1989 `_M_upper_bound` of the tree whose first element has number `off`: the first node for which `go` says no,
or `y`. -/
def bound (go : κ → Meth Nat Bool) : BT α → (off y : Nat) → Meth Nat Nat
  | leaf, _, y => pure y
  | node _ l x r, off, y => do
    if ← go (key x) then bound go r (off + l.size + 1) y
    else bound go l off (off + l.size)

def lowerBound (k : κ) : BT α → (off y : Nat) → Meth Nat Nat := bound key (fun x => ask cmp x k)

def upperBound (k : κ) : BT α → (off y : Nat) → Meth Nat Nat := bound key (fun x => do pure (!(← ask cmp k x)))

/-- 2530-2536 `find`. -/
def find (k : κ) (t : BT α) : Meth Nat Nat := do
  let j ← lowerBound key cmp k t 0 t.size
  if j = t.size then pure t.size
  else do
    let x ← keyAt key t j
    if ← ask cmp k x then pure t.size else pure j

/-- 2014-2037 `equal_range`. -/
def equalRange (k : κ) : BT α → (off y : Nat) → Meth Nat (Nat × Nat)
  | leaf, _, y => pure (y, y)
  | node _ l x r, off, y => do
    if ← ask cmp (key x) k then equalRange k r (off + l.size + 1) y
    else if ← ask cmp k (key x) then equalRange k l off (off + l.size)
    else do
      let lo ← lowerBound key cmp k l off (off + l.size)
      let hi ← upperBound key cmp k r (off + l.size + 1) y
      pure (lo, hi)

/-- 2504-2511, the loop of `_M_erase_aux`: the node `j`, `n` times. -/
def eraseLoop : (n j : Nat) → BT α → BT α
  | 0, _, t => t
  | n + 1, j, t => eraseLoop n j (B.del t j)

/-- 2517-2523 `erase`. -/
def erase (k : κ) (t : BT α) : Meth Nat (BT α × Nat) := do
  let (lo, hi) ← equalRange key cmp k t 0 t.size
  if hi < lo then Meth.lift (.ub .badRange)
  else if lo = 0 ∧ hi = t.size then pure (leaf, t.size)
  else pure (eraseLoop B (hi - lo) lo t, t.size - (eraseLoop B (hi - lo) lo t).size)

/-- 2115-2123, the loop of `_M_get_insert_unique_pos`: the last node, and what the comparator said. -/
def descend (k : κ) : BT α → (off y : Nat) → (comp : Bool) → Meth Nat (Nat × Bool)
  | leaf, _, y, comp => pure (y, comp)
  | node _ l x r, off, _, _ => do
    if ← ask cmp k (key x) then descend k l off (off + l.size) true
    else descend k r (off + l.size + 1) (off + l.size) false

/-- Where to insert: an equivalent element is there, or below the node `y` (`end()`: the tree is empty), and whether the first pointer is not null. -/
inductive Pos
  | there (j : Nat)
  | below (first : Bool) (y : Nat)
  deriving DecidableEq, Repr

/-- 2109-2135 `_M_get_insert_unique_pos`. -/
def uniquePos (k : κ) (t : BT α) : Meth Nat Pos := do
  let (y, comp) ← descend key cmp k t 0 t.size true
  if comp ∧ y = 0 then pure (.below false y)
  else do
    let j := if comp then y - 1 else y
    let x ← keyAt key t j
    if ← ask cmp x k then pure (.below false y) else pure (.there j)

/-- 2211-2262 `_M_get_insert_hint_unique_pos`. -/
def hintPos (pos : Nat) (k : κ) (t : BT α) : Meth Nat Pos := do
  if pos = t.size then
    if 0 < t.size then do
      let x ← keyAt key t (t.size - 1)
      if ← ask cmp x k then pure (.below false (t.size - 1)) else uniquePos key cmp k t
    else uniquePos key cmp k t
  else do
    let p ← keyAt key t pos
    if ← ask cmp k p then
      if pos = 0 then pure (.below true 0)
      else do
        let x ← keyAt key t (pos - 1)
        if ← ask cmp x k then (if t.rightLeaf (pos - 1) then pure (.below false (pos - 1)) else pure (.below true pos))
        else uniquePos key cmp k t
    else if ← ask cmp p k then
      if pos = t.size - 1 then pure (.below false (t.size - 1))
      else do
        let x ← keyAt key t (pos + 1)
        if ← ask cmp k x then (if t.rightLeaf pos then pure (.below false pos) else pure (.below true (pos + 1)))
        else uniquePos key cmp k t
    else pure (.there pos)

/-- 1819-1837 `_M_insert_`: the tree, and the number of the new node. -/
def link (v : α) (first : Bool) (y : Nat) (t : BT α) : Meth Nat (BT α × Nat) := do
  if y = t.size then
    if t.isLeaf then pure (B.ins (node true leaf v leaf), 0) else Meth.lift (.ub .badDeref)
  else do
    let left ← (if first then pure true else do ask cmp (key v) (← keyAt key t y))
    let t' ← Meth.lift (hang v left t y)
    pure (B.ins t', if left then y else y + 1)

/-- 2164-2181 `_M_insert_unique`. -/
def insert (v : α) (t : BT α) : Meth Nat (BT α × Bool) := do
  match ← uniquePos key cmp (key v) t with
  | .there _ => pure (t, false)
  | .below first y => do
    let (t', _) ← link key cmp B v first y t
    pure (t', true)

/-- 2272-2288 `_M_insert_unique_`, with a hint. -/
def insertHint (pos : Nat) (v : α) (t : BT α) : Meth Nat (BT α × Nat) := do
  match ← hintPos key cmp pos (key v) t with
  | .there j => pure (t, j)
  | .below first y => link key cmp B v first y t

/-- 1100-1105 `_M_insert_range_unique`: the constructors from a list or range, and `insert(first, last)`. -/
def insertRange : List α → BT α → Meth Nat (BT α)
  | [], t => pure t
  | x :: xs, t => do
    let (t, _) ← insertHint key cmp B t.size x t
    insertRange xs t

/-- Assigning to `std::inserter(tree, pos)` one after the other, bits/stl_iterator.h:966-971. -/
def insertIter : List α → (pos : Nat) → BT α → Meth Nat (BT α)
  | [], _, t => pure t
  | x :: xs, pos, t => do
    let (t, j) ← insertHint key cmp B pos x t
    insertIter xs (j + 1) t

end BT
end Pyincpp
