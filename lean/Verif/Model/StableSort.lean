import Verif.Model.List

/-! # sources/list.hpp:283-289 `sort`, step by step

`std::stable_sort` as libstdc++ 13 does it (bits/stl_algo.h, line numbers below), for any comparator: it need not be an order, and it may throw or
be undefined for some elements. The elements are moved, and `left x` is what moving leaves of `x`. There is memory for the buffer; it lies behind
the elements of the list in one row of places, so that a place is a number. The comparator is a function of the elements. -/

namespace Pyincpp
namespace StableSort

variable {α : Type} (left : α → α) (cmp : α → α → Res Bool)

/-- Reading a place. -/
def get (i : Nat) : Meth (List α) α := do
  let v ← Meth.get
  Meth.lift (vget v i)

/-- Assigning to a place. -/
def put (i : Nat) (x : α) : Meth (List α) Unit := do
  let v ← Meth.get
  let v ← Meth.lift (vset v i x)
  Meth.set v

/-- `T x = std::move(place i)`. -/
def out (i : Nat) : Meth (List α) α := do
  let x ← get i
  put i (left x)
  pure x

/-- `place i = std::move(place j)`. -/
def move (i j : Nat) : Meth (List α) Unit := do
  let x ← get j
  put i x
  put j (left x)

/-- The comparator on two values. -/
def ask (x y : α) : Meth (List α) Bool := Meth.lift (cmp x y)

/-- `std::move(p, p + n, r)`. -/
def moveRange : (p n r : Nat) → Meth (List α) Unit
  | _, 0, _ => pure ()
  | p, n + 1, r => do
    move left r p
    moveRange (p + 1) n (r + 1)

/-- `std::move_backward(p, p + n, r + n)`. -/
def moveRangeBack (p : Nat) : (n r : Nat) → Meth (List α) Unit
  | 0, _ => pure ()
  | n + 1, r => do
    move left (r + n) (p + n)
    moveRangeBack p n r

/-- 1792-1806 `__unguarded_linear_insert`, with `val` moved out of the place `last`. -/
def linearInsert (val : α) : (last : Nat) → Meth (List α) Unit
  | 0 => Meth.lift (.ub .outOfBounds)
  | last + 1 => do
    let x ← get last
    if ← ask cmp val x then do
      move left (last + 1) last
      linearInsert val last
    else put (last + 1) val

/-- 1821-1829, the body of the loop of `__insertion_sort` from the place `a` on. -/
def insertAt (a i : Nat) : Meth (List α) Unit := do
  let x ← get i
  let f ← get a
  if ← ask cmp x f then do
    let val ← out left i
    moveRangeBack left a (i - a) (a + 1)
    put a val
  else do
    let val ← out left i
    linearInsert left cmp val i

/-- 1819-1829, the loop; `n` places are left. -/
def insertionLoop (a : Nat) : (n i : Nat) → Meth (List α) Unit
  | 0, _ => pure ()
  | n + 1, i => do
    insertAt left cmp a i
    insertionLoop a n (i + 1)

/-- 1812-1830 `__insertion_sort`. -/
def insertionSort (a b : Nat) : Meth (List α) Unit := insertionLoop left cmp a (b - a - 1) (a + 1)

/-- 2700-2710 `__chunk_insertion_sort` with `_S_chunk_size`, which is 7; the first argument bounds the loop. -/
def chunkSort : (k a b : Nat) → Meth (List α) Unit
  | 0, _, _ => Meth.lift .fuel
  | k + 1, a, b =>
    if 7 ≤ b - a then do
      insertionSort left cmp a (a + 7)
      chunkSort k (a + 7) b
    else insertionSort left cmp a b

/-- 2649-2670 `__move_merge` (`rest`), and 2294-2314 `__move_merge_adaptive`, which leaves the rest of the second part where it is. The first
argument bounds the loop. -/
def mergeInto (rest : Bool) : (k p₁ e₁ p₂ e₂ r : Nat) → Meth (List α) Unit
  | 0, _, _, _, _, _ => Meth.lift .fuel
  | k + 1, p₁, e₁, p₂, e₂, r =>
    if p₁ ≠ e₁ ∧ p₂ ≠ e₂ then do
      let y ← get p₂
      let x ← get p₁
      if ← ask cmp y x then do
        move left r p₂
        mergeInto rest k p₁ e₁ (p₂ + 1) e₂ (r + 1)
      else do
        move left r p₁
        mergeInto rest k (p₁ + 1) e₁ p₂ e₂ (r + 1)
    else do
      moveRange left p₁ (e₁ - p₁) r
      if rest then moveRange left p₂ (e₂ - p₂) (r + (e₁ - p₁)) else pure ()

/-- 2675-2695 `__merge_sort_loop`. -/
def mergePass (step : Nat) : (k a b r : Nat) → Meth (List α) Unit
  | 0, _, _, _ => Meth.lift .fuel
  | k + 1, a, b, r =>
    if 2 * step ≤ b - a then do
      mergeInto left cmp true (2 * step + 1) a (a + step) (a + step) (a + 2 * step) r
      mergePass step k (a + 2 * step) b (r + 2 * step)
    else
      let s := min (b - a) step
      mergeInto left cmp true (b - a + 1) a (a + s) (a + s) b r

/-- 2729-2737, the loop of `__merge_sort_with_buffer`. -/
def mergeLoop (a b buf : Nat) : (k step : Nat) → Meth (List α) Unit
  | 0, _ => Meth.lift .fuel
  | k + 1, step =>
    if step < b - a then do
      mergePass left cmp step (b - a + 1) a b buf
      mergePass left cmp (2 * step) (b - a + 1) buf (buf + (b - a)) a
      mergeLoop a b buf k (4 * step)
    else pure ()

/-- 2716-2738 `__merge_sort_with_buffer`. -/
def mergeSort (a b buf : Nat) : Meth (List α) Unit := do
  chunkSort left cmp (b - a + 1) a b
  mergeLoop left cmp a b buf (b - a + 1) 7

/-- 2334-2355, the loop of `__move_merge_adaptive_backward`: `n₁` elements are left at `a`, `n₂` at `buf`. -/
def mergeBack (a buf : Nat) : (k n₁ n₂ r : Nat) → Meth (List α) Unit
  | 0, _, _, _ => Meth.lift .fuel
  | k + 1, n₁, n₂, r => do
    let y ← get (buf + (n₂ - 1))
    let x ← get (a + (n₁ - 1))
    if ← ask cmp y x then do
      move left (r - 1) (a + (n₁ - 1))
      if n₁ = 1 then moveRangeBack left buf n₂ (r - 1 - n₂) else mergeBack a buf k (n₁ - 1) n₂ (r - 1)
    else do
      move left (r - 1) (buf + (n₂ - 1))
      if n₂ = 1 then pure () else mergeBack a buf k n₁ (n₂ - 1) (r - 1)

/-- 2401-2419 `__merge_adaptive` of the first `h` places and the other ones before `n`, with the buffer at `n`. -/
def mergeHalves (h n : Nat) : Meth (List α) Unit :=
  if h ≤ n - h then do
    moveRange left 0 h n
    mergeInto left cmp false (n + 1) n (n + h) h n 0
  else do
    moveRange left h (n - h) n
    if h = 0 then moveRangeBack left n (n - h) h
    else if n - h = 0 then pure ()
    else mergeBack left cmp 0 n (n + 1) h (n - h) n

/-- 2742-2753 `__stable_sort_adaptive`. -/
def halves (n : Nat) : Meth (List α) Unit := do
  mergeSort left cmp 0 ((n + 1) / 2) n
  mergeSort left cmp ((n + 1) / 2) n n
  mergeHalves left cmp ((n + 1) / 2) n

/-- 5023-5052 `__stable_sort`. The places of the buffer are made by moving the first element from one to the next and back. -/
def run (v : List α) : Res Unit × List α :=
  match v with
  | [] => (.ok (), [])
  | x :: _ =>
    let p := halves left cmp v.length (v ++ List.replicate ((v.length + 1) / 2) (left x))
    (p.1, p.2.take v.length)

end StableSort
end Pyincpp
