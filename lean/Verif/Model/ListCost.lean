import Verif.Model.ListRef

/-! # sources/list.hpp: what the functions of `List` cost

The functions of Model/List.lean that call `==` again, with the number of calls, and the number of elements a `std::vector` writes when it
changes: moved, copied or constructed in place. That the functions are otherwise the same is proved (`C112_same`). -/

namespace Pyincpp
namespace Lst

variable {α : Type}

/-- `std::find` over a whole vector: the position, and the calls of `==`. -/
def findC [BEq α] (e : α) : List α → Nat × Nat
  | [] => (0, 0)
  | x :: t => if x == e then (0, 1) else ((findC e t).1 + 1, (findC e t).2 + 1)

/-- list.hpp:141-144 `count`, with `std::count`. -/
def countC [BEq α] (e : α) : List α → Nat × Nat
  | [] => (0, 0)
  | x :: t => ((countC e t).1 + (if x == e then 1 else 0), (countC e t).2 + 1)

/-- list.hpp:196-204 `operator-=`, for any element: the list left, the calls of `==`, and the elements `erase` moves. -/
def removeFirstC [BEq α] (e : α) (l : List α) : List α × Nat × Nat :=
  let p := findC e l
  if p.1 ≠ l.length then (l.take p.1 ++ l.drop (p.1 + 1), p.2, l.length - (p.1 + 1)) else (l, p.2, 0)

/-- `std::remove` behind the first occurrence, for an element outside the list: the elements left, the calls of `==`, and the elements moved. -/
def shiftC [BEq α] (e : α) : List α → List α × Nat × Nat
  | [] => ([], 0, 0)
  | x :: t =>
    if x == e then ((shiftC e t).1, (shiftC e t).2.1 + 1, (shiftC e t).2.2)
    else (x :: (shiftC e t).1, (shiftC e t).2.1 + 1, (shiftC e t).2.2 + 1)

/-- list.hpp:213-218 `operator/=`, for an element outside the list. -/
def removeAllC [BEq α] (e : α) (l : List α) : List α × Nat × Nat :=
  let p := findC e l
  let r := shiftC e (l.drop (p.1 + 1))
  (l.take p.1 ++ r.1, p.2 + r.2.1, r.2.2)

/-- list.hpp:269-275, the loop of `uniquify`: the buffer, and the calls of `==`. -/
def uniquifyC [BEq α] : List α → List α → List α × Nat
  | [], buffer => (buffer, 0)
  | e :: es, buffer =>
    let p := findC e buffer
    let r := uniquifyC es (if p.1 = buffer.length then buffer ++ [e] else buffer)
    (r.1, p.2 + r.2)

/-- The elements a vector with room for `cap` writes when `m` elements are inserted at the place `p`: all of them if it needs another
buffer, otherwise the new ones and those behind. -/
def insertWrites (l : List α) (cap p m : Nat) : Nat :=
  if l.length + m ≤ cap then m + (l.length - p) else l.length + m

/-- Appending one element: list.hpp:176-183. The elements written, and the vector afterwards. -/
def appendC (grow : Nat → Nat → Nat) (e : α) (s : List α × Nat) : Nat × List α × Nat :=
  (insertWrites s.1 s.2 s.1.length 1, s.1 ++ [e], if s.1.length + 1 ≤ s.2 then s.2 else grow s.2 (s.1.length + 1))

/-- Inserting one element in front: list.hpp:152-159 with the index 0. -/
def prependC (grow : Nat → Nat → Nat) (e : α) (s : List α × Nat) : Nat × List α × Nat :=
  (insertWrites s.1 s.2 0 1, e :: s.1, if s.1.length + 1 ≤ s.2 then s.2 else grow s.2 (s.1.length + 1))

/-- Several of them: the elements written in all, and the vector afterwards. -/
def allC (f : α → List α × Nat → Nat × List α × Nat) : List α → List α × Nat → Nat × List α × Nat
  | [], s => (0, s)
  | e :: es, s => let r := allC f es (f e s).2; ((f e s).1 + r.1, r.2)

end Lst
end Pyincpp
