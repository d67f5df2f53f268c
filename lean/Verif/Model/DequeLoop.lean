import Verif.Model.DequeRef

/-! # Loops over a `Deque` that is changed

`begin()` and `end()` (deque.hpp:62-72) return iterators of the `std::deque`. The standard is stricter about them than about references (Model/DequeRef.lean):
inserting at either end loses all iterators, although it loses no reference. Erasing the last element loses the end as well. An iterator
is the number of a place together with `age`, which counts the insertions; the end is `age` and `tail`, which counts how often the end was lost otherwise.
`clear()` loses the end (the standard says it may). Inserting an empty range is not an insertion. Using an iterator that is lost, even for
comparing, is undefined. In the bodies exceptions are caught; a body that is itself undefined ends the loop with `outOfBounds`, whatever it was. -/

namespace Pyincpp
namespace Dq

variable {α : Type}

/-- A deque with what the validity of iterators depends on. -/
structure Iters (α : Type) where
  c : Cells α
  age : Nat
  tail : Nat

/-- An iterator. -/
inductive It
  | node (c age : Nat)
  | last (age tail : Nat)
  deriving DecidableEq, Repr

/-- deque.hpp:68-72 `end`. -/
def Iters.end (s : Iters α) : It := .last s.age s.tail

/-- The iterator to the first place of a range that reaches to the end. -/
def Iters.first (s : Iters α) : List (Nat × α) → It
  | [] => s.end
  | p :: _ => .node p.1 s.age

/-- deque.hpp:62-66 `begin`. -/
def Iters.begin (s : Iters α) : It := s.first s.c.d

/-- `*it`. -/
def Iters.deref (s : Iters α) : It → Res α
  | .node c a => if a = s.age then s.c.read c else .ub .badDeref
  | .last _ _ => .ub .badDeref

/-- The iterator behind the place `c`. -/
def Iters.behind (s : Iters α) (c : Nat) : List (Nat × α) → Res It
  | [] => .ub .badDeref
  | p :: ps => if p.1 == c then .ok (s.first ps) else s.behind c ps

/-- `++it`. -/
def Iters.inc (s : Iters α) : It → Res It
  | .node c a => if a = s.age then s.behind c s.c.d else .ub .badDeref
  | .last _ _ => .ub .badRange

/-- Whether the operation, from `d` to `d'`, inserts. -/
def inserts (d d' : List (Nat × α)) : Bool := d.length < d'.length

/-- Whether the operation, from `d` to `d'`, erases the last element. -/
def losesEnd (d d' : List (Nat × α)) : DOp α → Bool
  | .popBack => d'.length < d.length
  | .popFront => d'.length < d.length && d'.isEmpty
  | .clear => true
  | _ => false

/-- One operation. -/
def Iters.step (s : Iters α) (op : DOp α) : Res Unit × Iters α :=
  let r := s.c.step op
  (r.1, ⟨r.2, if inserts s.c.d r.2.d then s.age + 1 else s.age, if losesEnd s.c.d r.2.d op then s.tail + 1 else s.tail⟩)

/-- Operations one after the other, exceptions caught. -/
def Iters.exec : List (DOp α) → Iters α → Res (Iters α)
  | [], s => .ok s
  | op :: ops, s =>
    match s.step op with
    | (.ok _, s') => Iters.exec ops s'
    | (.throw _, s') => Iters.exec ops s'
    | _ => .ub .outOfBounds

/-- `for (int i = 0; i < d.size(); i++) body(d[i]);` from `i` on. `v` are the elements visited so far. -/
def Iters.indexLoop (body : α → List (DOp α)) : Nat → Int → Iters α → List α → Res (List α × Iters α)
  | 0, _, _, _ => .fuel
  | k + 1, i, s, v =>
    if i < size s.c.d then do
      let x ← s.c.read (← s.c.at i)
      let s' ← Iters.exec (body x) s
      Iters.indexLoop body k (← iadd i 1) s' (v ++ [x])
    else .ok (v, s)

/-- `for (auto it = d.begin(); it != d.end(); ++it) body(*it);` from `it` on; `it` is not lost. -/
def Iters.iterLoop (body : α → List (DOp α)) : Nat → It → Iters α → List α → Res (List α × Iters α)
  | 0, _, _, _ => .fuel
  | k + 1, it, s, v =>
    if it = s.end then .ok (v, s)
    else do
      let x ← s.deref it
      let s' ← Iters.exec (body x) s
      Iters.iterLoop body k (← s'.inc it) s' (v ++ [x])

/-- `for (const auto& x : d) body(x);`: the same with `last`, the end at the beginning of the loop. -/
def Iters.rangeLoop (body : α → List (DOp α)) (last : It) : Nat → It → Iters α → List α → Res (List α × Iters α)
  | 0, _, _, _ => .fuel
  | k + 1, it, s, v =>
    if s.end ≠ last then .ub .badDeref
    else if it = last then .ok (v, s)
    else do
      let x ← s.deref it
      let s' ← Iters.exec (body x) s
      Iters.rangeLoop body last k (← s'.inc it) s' (v ++ [x])

/-- Operations on the contents, exceptions caught. -/
def exec : List (DOp α) → List α → Res (List α)
  | [], d => .ok d
  | op :: ops, d =>
    match op.step d with
    | (.ok _, d') => exec ops d'
    | (.throw _, d') => exec ops d'
    | _ => .ub .outOfBounds

/-- Going on with what a call returns; an exception leaves the loop. -/
def andThen {β : Type} (r : Res α × List α) (f : α → List α → Res β) : Res β :=
  match r with
  | (.ok x, d) => f x d
  | (.throw m, _) => .throw m
  | (.ub u, _) => .ub u
  | (.fuel, _) => .fuel

/-- `while (!d.is_empty()) { T x = d.pop_front(); body(x); }` (deque.hpp:143-146, 181-188). -/
def queueLoop (body : α → List (DOp α)) : Nat → List α → List α → Res (List α × List α)
  | 0, _, _ => .fuel
  | k + 1, d, v =>
    if isEmpty d then .ok (v, d)
    else andThen (popFront d) fun x d' => do queueLoop body k (← exec (body x) d') (v ++ [x])

/-- `while (!d.is_empty()) { T x = d.pop_back(); body(x); }` (deque.hpp:143-146, 170-177). -/
def stackLoop (body : α → List (DOp α)) : Nat → List α → List α → Res (List α × List α)
  | 0, _, _ => .fuel
  | k + 1, d, v =>
    if isEmpty d then .ok (v, d)
    else andThen (popBack d) fun x d' => do stackLoop body k (← exec (body x) d') (v ++ [x])

end Dq
end Pyincpp
