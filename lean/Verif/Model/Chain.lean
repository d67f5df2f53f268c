import Verif.Model.List

/-! # Chains of calls, temporary objects and references

`List(…).sort().slice(0, 2)[0]` and the like, for the members of `List` that return `*this` (list.hpp:176-319), those that return a
new object (list.hpp:340-405) and `operator[]` (list.hpp:90-102). An object is named by the order in which it was made. A temporary
is destroyed at the end of the full expression, unless the expression as a whole is that temporary and a reference is bound to it
[class.temporary]. -/

namespace Pyincpp

/-- The objects made so far; `none` is one that has been destroyed. -/
abbrev Heap (α : Type) := List (Option α)

namespace Heap

variable {α : Type}

/-- Reads the object `i`. -/
def read (h : Heap α) (i : Nat) : Res α :=
  match h[i]? with
  | some (some v) => .ok v
  | _ => .ub .badDeref

/-- Ends the lifetime of the objects in `is`. -/
def destroy (h : Heap α) (is : List Nat) : Heap α := is.foldl (fun h i => h.set i none) h

end Heap

/-- A member function: one that changes the object and returns `*this`, or one that leaves it and returns a new object. -/
inductive Call (α : Type)
  | self (m : Meth α Unit)
  | fresh (f : α → Res α)

/-- What the chain begins with: a variable, or a temporary. -/
inductive Root (α : Type)
  | var (i : Nat)
  | temp (v : α)

/-- In the middle of a full expression: the objects, the one reached, the temporaries, and whether the expression so far is a
temporary itself rather than a reference (a prvalue). -/
structure Chain (α : Type) where
  heap : Heap α
  cur : Nat
  temps : List Nat
  prvalue : Bool

namespace Chain

variable {α β : Type}

/-- The beginning of the chain. -/
def start (h : Heap α) : Root α → Chain α
  | .var i => ⟨h, i, [], false⟩
  | .temp v => ⟨h ++ [some v], h.length, [h.length], true⟩

/-- One call. -/
def step (c : Chain α) : Call α → Res (Chain α)
  | .self m => do
    let v ← c.heap.read c.cur
    match m v with
    | (.ok _, v') => .ok { c with heap := c.heap.set c.cur (some v'), prvalue := false }
    | (.throw msg, _) => .throw msg
    | (.ub u, _) => .ub u
    | (.fuel, _) => .fuel
  | .fresh f => do
    let v ← c.heap.read c.cur
    let v' ← f v
    .ok ⟨c.heap ++ [some v'], c.heap.length, c.heap.length :: c.temps, true⟩

/-- All calls. -/
def calls (c : Chain α) : List (Call α) → Res (Chain α)
  | [] => .ok c
  | k :: ks => do (← c.step k).calls ks

/-- `auto x = …;`: the objects afterwards; the last one is `x`. -/
def copy (h : Heap α) (r : Root α) (ks : List (Call α)) : Res (Heap α) := do
  let c ← (start h r).calls ks
  let v ← c.heap.read c.cur
  .ok (c.heap.destroy c.temps ++ [some v])

/-- `auto&& x = …;`: the objects afterwards, and the one `x` refers to. -/
def bind (h : Heap α) (r : Root α) (ks : List (Call α)) : Res (Heap α × Nat) := do
  let c ← (start h r).calls ks
  .ok (c.heap.destroy (if c.prvalue then c.temps.erase c.cur else c.temps), c.cur)

/-- `use(…[index])`: `g` is `operator[]` or any other function of the object reached. -/
def use (h : Heap α) (r : Root α) (ks : List (Call α)) (g : α → Res β) : Res β := do
  let c ← (start h r).calls ks
  g (← c.heap.read c.cur)

/-- `auto& e = …[index]; use(e);`: the reference is to a part `g` of the object reached, which is read after the declaration. A
function has returned it, so that no temporary lives on. -/
def bindPart (h : Heap α) (r : Root α) (ks : List (Call α)) (g : α → Res β) : Res β := do
  let c ← (start h r).calls ks
  let _ ← g (← c.heap.read c.cur)
  g (← (c.heap.destroy c.temps).read c.cur)

/-- `for (x : …) …` reads the range through `auto&& range = …;`, in C++20 after the temporaries are gone [stmt.ranged]. -/
def loop (h : Heap (List α)) (r : Root (List α)) (ks : List (Call (List α))) : Res (List α) := do
  let p ← bind h r ks
  p.1.read p.2

end Chain

/-- The members of `List` that return a list. -/
inductive LCall (α : Type)
  | append (e : α) | extendList (m : List α) | removeFirst (e : α) | mulAssign (n : Int) | removeAll (e : α) | rotR (n : Int)
  | rotL (n : Int) | reverse | uniquify | sort (lt : α → α → Bool) | erase (start stop : Int) | filter (p : α → Bool)
  | slice (start stop step : Int) | plusElem (e : α) | plusList (m : List α) | minus (e : α) | mul (n : Int) | divide (e : α)

/-- list.hpp:176-319 return `List&`, which is `*this`; list.hpp:340-405 return `List`. (`map` with its action is left out.) `k` bounds
the loop of `slice`. -/
def LCall.call {α : Type} [BEq α] [Inhabited α] (mem : Mem) (k : Nat) : LCall α → Call (List α)
  | .append e => .self (Lst.append e)
  | .extendList m => .self (Lst.extendList mem (some m))
  | .removeFirst e => .self (Lst.removeFirst e)
  | .mulAssign n => .self (Lst.mulAssign n)
  | .removeAll e => .self (Lst.removeAll (.val e))
  | .rotR n => .self (Lst.rotR n)
  | .rotL n => .self (Lst.rotL n)
  | .reverse => .self Lst.reverse
  | .uniquify => .self Lst.uniquify
  | .sort lt => .self (Lst.sort lt)
  | .erase a b => .self (Lst.erase a b)
  | .filter p => .self (Lst.filter mem p)
  | .slice a b c => .fresh (fun l => Lst.slice k l a b c)
  | .plusElem e => .fresh (fun l => Lst.plusElem l e)
  | .plusList m => .fresh (fun l => Lst.plusList mem l m)
  | .minus e => .fresh (fun l => Lst.minus l e)
  | .mul n => .fresh (fun l => Lst.mul l n)
  | .divide e => .fresh (fun l => Lst.divide l e)

end Pyincpp
