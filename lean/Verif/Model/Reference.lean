import Verif.Model.Dict

/-! # References into a `Dict`

`dict[key]` (dict.hpp:95-110) and `dict.get(key, defaults)` (dict.hpp:113-116) return references. The pairs of a `std::map` live in nodes
that stay where they are until they are erased; a reference to a value is the number of its node. A node is numbered when it is
made; numbers are not used again. The functions of the dictionary are those of Model/Dict.lean, on values that carry their
number. -/

namespace Pyincpp
namespace PDict

variable {K V : Type}

/-- A dictionary with numbered nodes, and the next number. -/
structure Nodes (K V : Type) where
  d : List (K × Nat × V)
  next : Nat

/-- `defaults` of `get`: an object that lives on, or a temporary, which lives until the end of the full expression. -/
inductive Default (V : Type)
  | object (v : V)
  | temporary (v : V)

/-- What a returned reference refers to. -/
inductive Ref (V : Type)
  | node (c : Nat)
  | default (a : Default V)

variable (lt : K → K → Bool)

/-- dict.hpp:95-104 `operator[]`. -/
def Nodes.at (s : Nodes K V) (k : K) : Res (Ref V) := do
  let p ← get lt s.d k
  pure (.node p.1)

/-- dict.hpp:113-116 `get`. -/
def Nodes.get (s : Nodes K V) (k : K) (a : Default V) : Res (Ref V) :=
  if contains lt s.d k then s.at lt k else .ok (.default a)

/-- Reading the value in the node `c`. -/
def Nodes.readNode (s : Nodes K V) (c : Nat) : Res V :=
  match s.d.find? (fun p => p.2.1 == c) with
  | some p => .ok p.2.2
  | none => .ub .badDeref

/-- Reading through a reference; `later`: after the end of the full expression it was obtained in. -/
def Nodes.read (s : Nodes K V) (later : Bool) : Ref V → Res V
  | .node c => s.readNode c
  | .default (.object v) => .ok v
  | .default (.temporary v) => if later then .ub .badDeref else .ok v

/-- What may be done while a reference is held. -/
inductive ROp (K V : Type)
  | add (k : K) (v : V)
  | remove (k : K)
  | assign (k : K) (v : V)
  | pop
  | extend (xs : List (K × V))
  | clear
  | write (c : Nat) (v : V)

/-- Numbers for the nodes of a range. -/
def number : Nat → List (K × V) → List (K × Nat × V)
  | _, [] => []
  | n, (k, v) :: xs => (k, n, v) :: number (n + 1) xs

/-- The operation on the dictionary with numbered nodes: assigning to `dict[k]`, or through a reference, changes the value in the node. -/
def ROp.mop (s : Nodes K V) : ROp K V → Res (MOp K (Nat × V))
  | .add k v => .ok (.add k (s.next, v))
  | .remove k => .ok (.remove k)
  | .assign k v => do
    let p ← PDict.get lt s.d k
    pure (.assign k (p.1, v))
  | .pop => .ok .pop
  | .extend xs => .ok (.extend (number s.next xs))
  | .clear => .ok .clear
  | .write c v =>
    match s.d.find? (fun p => p.2.1 == c) with
    | some p => .ok (.assign p.1 (c, v))
    | none => .ub .badDeref

/-- How many numbers an operation uses up. -/
def ROp.uses : ROp K V → Nat
  | .add _ _ => 1
  | .extend xs => xs.length
  | _ => 0

/-- One operation. -/
def ROp.step (op : ROp K V) (s : Nodes K V) : Res Unit × Nodes K V :=
  match op.mop lt s with
  | .ok m =>
    match m.step lt s.d with
    | (.ok _, d) => (.ok (), ⟨d, s.next + op.uses⟩)
    | (.throw e, d) => (.throw e, ⟨d, s.next + op.uses⟩)
    | (.ub u, d) => (.ub u, ⟨d, s.next + op.uses⟩)
    | (.fuel, d) => (.fuel, ⟨d, s.next + op.uses⟩)
  | .throw e => (.throw e, s)
  | .ub u => (.ub u, s)
  | .fuel => (.fuel, s)

/-- Operations one after the other, exceptions caught; `none` if one of them is undefined. -/
def ROp.run : List (ROp K V) → Nodes K V → Option (Nodes K V)
  | [], s => some s
  | op :: ops, s =>
    match op.step lt s with
    | (.ok _, s') => ROp.run ops s'
    | (.throw _, s') => ROp.run ops s'
    | _ => none

end PDict
end Pyincpp
