import Verif.Model.List

/-! # Histories of operations on a `List` -/

namespace Pyincpp

/-- The operations of `List` that change it. -/
inductive LOp (α : Type)
  | insert (index : Int) (e : α)
  | remove (index : Int)
  | append (e : α)
  | extendList (m : List α)
  | extend (m : List α)
  | removeFirst (e : α)
  | removeAll (e : Arg α)
  | rotL (n : Int)
  | rotR (n : Int)
  | reverse
  | erase (start stop : Int)
  | assign (index : Int) (e : α)
  | clear
  | addSelf
  deriving Repr

/-- One operation, with the element it returns if it returns one. -/
def LOp.step {α : Type} [BEq α] (mem : Mem) : LOp α → Meth (List α) (Option α)
  | .insert i e => do Lst.insert i e; pure none
  | .remove i => do pure (some (← Lst.remove i))
  | .append e => do Lst.append e; pure none
  | .extendList m => do Lst.extendList mem (some m); pure none
  | .extend m => do Lst.extend mem (some m); pure none
  | .removeFirst e => do Lst.removeFirst e; pure none
  | .removeAll e => do Lst.removeAll e; pure none
  | .rotL n => do Lst.rotL n; pure none
  | .rotR n => do Lst.rotR n; pure none
  | .reverse => do Lst.reverse; pure none
  | .erase a b => do Lst.erase a b; pure none
  | .assign i e => do Lst.assign i e; pure none
  | .clear => do Lst.clear; pure none
  | .addSelf => do Lst.extendList mem none; pure none

/-- A history: every operation is performed whether or not the one before threw (the caller catches). After
undefined behaviour nothing more is said. -/
def LOp.run {α : Type} [BEq α] (mem : Mem) : List (LOp α) → List α → List (Res (Option α)) × List α
  | [], l => ([], l)
  | op :: ops, l =>
    match op.step mem l with
    | (.ok r, l') => (.ok r :: (LOp.run mem ops l').1, (LOp.run mem ops l').2)
    | (.throw m, l') => (.throw m :: (LOp.run mem ops l').1, (LOp.run mem ops l').2)
    | (.ub u, l') => ([.ub u], l')
    | (.fuel, l') => ([.fuel], l')

end Pyincpp
