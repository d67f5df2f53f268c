import Verif.Model.Chain
import Verif.Model.Set
import Verif.Model.Deque

/-! # Chains of calls on `Set` and `Deque`

`(Set{1, 2} |= a) - b`, `Deque{1, 2, 3}.reverse() <<= 1` and the like. -/

namespace Pyincpp

inductive SetBin | inter | union | diff | symDiff
  deriving DecidableEq, Repr

/-- The members of `Set` that return a set, with an operand that is another object: the compound assignments and the operators. -/
inductive SCall (α : Type)
  | assign (o : SetBin) (t : List α)
  | bin (o : SetBin) (t : List α)

/-- set.hpp:182-206 return `Set&`, which is `*this`; set.hpp:227-259 return `Set`. -/
def SCall.call {α : Type} (lt : α → α → Bool) : SCall α → Call (List α)
  | .assign .inter t => .self (PSet.interAssign lt (some t))
  | .assign .union t => .self (PSet.unionAssign lt (some t))
  | .assign .diff t => .self (PSet.diffAssign lt (some t))
  | .assign .symDiff t => .self (PSet.symDiffAssign lt (some t))
  | .bin .inter t => .fresh (fun s => .ok (PSet.inter lt s t))
  | .bin .union t => .fresh (fun s => .ok (PSet.union lt s t))
  | .bin .diff t => .fresh (fun s => .ok (PSet.diff lt s t))
  | .bin .symDiff t => .fresh (fun s => .ok (PSet.symDiff lt s t))

/-- The members of `Deque` that return a deque. -/
inductive DCall
  | rotR (n : Int) | rotL (n : Int) | reverse

/-- deque.hpp:205-246 return `Deque&`, which is `*this`; there is no member that returns `Deque`. -/
def DCall.call {α : Type} : DCall → Call (List α)
  | .rotR n => .self (Dq.rotR n)
  | .rotL n => .self (Dq.rotL n)
  | .reverse => .self Dq.reverse

end Pyincpp
