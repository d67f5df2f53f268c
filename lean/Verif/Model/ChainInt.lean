import Verif.Model.Chain
import Verif.Model.IntMethods

/-! # Chains of calls on `Int`

`((Int(7) += 5) *= 2) - 3` and the like. -/

namespace Pyincpp

/-- The members of `Int` that return an `Int`, with operands that are other objects. -/
inductive ICall
  | assign (o : IntBin) (y : BInt) | inc | dec | bin (o : IntBin) (y : BInt) | pos | neg | abs

/-- `operator++` (int.hpp:542-555) and `operator--` (int.hpp:558-571) on an object. They do not throw. -/
def BInt.stepM (f : BInt → Res BInt) : Meth BInt Unit := do
  let x ← Meth.get
  let r ← Meth.lift (f x)
  Meth.set r

/-- int.hpp:339-571 return `Int&`, which is `*this`; int.hpp:578-625 return `Int`. -/
def ICall.call (mem : Mem) (k : Nat) : ICall → Call BInt
  | .assign o y => .self (BInt.assignM mem k false o y)
  | .inc => .self (BInt.stepM BInt.inc)
  | .dec => .self (BInt.stepM BInt.dec)
  | .bin o y => .fresh (fun x => o.run mem k x y)
  | .pos => .fresh (fun x => .ok x.pos)
  | .neg => .fresh (fun x => .ok x.neg)
  | .abs => .fresh (fun x => .ok x.abs)

end Pyincpp
