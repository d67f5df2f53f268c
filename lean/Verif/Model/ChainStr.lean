import Verif.Model.Chain
import Verif.Model.Str

/-! # Chains of calls on `Str`

`Str("…").strip().lower().slice(0, 2)` and the like. -/

namespace Pyincpp

/-- The members of `Str` that return a string. -/
inductive StCall
  | shr (n : Int) | shl (n : Int) | reverse | lower | upper | erase (start stop : Int) | replace (old new : List UInt8) | strip (ch : Int)
  | slice (start stop step : Int) | plusChar (c : UInt8) | plus (t : List UInt8) | mul (n : Int) | join (l : List (List UInt8))
  | format (args : List (List UInt8))

/-- str.hpp:471-717: all of them return `Str`, none of them changes the object. -/
def StCall.call (mem : Mem) (k : Nat) : StCall → Call (List UInt8)
  | .shr n => .fresh (fun s => Str.shr s n)
  | .shl n => .fresh (fun s => Str.shl s n)
  | .reverse => .fresh Str.reverse
  | .lower => .fresh (fun s => .ok (Str.lower s))
  | .upper => .fresh (fun s => .ok (Str.upper s))
  | .erase a b => .fresh (fun s => Str.erase s a b)
  | .replace old new => .fresh (fun s => Str.replace k s old new)
  | .strip ch => .fresh (fun s => Str.strip mem s ch)
  | .slice a b c => .fresh (fun s => Str.slice k s a b c)
  | .plusChar c => .fresh (fun s => .ok (Str.plusChar s c))
  | .plus t => .fresh (fun s => .ok (Str.plus s t))
  | .mul n => .fresh (fun s => Str.mul s n)
  | .join l => .fresh (fun s => Str.join s l)
  | .format args => .fresh (fun s => .ok (Str.format s args))

end Pyincpp
