import Verif.Spec.Set
import Verif.Spec.Dict
import Verif.Spec.Seq

/-! # Containers of the library's own types

The same operations with the elements replaced by other representations of them. -/

namespace Pyincpp

variable {α β K K' V V' : Type}

def SOp.map (f : α → β) : SOp α → SOp β
  | .add e => .add (f e)
  | .remove e => .remove (f e)
  | .pop => .pop
  | .min => .min
  | .max => .max
  | .contains e => .contains (f e)
  | .size => .size
  | .extend xs => .extend (xs.map f)
  | .clear => .clear
  | .inter t => .inter (t.map (List.map f))
  | .union t => .union (t.map (List.map f))
  | .diff t => .diff (t.map (List.map f))
  | .symDiff t => .symDiff (t.map (List.map f))

def SRet.map (f : α → β) : SRet α → SRet β
  | .unit => .unit
  | .bool b => .bool b
  | .elem x => .elem (f x)
  | .int n => .int n

def MOp.map (f : K → K') (g : V → V') : MOp K V → MOp K' V'
  | .add k v => .add (f k) (g v)
  | .remove k => .remove (f k)
  | .assign k v => .assign (f k) (g v)
  | .get k => .get (f k)
  | .getOr k v => .getOr (f k) (g v)
  | .contains k => .contains (f k)
  | .pop => .pop
  | .size => .size
  | .extend xs => .extend (xs.map (Prod.map f g))
  | .clear => .clear

def MRet.map (f : K → K') (g : V → V') : MRet K V → MRet K' V'
  | .unit => .unit
  | .bool b => .bool b
  | .val v => .val (g v)
  | .pair p => .pair (Prod.map f g p)
  | .int n => .int n

def LOp.map (f : α → β) : LOp α → LOp β
  | .insert i e => .insert i (f e)
  | .remove i => .remove i
  | .append e => .append (f e)
  | .extendList m => .extendList (m.map f)
  | .extend m => .extend (m.map f)
  | .removeFirst e => .removeFirst (f e)
  | .removeAll (.val e) => .removeAll (.val (f e))
  | .removeAll (.ref p) => .removeAll (.ref p)
  | .rotL n => .rotL n
  | .rotR n => .rotR n
  | .reverse => .reverse
  | .erase a b => .erase a b
  | .assign i e => .assign i (f e)
  | .clear => .clear
  | .addSelf => .addSelf

/-- The order of two values. -/
def orderOf [LinearOrder α] (a b : α) : Ordering := if a < b then .lt else if b < a then .gt else .eq

/-- What the caller sees of a result, in the other representation. -/
def seenAs {ρ σ : Type} (f : ρ → σ) : Except String ρ → Res σ
  | .ok r => .ok (f r)
  | .error m => .throw m

end Pyincpp
