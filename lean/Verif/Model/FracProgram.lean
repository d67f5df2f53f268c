import Verif.Model.Objects
import Verif.Model.IntProgram

/-! # Programs over `Fraction` variables

As for `Int`: a list of statements on numbered variables, each wrapped in `try { … } catch (…) {}`. -/

namespace Pyincpp

inductive FracOp
  | make (i : Nat) (n d : Int)                  -- v[i] = Fraction(n, d);
  | copy (i j : Nat)                            -- v[i] = v[j];
  | move (i j : Nat)                            -- v[i] = std::move(v[j]);
  | bin (o : Frac.Op) (i j l : Nat)             -- v[i] = v[j] o v[l];
  | assign (o : Frac.Op) (i j : Nat)            -- v[i] o= v[j];
  | inc (i : Nat)                               -- ++v[i];
  | dec (i : Nat)                               -- --v[i];
  | neg (i j : Nat)                             -- v[i] = -v[j];
  | abs (i j : Nat)                             -- v[i] = v[j].abs();
  | gcd (i j l : Nat)                           -- v[i] = Fraction::gcd(v[j], v[l]);
  | lcm (i j l : Nat)                           -- v[i] = Fraction::lcm(v[j], v[l]);
  | less (j l : Nat)                            -- v[j] < v[l];
  deriving DecidableEq, Repr

namespace FracOp

/-- Store the result of a statement; keep the store if it threw. -/
def store (s : Store Frac) (i : Nat) : Res Frac → Res (Store Frac)
  | .ok f => .ok (s.put i f)
  | .throw _ => .ok s
  | .ub u => .ub u
  | .fuel => .fuel

/-- Run a method on one object; an exception is caught. -/
def onObject (s : Store Frac) (i : Nat) (m : Meth Frac Unit) : Res (Store Frac) :=
  match m (s i) with
  | (.ok _, f) => .ok (s.put i f)
  | (.throw _, f) => .ok (s.put i f)
  | (.ub u, _) => .ub u
  | (.fuel, _) => .fuel

/-- One statement. In an assignment with `i = j` the operand is the object itself (fraction.hpp:126-153). -/
def step (k : Nat) (s : Store Frac) : FracOp → Res (Store Frac)
  | .make i n d => store s i (Frac.make n d)
  | .copy i j => .ok (Obj.copy i j s).2
  | .move i j => .ok (Obj.moveFrac i j s).2
  | .bin o i j l => store s i (o.run (s j) (s l))
  | .assign o i j => onObject s i (Frac.assignM o (if i = j then none else some (s j)))
  | .inc i => onObject s i Frac.incM
  | .dec i => onObject s i Frac.decM
  | .neg i j => store s i (Frac.neg (s j))
  | .abs i j => store s i (Frac.abs (s j))
  | .gcd i j l => store s i (Frac.gcd (s j) (s l) k)
  | .lcm i j l => store s i (Frac.lcm (s j) (s l) k)
  | .less j l => do let _ ← Frac.lss (s j) (s l); pure s

def run (k : Nat) : List FracOp → Store Frac → Res (Store Frac)
  | [], s => .ok s
  | o :: os, s => do run k os (← o.step k s)

end FracOp
end Pyincpp
