import Verif.Model.Int

/-! # Programs over `Int` variables

A program is a list of statements; variables are numbered. Every statement is wrapped in `try { … } catch (…) {}`,
so a statement that throws leaves the variables as they were (that the operators do so is `C61_int_*`). -/

namespace Pyincpp

inductive IntBin | add | sub | mul | div | mod
  deriving DecidableEq, Repr

inductive IntOp
  | lit (i : Nat) (t : List UInt8)              -- v[i] = Int("…");
  | int (i : Nat) (n : Int)                     -- v[i] = Int(n);
  | copy (i j : Nat)                            -- v[i] = v[j];
  | move (i j : Nat)                            -- v[i] = std::move(v[j]);
  | bin (o : IntBin) (i j l : Nat)              -- v[i] = v[j] o v[l];
  | assign (o : IntBin) (i j : Nat)             -- v[i] o= v[j];
  | inc (i : Nat)                               -- ++v[i];
  | dec (i : Nat)                               -- --v[i];
  | neg (i j : Nat)                             -- v[i] = -v[j];
  | abs (i j : Nat)                             -- v[i] = v[j].abs();
  deriving DecidableEq, Repr

def upd {α : Type} (σ : Nat → α) (i : Nat) (a : α) : Nat → α := fun j => if j = i then a else σ j

/-- The five binary operators (int.hpp:598-625). -/
def IntBin.run (mem : Mem) (k : Nat) : IntBin → BInt → BInt → Res BInt
  | .add, x, y => BInt.add mem k x y
  | .sub, x, y => BInt.sub mem k x y
  | .mul, x, y => BInt.mul x y
  | .div, x, y => BInt.div mem k x y
  | .mod, x, y => BInt.mod mem k x y

/-- The five compound assignments (int.hpp:339-539); `self` = both operands are the same object. -/
def IntBin.runAssign (mem : Mem) (k : Nat) (self : Bool) : IntBin → BInt → BInt → Res BInt
  | .add, x, y => BInt.addAssign mem self k x y
  | .sub, x, y => BInt.subAssign mem k x y
  | .mul, x, y => BInt.mulAssign x y
  | .div, x, y => BInt.divAssign mem k x y
  | .mod, x, y => BInt.modAssign mem k x y

/-- Store the result of a statement; keep the store if it threw. -/
def store (σ : Nat → BInt) (i : Nat) : Res BInt → Res (Nat → BInt)
  | .ok b => .ok (upd σ i b)
  | .throw _ => .ok σ
  | .ub u => .ub u
  | .fuel => .fuel

def IntOp.step (mem : Mem) (k : Nat) (σ : Nat → BInt) : IntOp → Res (Nat → BInt)
  | .lit i t => store σ i (BInt.ofChars t)
  | .int i n => store σ i (BInt.ofInt n)
  | .copy i j => .ok (upd σ i (σ j))
  | .move i j => .ok (upd (upd σ i (BInt.move (σ j)).1) j (BInt.move (σ j)).2)
  | .bin o i j l => store σ i (o.run mem k (σ j) (σ l))
  | .assign o i j => store σ i (o.runAssign mem k (i == j) (σ i) (σ j))
  | .inc i => store σ i (BInt.inc (σ i))
  | .dec i => store σ i (BInt.dec (σ i))
  | .neg i j => .ok (upd σ i (BInt.neg (σ j)))
  | .abs i j => .ok (upd σ i (BInt.abs (σ j)))

def IntOp.run (mem : Mem) (k : Nat) : List IntOp → (Nat → BInt) → Res (Nat → BInt)
  | [], σ => .ok σ
  | o :: os, σ => do IntOp.run mem k os (← o.step mem k σ)

end Pyincpp
