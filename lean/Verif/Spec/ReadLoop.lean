import Verif.Model.Stream

/-! # Programs that read several values from one stream

These are not parts of the library but of programs that use it. -/

namespace Pyincpp

variable {σ α : Type}

/-- `while (is >> x) v.push_back(x);` -/
def readWhile (input : Meth (σ × IStream) Unit) (out : σ → α) : Nat → List α → Meth (σ × IStream) (List α)
  | 0, _ => Meth.lift .fuel
  | n + 1, v => do
    input
    let p ← Meth.get
    if p.2.fail then pure v else readWhile input out n (v ++ [out p.1])

/-- `for (int i = 0; i < n; i++) { is >> x; v.push_back(x); }` -/
def readN (input : Meth (σ × IStream) Unit) (out : σ → α) : Nat → List α → Meth (σ × IStream) (List α)
  | 0, v => pure v
  | n + 1, v => do
    input
    let p ← Meth.get
    readN input out n (v ++ [out p.1])

/-- The texts of the items, each with some characters in front of it, then `rest`. -/
def column (text : α → List UInt8) (items : List (List UInt8 × α)) (rest : List UInt8) : List UInt8 :=
  items.flatMap (fun p => p.1 ++ text p.2) ++ rest

/-- What stands in front of the items is blank; only the first one may have nothing in front of it. -/
def Separated (blank : UInt8 → Prop) (items : List (List UInt8 × α)) : Prop :=
  (∀ p ∈ items, ∀ c ∈ p.1, blank c) ∧ ∀ p ∈ items.tail, p.1 ≠ []

end Pyincpp
