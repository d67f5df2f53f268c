import Verif.Spec.PythonStr

/-! # What Python does: lists, dictionaries and sets

From the Python library reference, version 3.12. -/

namespace Pyincpp
namespace Py

/-- `l.insert(i, e)`: an index out of range is moved into it. -/
def insert {α : Type} (l : List α) (i : ℤ) (e : α) : List α := l.insertIdx (clip l.length 1 i).toNat e

/-- The places that `l.index(e, start, stop)` looks at. -/
def Inside (n : ℕ) (start stop : ℤ) (i : ℕ) : Prop := clip n 1 start ≤ i ∧ (i : ℤ) < clip n 1 stop

/-- `l.index(e, start, stop) == i`. If there is no such `i` Python raises `ValueError`. -/
def Index {α : Type} (l : List α) (e : α) (start stop : ℤ) (i : ℕ) : Prop :=
  Inside l.length start stop i ∧ l[i]? = some e ∧ ∀ j, Inside l.length start stop j → j < i → l[j]? ≠ some e

/-- `d[k] = v`, `p` being the pair of both, on a dictionary given by its pairs in the order of iteration: a key that is there keeps its place. -/
def setItem {K V : Type} [DecidableEq K] (d : List (K × V)) (p : K × V) : List (K × V) :=
  if p.1 ∈ d.map Prod.fst then d.map (fun q => if q.1 = p.1 then p else q) else d ++ [p]

/-- `d.update(xs)`; from the empty dictionary also `dict(xs)` and `{k: v, ...}`. -/
def update {K V : Type} [DecidableEq K] (d xs : List (K × V)) : List (K × V) := xs.foldl setItem d

/-- `repr` of a set, given by its elements in the order of iteration. -/
def reprSet {α : Type} (shown : α → List UInt8) : List α → List UInt8
  | [] => [115, 101, 116, 40, 41]
  | l => 123 :: glue [44, 32] (l.map shown) ++ [125]

end Py
end Pyincpp
