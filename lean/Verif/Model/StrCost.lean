import Verif.Model.Str
import Verif.Model.IntCost

/-! # sources/str.hpp: what searching costs

The functions of Model/Str.lean that search, again, with the number of characters they look at: those that `traits::find` passes, and those that
`traits::compare` compares up to the first difference, as `std::string_view::find` of libstdc++ 13 calls them (bits/string_view.tcc:45-76). That the
functions are otherwise the same is proved (`C115_same`). `to_integer` has the counts of Model/IntCost.lean. -/

namespace Pyincpp

/-- The characters looked at: those that `traits::find` passes, and those that `traits::compare` compares. -/
structure Looked where
  passed : Nat
  compared : Nat
  deriving DecidableEq, Repr

instance : Add Looked := ⟨fun a b => ⟨a.passed + b.passed, a.compared + b.compared⟩⟩

namespace Str

/-- `traits::compare`, up to the first difference. -/
def compareC : List UInt8 → List UInt8 → Nat
  | a :: p, b :: s => 1 + (if a = b then compareC p s else 0)
  | _, _ => 0

/-- `std::string_view::find`. -/
def searchC (p : List UInt8) : List UInt8 → Option Nat × Looked
  | [] => (if p.isEmpty then some 0 else none, ⟨0, 0⟩)
  | c :: cs =>
    if p.isEmpty then (some 0, ⟨0, 0⟩)
    else if (c :: cs).length < p.length then (none, ⟨0, 0⟩)
    else if p.head? ≠ some c then ((searchC p cs).1.map (· + 1), ⟨1, 0⟩ + (searchC p cs).2)
    else if p.isPrefixOf (c :: cs) then (some 0, ⟨1, compareC p (c :: cs)⟩)
    else ((searchC p cs).1.map (· + 1), ⟨1, compareC p (c :: cs)⟩ + (searchC p cs).2)

/-- str.hpp:225-237 `find`. -/
def findC (s p : List UInt8) (start : Int := 0) (stop : Int := INT_MAX) : Res (Int × Looked) :=
  if start > size s then .ok (-1, ⟨0, 0⟩)
  else do
    let stop := if stop > size s then size s else stop
    let v ← view s start (← isub stop start)
    match searchC p v with
    | (none, n) => pure (-1, n)
    | (some pos, n) => pure (← iadd start (wrap32 pos), n)

/-- str.hpp:254-257, the loop of `count`; `n` characters were looked at. -/
def countLoopC (s p : List UInt8) : Nat → Int → Int → Looked → Res (Int × Looked)
  | 0, _, _, _ => .fuel
  | k + 1, start, cnt, n => do
    let (start, m) ← findC s p start
    if start = -1 then pure (cnt, n + m)
    else do countLoopC s p k (← iadd start (size p)) (← iadd cnt 1) (n + m)

/-- str.hpp:246-260 `count`. -/
def countC (k : Nat) (s p : List UInt8) : Res (Int × Looked) := do
  if isEmpty p then pure (← iadd (size s) 1, ⟨0, 0⟩) else countLoopC s p k 0 0 ⟨0, 0⟩

/-- str.hpp:566-570, the loop of `replace`. -/
def replaceLoopC (s old new : List UInt8) : Nat → Int → List UInt8 → Looked → Res ((Int × List UInt8) × Looked)
  | 0, _, _, _ => .fuel
  | k + 1, thisStart, buffer, n => do
    let (pattStart, m) ← findC s old thisStart
    if pattStart = -1 then pure ((thisStart, buffer), n + m)
    else do
      let sub ← substr s thisStart (← isub pattStart thisStart)
      replaceLoopC s old new k (← iadd pattStart (size old)) (buffer ++ (sub ++ new)) (n + m)

/-- str.hpp:555-573 `replace`. -/
def replaceC (k : Nat) (s old new : List UInt8) : Res (List UInt8 × Looked) := do
  if isEmpty old then pure (new ++ s.flatMap (fun c => c :: new.takeWhile (· != 0)), ⟨0, 0⟩)
  else
    let ((thisStart, buffer), n) ← replaceLoopC s old new k 0 [] ⟨0, 0⟩
    let sub ← substr s thisStart (-1)
    pure (buffer ++ sub, n)

/-- str.hpp:671-678, the loop of `split`. -/
def splitLoopC (s sep : List UInt8) (keepEmpty : Bool) : Nat → Int → List (List UInt8) → Looked → Res ((Int × List (List UInt8)) × Looked)
  | 0, _, _, _ => .fuel
  | k + 1, thisStart, strList, n => do
    let (pattStart, m) ← findC s sep thisStart
    if pattStart = -1 then pure ((thisStart, strList), n + m)
    else if !keepEmpty && pattStart == thisStart then
      splitLoopC s sep keepEmpty k (← iadd pattStart (size sep)) strList (n + m)
    else do
      let sub ← substr s thisStart (← isub pattStart thisStart)
      let strList ← Lst.onCopy (Lst.append sub) strList
      splitLoopC s sep keepEmpty k (← iadd pattStart (size sep)) strList (n + m)

/-- str.hpp:662-685 `split`. -/
def splitC (k : Nat) (s sep : List UInt8) (keepEmpty : Bool := false) : Res (List (List UInt8) × Looked) := do
  if isEmpty sep then .throw "Error: Empty separator."
  else
    let ((thisStart, strList), n) ← splitLoopC s sep keepEmpty k 0 [] ⟨0, 0⟩
    if keepEmpty || thisStart != size s then do
      let sub ← substr s thisStart (-1)
      pure (← Lst.onCopy (Lst.append sub) strList, n)
    else pure (strList, n)

/-! ## Numbers -/

/-- str.hpp:431 `integer * base + char_to_integer(…)`. Each operator copies its left operand, and the reference that the compound assignment
returns. -/
def timesPlusS (mem : Mem) (k : Nat) (base : Int) (integer : BInt) (c : UInt8) : Steps BInt := do
  let b ← Steps.lift (BInt.ofInt base)
  let p ← BInt.mulAssignS (← BInt.copyS integer) b
  let p ← BInt.copyS p
  let d ← Steps.lift (charToInteger c base)
  let d ← Steps.lift (BInt.ofInt d)
  let r ← BInt.addAssignS mem false k (← BInt.copyS p) d
  BInt.copyS r

/-- str.hpp:414-446, the loop of `to_integer`; each character is a round. -/
def toIntegerLoopS (mem : Mem) (k : Nat) (s : List UInt8) (base : Int) : List UInt8 → St → Bool → BInt → Steps (St × Bool × BInt)
  | [], st, nonNegative, integer => pure (st, nonNegative, integer)
  | c :: cs, st, nonNegative, integer => do
    Steps.tick .round
    let ev ← Steps.lift (getEvent c base)
    match st, ev with
    | .start, .blank => toIntegerLoopS mem k s base cs .start nonNegative integer
    | .start, .sign => toIntegerLoopS mem k s base cs .sign (c == 43) integer
    | .start, .digit | .sign, .digit | .int, .digit => do
      let integer ← timesPlusS mem k base integer c
      toIntegerLoopS mem k s base cs .int nonNegative integer
    | .int, .blank | .end_, .blank => toIntegerLoopS mem k s base cs .end_ nonNegative integer
    | _, _ => Steps.lift (leaveLoop s (.other, nonNegative, integer))

/-- str.hpp:401-452 `to_integer`. The result is a copy of the number, or of the number with the other sign. -/
def toIntegerS (mem : Mem) (k : Nat) (s : List UInt8) (base : Int := 10) : Steps BInt := do
  if base < 2 ∨ base > 36 then Steps.lift (.throw "Error: Invalid base for to_integer().")
  else
    let z ← Steps.lift (BInt.ofInt 0)
    let (st, nonNegative, integer) ← toIntegerLoopS mem k s base (visited s) .start true z
    if st ≠ .int ∧ st ≠ .end_ then Steps.lift (.throw "Error: Invalid literal for to_integer().")
    else do
      let integer ← BInt.copyS integer
      pure (if nonNegative then integer else BInt.neg integer)

end Str
end Pyincpp
