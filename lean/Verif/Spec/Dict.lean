import Verif.Spec.Set
import Verif.Model.Dict
import Mathlib.Data.Finmap

/-! # Specification of dictionaries: finite maps -/

namespace Pyincpp

def msgKey : String := "Error: Key is not found in the dictionary."

variable {K V : Type} [LinearOrder K]

/-- The abstract dictionary. -/
abbrev FMap (K V : Type) := Finmap (fun _ : K => V)

/-- Adding never overwrites. -/
def FMap.addNew (m : FMap K V) (p : K × V) : FMap K V := if p.1 ∈ m then m else m.insert p.1 p.2

def FMap.least (m : FMap K V) : Option (K × V) :=
  if h : m.keys.Nonempty then (m.lookup (m.keys.min' h)).map (fun v => (m.keys.min' h, v)) else none

/-- The returned value and the new map, or the message of the exception, in which case nothing changes. -/
def MOp.abs (m : FMap K V) : MOp K V → Except String (MRet K V × FMap K V)
  | .add k v => if m.keys.card = maxLen then .error msgFull else .ok (.bool (decide (k ∉ m)), m.addNew (k, v))
  | .remove k => .ok (.bool (decide (k ∈ m)), m.erase k)
  | .assign k v => if k ∈ m then .ok (.unit, m.insert k v) else .error msgKey
  | .get k => match m.lookup k with
    | some v => .ok (.val v, m)
    | none => .error msgKey
  | .getOr k v => .ok (.val ((m.lookup k).getD v), m)
  | .contains k => .ok (.bool (decide (k ∈ m)), m)
  | .pop => match m.least with
    | some p => .ok (.pair p, m.erase p.1)
    | none => .error msgEmpty
  | .size => .ok (.int m.keys.card, m)
  | .extend xs => .ok (.unit, xs.foldl FMap.addNew m)
  | .clear => .ok (.unit, ∅)

/-- Excluded is growth beyond `INT_MAX` through `extend`, which does not check it. -/
def MOp.Fair (m : FMap K V) : MOp K V → Prop
  | .extend xs => (xs.foldl FMap.addNew m).keys.card ≤ maxLen
  | _ => True

def MOp.absRun : FMap K V → List (MOp K V) → List (Except String (MRet K V)) × FMap K V
  | m, [] => ([], m)
  | m, op :: ops =>
    match op.abs m with
    | .ok (r, m') => ((.ok r) :: (MOp.absRun m' ops).1, (MOp.absRun m' ops).2)
    | .error e => (.error e :: (MOp.absRun m ops).1, (MOp.absRun m ops).2)

def MOp.FairRun : FMap K V → List (MOp K V) → Prop
  | _, [] => True
  | m, op :: ops => op.Fair m ∧
    match op.abs m with
    | .ok (_, m') => MOp.FairRun m' ops
    | .error _ => MOp.FairRun m ops

/-- The pairs of the dictionary are those of the map. -/
def Holds (d : List (K × V)) (m : FMap K V) : Prop := ∀ k v, (k, v) ∈ d ↔ m.lookup k = some v

end Pyincpp
