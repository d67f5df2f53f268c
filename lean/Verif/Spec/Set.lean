import Verif.Spec.Seq
import Verif.Model.Set
import Mathlib.Data.Finset.Max
import Mathlib.Data.Finset.SymmDiff

/-! # Specification of sets -/

namespace Pyincpp

/-- Strictly increasing, in particular without duplicates. -/
def Increasing {α : Type} (lt : α → α → Bool) (s : List α) : Prop := s.Pairwise (fun a b => lt a b = true)

/-- Neither element is less than the other: a `std::set` does not tell them apart. -/
def Eqv {α : Type} (lt : α → α → Bool) (a b : α) : Prop := lt a b = false ∧ lt b a = false

/-- `x` (or an element equivalent to it) is in the set. -/
def Has {α : Type} (lt : α → α → Bool) (s : List α) (x : α) : Prop := ∃ y ∈ s, Eqv lt x y

/-- The comparator of a linearly ordered type. -/
def ltOf {α : Type} [LinearOrder α] (a b : α) : Bool := decide (a < b)

/-- The abstract set: a finite set of a linearly ordered type. The returned value and the new set, or the message of the
exception, in which case nothing changes. -/
def SOp.abs {α : Type} [LinearOrder α] (s : Finset α) : SOp α → Except String (SRet α × Finset α)
  | .add e => if s.card = maxLen then .error msgFull else .ok (.bool (decide (e ∉ s)), insert e s)
  | .remove e => .ok (.bool (decide (e ∈ s)), s.erase e)
  | .pop => if h : s.Nonempty then .ok (.elem (s.min' h), s.erase (s.min' h)) else .error msgEmpty
  | .min => if h : s.Nonempty then .ok (.elem (s.min' h), s) else .error msgEmpty
  | .max => if h : s.Nonempty then .ok (.elem (s.max' h), s) else .error msgEmpty
  | .contains e => .ok (.bool (decide (e ∈ s)), s)
  | .size => .ok (.int s.card, s)
  | .extend xs => .ok (.unit, s ∪ xs.toFinset)
  | .clear => .ok (.unit, ∅)
  | .inter t => .ok (.unit, s ∩ (t.elim s List.toFinset))
  | .union t => .ok (.unit, s ∪ (t.elim s List.toFinset))
  | .diff t => .ok (.unit, s \ (t.elim s List.toFinset))
  | .symDiff t => .ok (.unit, symmDiff s (t.elim s List.toFinset))

/-- The operands are sets; excluded is growth beyond `INT_MAX` through the operations that do not check it. -/
def SOp.Fair {α : Type} [LinearOrder α] (s : Finset α) : SOp α → Prop
  | .extend xs => (s ∪ xs.toFinset).card ≤ maxLen
  | .inter t | .diff t => ∀ t', t = some t' → Increasing ltOf t'
  | .union t => (∀ t', t = some t' → Increasing ltOf t') ∧ (s ∪ (t.elim s List.toFinset)).card ≤ maxLen
  | .symDiff t => (∀ t', t = some t' → Increasing ltOf t') ∧ (symmDiff s (t.elim s List.toFinset)).card ≤ maxLen
  | _ => True

def SOp.absRun {α : Type} [LinearOrder α] : Finset α → List (SOp α) → List (Except String (SRet α)) × Finset α
  | s, [] => ([], s)
  | s, op :: ops =>
    match op.abs s with
    | .ok (r, s') => ((.ok r) :: (SOp.absRun s' ops).1, (SOp.absRun s' ops).2)
    | .error m => (.error m :: (SOp.absRun s ops).1, (SOp.absRun s ops).2)

def SOp.FairRun {α : Type} [LinearOrder α] : Finset α → List (SOp α) → Prop
  | _, [] => True
  | s, op :: ops => op.Fair s ∧
    match op.abs s with
    | .ok (_, s') => SOp.FairRun s' ops
    | .error _ => SOp.FairRun s ops

end Pyincpp
