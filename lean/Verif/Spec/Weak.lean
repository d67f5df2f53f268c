import Verif.Spec.Dict

/-! # Specification of sets and dictionaries whose elements may be equivalent without being the same

For a comparator that is a strict weak order. The abstract set is the finite set of the elements held; the abstract dictionary is the finite set of the pairs held. -/

namespace Pyincpp

open Classical

/-- `n` as `int size()` reports it: the number of 32 bits that differs from `n` by a multiple of `2^32`. -/
noncomputable def asInt (n : ℕ) : ℤ := Int.bmod n 4294967296

section set
variable {α : Type} [DecidableEq α] (lt : α → α → Bool)

/-- An element equivalent to `e` is held. -/
def Held (s : Finset α) (e : α) : Prop := ∃ y ∈ s, Eqv lt e y

/-- Adding changes nothing if an equivalent element is held. -/
noncomputable def addWeak (s : Finset α) (e : α) : Finset α := if Held lt s e then s else insert e s

/-- An element that no element is less than. -/
noncomputable def leastOf (s : Finset α) : Option α := if h : ∃ x ∈ s, ∀ y ∈ s, lt y x = false then some h.choose else none

/-- An element that is less than no element. -/
noncomputable def greatestOf (s : Finset α) : Option α := if h : ∃ x ∈ s, ∀ y ∈ s, lt x y = false then some h.choose else none

/-- The operations of a set. Only `size()`, and with it the tests for full and empty, is cut to 32 bits. -/
noncomputable def SOp.weak (s : Finset α) : SOp α → Except String (SRet α × Finset α)
  | .add e => if s.card % 4294967296 = maxLen then .error msgFull else .ok (.bool (decide (¬ Held lt s e)), addWeak lt s e)
  | .remove e => .ok (.bool (decide (Held lt s e)), s.filter (fun y => ¬ Eqv lt e y))
  | .pop => match leastOf lt s with
    | some x => if 4294967296 ∣ s.card then .error msgEmpty else .ok (.elem x, s.erase x)
    | none => .error msgEmpty
  | .min => match leastOf lt s with
    | some x => if 4294967296 ∣ s.card then .error msgEmpty else .ok (.elem x, s)
    | none => .error msgEmpty
  | .max => match greatestOf lt s with
    | some x => if 4294967296 ∣ s.card then .error msgEmpty else .ok (.elem x, s)
    | none => .error msgEmpty
  | .contains e => .ok (.bool (decide (Held lt s e)), s)
  | .size => .ok (.int (asInt s.card), s)
  | .extend xs => .ok (.unit, xs.foldl (addWeak lt) s)
  | .clear => .ok (.unit, ∅)
  | .inter t => .ok (.unit, s.filter (fun x => Held lt (t.elim s List.toFinset) x))
  | .union t => .ok (.unit, s ∪ (t.elim s List.toFinset).filter (fun x => ¬ Held lt s x))
  | .diff t => .ok (.unit, s.filter (fun x => ¬ Held lt (t.elim s List.toFinset) x))
  | .symDiff t => .ok (.unit, s.filter (fun x => ¬ Held lt (t.elim s List.toFinset) x) ∪ (t.elim s List.toFinset).filter (fun x => ¬ Held lt s x))

noncomputable def SOp.weakRun : Finset α → List (SOp α) → List (Except String (SRet α)) × Finset α
  | s, [] => ([], s)
  | s, op :: ops =>
    match op.weak lt s with
    | .ok (r, s') => ((.ok r) :: (SOp.weakRun s' ops).1, (SOp.weakRun s' ops).2)
    | .error m => (.error m :: (SOp.weakRun s ops).1, (SOp.weakRun s ops).2)

/-- The operands are sets. -/
def SOp.Sets : SOp α → Prop
  | .inter t | .diff t | .union t | .symDiff t => ∀ t', t = some t' → Increasing lt t'
  | _ => True

end set

section dict
variable {K V : Type} [DecidableEq K] [DecidableEq V] (lt : K → K → Bool)

/-- A pair whose key is equivalent to `k` is held. -/
def HeldKey (d : Finset (K × V)) (k : K) : Prop := ∃ p ∈ d, Eqv lt k p.1

/-- Adding changes nothing if an equivalent key is held. -/
noncomputable def addPair (d : Finset (K × V)) (p : K × V) : Finset (K × V) := if HeldKey lt d p.1 then d else insert p d

/-- The value of the pair with a key equivalent to `k`. -/
noncomputable def valueAt (d : Finset (K × V)) (k : K) : Option V := if h : HeldKey lt d k then some h.choose.2 else none

/-- The operations of a dictionary. Assigning leaves the key that is there. -/
noncomputable def MOp.weak (d : Finset (K × V)) : MOp K V → Except String (MRet K V × Finset (K × V))
  | .add k v => if d.card % 4294967296 = maxLen then .error msgFull else .ok (.bool (decide (¬ HeldKey lt d k)), addPair lt d (k, v))
  | .remove k => .ok (.bool (decide (HeldKey lt d k)), d.filter (fun p => ¬ Eqv lt k p.1))
  | .assign k v => if HeldKey lt d k then .ok (.unit, d.image (fun p => if Eqv lt k p.1 then (p.1, v) else p)) else .error msgKey
  | .get k => match valueAt lt d k with
    | some v => .ok (.val v, d)
    | none => .error msgKey
  | .getOr k v => .ok (.val ((valueAt lt d k).getD v), d)
  | .contains k => .ok (.bool (decide (HeldKey lt d k)), d)
  | .pop => match leastOf (fun p q : K × V => lt p.1 q.1) d with
    | some p => if 4294967296 ∣ d.card then .error msgEmpty else .ok (.pair p, d.erase p)
    | none => .error msgEmpty
  | .size => .ok (.int (asInt d.card), d)
  | .extend xs => .ok (.unit, xs.foldl (addPair lt) d)
  | .clear => .ok (.unit, ∅)

noncomputable def MOp.weakRun : Finset (K × V) → List (MOp K V) → List (Except String (MRet K V)) × Finset (K × V)
  | d, [] => ([], d)
  | d, op :: ops =>
    match op.weak lt d with
    | .ok (r, d') => ((.ok r) :: (MOp.weakRun d' ops).1, (MOp.weakRun d' ops).2)
    | .error m => (.error m :: (MOp.weakRun d ops).1, (MOp.weakRun d ops).2)

end dict

end Pyincpp
