import Mathlib.Data.List.Rotate
import Verif.Cpp
import Verif.Model.ListProgram

/-! # Specification of sequences

What a user of `List`, `Deque` and `Str` expects, in terms of plain sequences: Python index rule, rotation,
slices, and the abstract sequence machine for histories. -/

namespace Pyincpp

/-- Messages of the exceptions. -/
def msgIndex : String := "Error: Index out of range."
def msgEmpty : String := "Error: The container is empty."
def msgFull : String := "Error: The container has reached the maximum size."

/-- The largest length a container may have: `INT_MAX`. -/
def maxLen : Nat := 2147483647

/-- Python's index rule for a sequence of length `n`: counted from the start, or from the end if negative. -/
def pyIndex (n : Nat) (i : Int) : Option Nat :=
  if 0 ≤ i ∧ i < n then some i.toNat
  else if -(n : Int) ≤ i ∧ i < 0 then some (n - i.natAbs)
  else none

/-- The rule for insertion points: as `pyIndex`, and `n` itself means the end. -/
def pyInsertPoint (n : Nat) (i : Int) : Option Nat := if i = n then some n else pyIndex n i

/-- `l` rotated left by `n` places, for any integer `n`. -/
def rotated {α : Type} (l : List α) (n : Int) : List α := l.rotate (n % (l.length : Int)).toNat

/-- `i` comes before `stop` when walking in the direction of `step`. -/
def Before (step i stop : Int) : Prop := (0 < step ∧ i < stop) ∨ (step < 0 ∧ stop < i)

instance (a b c : Int) : Decidable (Before a b c) := by unfold Before; infer_instance

/-- `r` consists of the elements of `l` at `start`, `start + step`, ... that come before `stop`. -/
def IsSlice {α : Type} (l : List α) (start stop step : Int) (r : List α) : Prop :=
  ∀ k : Nat, (Before step (start + k * step) stop → 0 ≤ start + k * step ∧ start + k * step < l.length) ∧
    r[k]? = if Before step (start + k * step) stop then l[(start + k * step).toNat]? else none

/-- A strict weak order, as `std::stable_sort` requires it. -/
structure StrictWeak {α : Type} (lt : α → α → Bool) : Prop where
  irrefl : ∀ a, lt a a = false
  trans : ∀ a b c, lt a b = true → lt b c = true → lt a c = true
  incomp : ∀ a b c, lt a b = false → lt b a = false → lt b c = false → lt c b = false →
    lt a c = false ∧ lt c a = false

/-- Equivalent elements: neither comes before the other. -/
def equivBy {α : Type} (lt : α → α → Bool) (a b : α) : Bool := !(lt a b) && !(lt b a)

/-- Apply a (non-throwing) action to every element in order, threading the environment. -/
def eachInOrder {α σ : Type} (f : α → σ → α × σ) : List α → σ → List α × σ
  | [], s => ([], s)
  | x :: xs, s => ((f x s).1 :: (eachInOrder f xs (f x s).2).1, (eachInOrder f xs (f x s).2).2)

/-- The abstract sequence: the returned element (if the operation returns one) and the new sequence, or the
message of the exception, in which case nothing changes. -/
def LOp.abs {α : Type} [DecidableEq α] (l : List α) : LOp α → Except String (Option α × List α)
  | .insert i e =>
    if l.length = maxLen then .error msgFull
    else match pyInsertPoint l.length i with
      | some p => .ok (none, l.insertIdx p e)
      | none => .error msgIndex
  | .remove i =>
    if l = [] then .error msgEmpty
    else match pyIndex l.length i with
      | some p => .ok (l[p]?, l.eraseIdx p)
      | none => .error msgIndex
  | .append e => if l.length = maxLen then .error msgFull else .ok (none, l ++ [e])
  | .extendList m => if l.length + m.length > maxLen then .error msgFull else .ok (none, l ++ m)
  | .extend m => .ok (none, l ++ m)
  | .removeFirst e => .ok (none, l.erase e)
  | .removeAll (.val e) => .ok (none, l.filter (· ≠ e))
  | .removeAll (.ref p) => .ok (none, l.filter (fun x => some x ≠ l[p]?))
  | .rotL n => .ok (none, rotated l n)
  | .rotR n => .ok (none, rotated l (-n))
  | .reverse => .ok (none, l.reverse)
  | .erase a b =>
    if 0 ≤ a ∧ a ≤ l.length ∧ 0 ≤ b ∧ b ≤ l.length then .ok (none, l.take a.toNat ++ l.drop (max a b).toNat)
    else .error msgIndex
  | .assign i e =>
    match pyIndex l.length i with
    | some p => .ok (none, l.set p e)
    | none => .error msgIndex
  | .clear => .ok (none, [])
  | .addSelf => if l.length + l.length > maxLen then .error msgFull else .ok (none, l ++ l)

/-- The arguments are values of type `int`. -/
def LOp.Typed {α : Type} : LOp α → Prop
  | .insert i _ | .remove i | .assign i _ => IsInt i
  | .rotL n | .rotR n => IsInt n
  | .erase a b => IsInt a ∧ IsInt b
  | .extendList m => m.length ≤ maxLen
  | _ => True

/-- Where the code agrees with the abstract sequence: the exceptions are the defects proved in `Props/List`. -/
def LOp.Fair {α : Type} [DecidableEq α] (l : List α) : LOp α → Prop
  | .extendList m => l.length + m.length ≠ maxLen - 1 ∧ l.length + m.length ≠ maxLen
  | .addSelf => 2 * l.length ≠ maxLen - 1
  | .extend m => l.length + m.length ≤ maxLen
  | .removeAll (.val _) => True
  | .removeAll (.ref p) => p < l.length ∧ (l.filter (fun x => some x ≠ l[p]?)).length ≤ p
  | .rotR n => n ≠ INT_MIN ∨ l.length ≤ 1
  | .erase a b => a ≤ b ∧ l.length < maxLen
  | _ => True

/-- The sequence of results of a history on the abstract sequence. -/
def absRun {α : Type} [DecidableEq α] : List α → List (LOp α) → List (Except String (Option α)) × List α
  | l, [] => ([], l)
  | l, op :: ops =>
    match op.abs l with
    | .ok (r, l') => ((.ok r) :: (absRun l' ops).1, (absRun l' ops).2)
    | .error m => (.error m :: (absRun l ops).1, (absRun l ops).2)

/-- Every operation of the history is typed and fair at the moment it is performed. -/
def FairRun {α : Type} [DecidableEq α] : List α → List (LOp α) → Prop
  | _, [] => True
  | l, op :: ops => op.Typed ∧ op.Fair l ∧
    match op.abs l with
    | .ok (_, l') => FairRun l' ops
    | .error _ => FairRun l ops

end Pyincpp
