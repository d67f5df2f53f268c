import Verif.Model.Deque
import Verif.Spec.Seq

/-! # The abstract double-ended queue -/

namespace Pyincpp

/-- Result and new contents, or the message of the exception, in which case nothing changes. The front is the head. -/
def DOp.abs {α : Type} (d : List α) : DOp α → Except String (Option α × List α)
  | .pushBack e => if d.length = maxLen then .error msgFull else .ok (none, d ++ [e])
  | .pushFront e => if d.length = maxLen then .error msgFull else .ok (none, e :: d)
  | .popBack =>
    match d.getLast? with
    | some x => .ok (some x, d.dropLast)
    | none => .error msgEmpty
  | .popFront =>
    match d with
    | x :: xs => .ok (some x, xs)
    | [] => .error msgEmpty
  | .back =>
    match d.getLast? with
    | some x => .ok (some x, d)
    | none => .error msgEmpty
  | .front =>
    match d.head? with
    | some x => .ok (some x, d)
    | none => .error msgEmpty
  | .get i =>
    match pyIndex d.length i with
    | some p => .ok (d[p]?, d)
    | none => .error msgIndex
  | .assign i e =>
    match pyIndex d.length i with
    | some p => .ok (none, d.set p e)
    | none => .error msgIndex
  | .extendBack m => .ok (none, d ++ m)
  | .extendFront m => .ok (none, m ++ d)
  | .rotL n => .ok (none, rotated d n)
  | .rotR n => .ok (none, rotated d (-n))
  | .reverse => .ok (none, d.reverse)
  | .clear => .ok (none, [])

/-- `int` arguments are `int`s; excluded are growth beyond `INT_MAX` through the unchecked `extend_*`, and `>>= INT_MIN`. -/
def DOp.Fair {α : Type} (d : List α) : DOp α → Prop
  | .get i | .assign i _ | .rotL i => IsInt i
  | .rotR n => IsInt n ∧ (n ≠ INT_MIN ∨ d.length ≤ 1)
  | .extendBack m | .extendFront m => d.length + m.length ≤ maxLen
  | _ => True

def DOp.absRun {α : Type} : List α → List (DOp α) → List (Except String (Option α)) × List α
  | d, [] => ([], d)
  | d, op :: ops =>
    match op.abs d with
    | .ok (r, d') => ((.ok r) :: (DOp.absRun d' ops).1, (DOp.absRun d' ops).2)
    | .error m => (.error m :: (DOp.absRun d ops).1, (DOp.absRun d ops).2)

def DOp.FairRun {α : Type} : List α → List (DOp α) → Prop
  | _, [] => True
  | d, op :: ops => op.Fair d ∧
    match op.abs d with
    | .ok (_, d') => DOp.FairRun d' ops
    | .error _ => DOp.FairRun d ops

end Pyincpp
