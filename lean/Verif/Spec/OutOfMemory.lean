import Verif.Model.OutOfMemory
import Verif.Spec.Int
import Mathlib.Algebra.Order.Group.Abs
import Mathlib.Algebra.Order.Group.Int

/-! # What running out of memory means for an operation -/

namespace Pyincpp

/-- The operation takes a certain number of requests. With as many or more granted it returns `v` and leaves `s'`; with fewer it throws
`std::bad_alloc` and leaves an object with `P`. -/
def Runs {σ α : Type} (m : Meth (σ × ℕ) α) (s : σ) (v : α) (s' : σ) (P : σ → Prop) : Prop :=
  ∃ N, ∀ b, (N ≤ b → m (s, b) = (.ok v, (s', b - N))) ∧ (b < N → ∃ t, P t ∧ m (s, b) = (.throw badAlloc, (t, 0)))

/-- Whenever memory runs out, the object is as it was. -/
def Keeps {σ α : Type} (m : Meth (σ × ℕ) α) (s : σ) : Prop := ∀ b t b', m (s, b) = (.throw badAlloc, (t, b')) → t = s

/-- `z` is what is left of a division of `x` by `y` that was not finished: `x`, or `|x|` after some multiples of `|y|` have been subtracted. -/
def Unfinished (x y z : ℤ) : Prop := z = x ∨ (0 ≤ z ∧ z ≤ |x| ∧ |y| ∣ |x| - z)

/-- A vector that grows has room for what it is to hold. -/
def Grows (grow : ℕ → ℕ → ℕ) : Prop := ∀ c n, n ≤ grow c n

/-- An `Int` in order: canonical digits, which fit into the capacity. -/
def InOrder (t : Oom.Num) : Prop := ∃ z, t.val = enc z ∧ t.val.chunks.length ≤ t.cap

/-- The members of `Int` that change it, with another `Int` as operand. -/
inductive NumOp where
  | copy (y : ℤ) | add (y : ℤ) | sub (y : ℤ) | mul (y : ℤ) | div (y : ℤ) | mod (y : ℤ) | inc | dec

/-- The member in the model; `13` is fuel enough. -/
def NumOp.run (grow : ℕ → ℕ → ℕ) : NumOp → Meth (Oom.Num × ℕ) Unit
  | .copy y => Oom.copyAssign (enc y)
  | .add y => Oom.addAssign grow .lenient false 13 (enc y)
  | .sub y => Oom.subAssign grow .lenient 13 (enc y)
  | .mul y => Oom.mulAssign (enc y)
  | .div y => Oom.divAssign grow .lenient 13 (enc y)
  | .mod y => Oom.modAssign grow .lenient 13 (enc y)
  | .inc => Oom.inc grow
  | .dec => Oom.dec grow

/-- What the member computes from `x`; the remainder that the code computes is that of the absolute values, if `x` has as many digits as `y`. -/
def NumOp.result (x : ℤ) : NumOp → ℤ
  | .copy y => y
  | .add y => x + y
  | .sub y => x - y
  | .mul y => x * y
  | .div y => x.tdiv y
  | .mod y => if (enc x).chunks.length < (enc y).chunks.length then x else |x| % |y|
  | .inc => x + 1
  | .dec => x - 1

/-- Division by zero is an error of its own. -/
def NumOp.Valid : NumOp → Prop
  | .div y => y ≠ 0
  | .mod y => y ≠ 0
  | _ => True

/-- The members that write `sign_` of a zero before they ask for memory. -/
def NumOp.Early : NumOp → Prop
  | .copy _ => True
  | .add _ => True
  | .inc => True
  | .dec => True
  | _ => False

/-- What is left of a list that was being filtered: the elements kept so far, the one that was being overwritten by the next one to keep, and the
rest of the list. -/
def Filtering {α : Type} (half : α → α → α) (p : α → Bool) (l t : List α) : Prop :=
  ∃ a x b old rest, l = a ++ x :: b ∧ p x = true ∧ l.drop (a.filter p).length = old :: rest ∧ (a.filter p).length < a.length ∧
    t = a.filter p ++ half old x :: rest

end Pyincpp
