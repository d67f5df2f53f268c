import Verif.Model.IntProgram
import Verif.Spec.Int

/-! # Meaning of the programs on mathematical integers -/

namespace Pyincpp

/-- The binary operators on integers; division truncates, `none` = division by zero. -/
def IntBin.math : IntBin → ℤ → ℤ → Option ℤ
  | .add, x, y => some (x + y)
  | .sub, x, y => some (x - y)
  | .mul, x, y => some (x * y)
  | .div, x, y => if y = 0 then none else some (x.tdiv y)
  | .mod, x, y => if y = 0 then none else some (x.tmod y)

def mstore (σ : ℕ → ℤ) (i : ℕ) : Option ℤ → (ℕ → ℤ)
  | some z => upd σ i z
  | none => σ

/-- One statement on integers. -/
inductive IntOp.Math : IntOp → (ℕ → ℤ) → (ℕ → ℤ) → Prop
  | lit {i t z σ} : Literal t z → Math (.lit i t) σ (upd σ i z)
  | litBad {i t σ} : (¬ ∃ z, Literal t z) → Math (.lit i t) σ σ
  | int {i n σ} : IsInt n → Math (.int i n) σ (upd σ i n)
  | copy {i j σ} : Math (.copy i j) σ (upd σ i (σ j))
  | move {i j σ} : Math (.move i j) σ (upd (upd σ i (σ j)) j 0)
  | bin {o i j l σ} : Math (.bin o i j l) σ (mstore σ i (o.math (σ j) (σ l)))
  | assign {o i j σ} : Math (.assign o i j) σ (mstore σ i (o.math (σ i) (σ j)))
  | inc {i σ} : Math (.inc i) σ (upd σ i (σ i + 1))
  | dec {i σ} : Math (.dec i) σ (upd σ i (σ i - 1))
  | neg {i j σ} : Math (.neg i j) σ (upd σ i (- σ j))
  | abs {i j σ} : Math (.abs i j) σ (upd σ i |σ j|)

/-- The digits of `x += x` as the code computes them, least significant first: the carry `c` is added to the digit before
the digit is doubled. -/
def doubleDigits : List ℕ → ℕ → ℕ
  | [], c => 2 * c
  | d :: ds, c => 2 * (d + c) % 10 + 10 * doubleDigits ds ((d + c) / 5)

/-- The value of `x` after `x += x`. -/
def selfAdd (x : ℤ) : ℤ := x.sign * doubleDigits (Nat.digits 10 x.natAbs) 0

/-- What the code computes for every statement, defective ones included: `%` gives a dividend with fewer digits than the
divisor back and otherwise the remainder of the absolute values. `none` = division by zero. -/
def IntBin.code : IntBin → ℤ → ℤ → Option ℤ
  | .mod, x, y => if y = 0 then none
      else if (Nat.digits 10 x.natAbs).length < (Nat.digits 10 y.natAbs).length then some x else some (|x| % |y|)
  | o, x, y => o.math x y

open Classical in
/-- One statement as the code performs it; `none` = undefined behaviour. -/
noncomputable def IntOp.code (σ : ℕ → ℤ) : IntOp → Option (ℕ → ℤ)
  | .lit i t => some (if h : ∃ z, Literal t z then upd σ i h.choose else σ)
  | .int i n => if n = INT_MIN then none else some (upd σ i n)
  | .copy i j => some (upd σ i (σ j))
  | .move i j => some (upd (upd σ i (σ j)) j 0)
  | .bin o i j l => some (mstore σ i (o.code (σ j) (σ l)))
  | .assign o i j => some (if o = .add ∧ i = j then upd σ i (selfAdd (σ i)) else mstore σ i (o.code (σ i) (σ j)))
  | .inc i => some (upd σ i (σ i + 1))
  | .dec i => some (upd σ i (σ i - 1))
  | .neg i j => some (upd σ i (-σ j))
  | .abs i j => some (upd σ i |σ j|)

/-- A whole program as the code performs it. -/
noncomputable def IntOp.codeRun : List IntOp → (ℕ → ℤ) → Option (ℕ → ℤ)
  | [], σ => some σ
  | o :: os, σ => (o.code σ).bind (IntOp.codeRun os)

/-- The statements the code gets wrong are excluded: `Int(INT_MIN)`; a remainder with a negative dividend;
`x += x` when `x` has a digit above 4. -/
def IntOp.Fair (σ : ℕ → ℤ) : IntOp → Prop
  | .int _ n => n ≠ INT_MIN
  | .bin .mod _ j _ => 0 ≤ σ j
  | .assign .mod i _ => 0 ≤ σ i
  | .assign .add i j => i = j → ∀ d ∈ (enc (σ i)).chunks, d ≤ 4
  | _ => True

/-- A whole program on integers, all of whose statements are fair. -/
inductive IntOp.FairRun : List IntOp → (ℕ → ℤ) → (ℕ → ℤ) → Prop
  | nil {σ} : FairRun [] σ σ
  | cons {o os σ σ₁ σ₂} : o.Fair σ → o.Math σ σ₁ → FairRun os σ₁ σ₂ → FairRun (o :: os) σ σ₂

end Pyincpp
