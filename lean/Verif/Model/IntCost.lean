import Verif.Model.Int
import Mathlib.Algebra.Group.Pi.Basic
import Mathlib.Algebra.Group.Nat.Defs

/-! # sources/int.hpp: what the functions of `Int` cost

The functions of Model/Int.lean again, with a count of what they do. Four kinds of steps are counted: the rounds of loops over digits,
the digits that library functions write (filling and copying vectors), the digits moved by `erase(begin())`, and the rounds of the loops in
`/=` and `%=` that subtract. Not counted: digits moved because a growing vector needs a larger piece of memory. That the functions are otherwise
the same is proved (`C100_same`). -/

namespace Pyincpp

/-- The kinds of steps: a round of a loop over digits, a digit written by a library function, a digit moved by `erase`, a subtraction in
`/=` or `%=`. -/
inductive Kind
  | round
  | written
  | moved
  | subtraction
  deriving DecidableEq, Repr

/-- A computation that counts its steps. -/
structure Steps (α : Type) where
  run : Res (α × (Kind → Nat))

namespace Steps

variable {α β σ : Type}

protected def pure (a : α) : Steps α := ⟨.ok (a, 0)⟩

protected def bind (x : Steps α) (f : α → Steps β) : Steps β :=
  ⟨x.run >>= fun p => (f p.1).run >>= fun q => .ok (q.1, p.2 + q.2)⟩

instance : Monad Steps where
  pure := Steps.pure
  bind := Steps.bind

/-- A computation without counted steps. -/
def lift (r : Res α) : Steps α := ⟨r >>= fun a => .ok (a, 0)⟩

instance : MonadLift Res Steps := ⟨lift⟩

/-- `n` steps of the given kind. -/
def tick (k : Kind) (n : Nat := 1) : Steps Unit := ⟨.ok ((), fun j => if j = k then n else 0)⟩

/-- The computation without its count. -/
def forget (x : Steps α) : Res α := x.run >>= fun p => .ok p.1

/-- The loops of Cpp.lean; each round counts as one step of kind `kd`. -/
def forUp (kd : Kind) (body : Nat → σ → Steps σ) : (i n : Nat) → σ → Steps σ
  | _, 0, s => pure s
  | i, n + 1, s => do
    tick kd
    forUp kd body (i + 1) n (← body i s)

def forRange (kd : Kind) (lo hi : Nat) (body : Nat → σ → Steps σ) (s : σ) : Steps σ := forUp kd body lo (hi - lo) s

def forDown (kd : Kind) (body : Nat → σ → Steps σ) : (n : Nat) → σ → Steps σ
  | 0, s => pure s
  | n + 1, s => do
    tick kd
    forDown kd body n (← body n s)

def forUpWhile (kd : Kind) (cond : Nat → σ → Res Bool) (body : Nat → σ → Steps σ) : (i n : Nat) → σ → Steps σ
  | _, 0, s => pure s
  | i, n + 1, s => do
    if ← lift (cond i s) then
      tick kd
      forUpWhile kd cond body (i + 1) n (← body i s)
    else pure s

def whileF (kd : Kind) (cond : σ → Steps Bool) (body : σ → Steps σ) : Nat → σ → Steps σ
  | 0, _ => lift .fuel
  | k + 1, s => do
    if ← cond s then
      tick kd
      whileF kd cond body k (← body s)
    else pure s

end Steps

namespace BInt
open Steps (tick)

/-- int.hpp:36-51 `trim`: a round for every zero that is erased. -/
def trimS (x : BInt) : Steps BInt := do
  tick .round (x.chunks.length - (trim x).chunks.length)
  pure (trim x)

/-- A copy of an `Int`, or of its vector: all digits are written. -/
def copyS (x : BInt) : Steps BInt := do
  tick .written x.chunks.length
  pure x

/-- int.hpp:76-95 `abs_inc`. -/
def absIncS (x : BInt) : Steps BInt := do
  let v := x.chunks ++ [0]
  tick .written
  let i ← Steps.whileF .round (fun i => do pure ((← vget v i) == 9)) (fun i => pure (i + 1)) (v.length + 1) 0
  let v ← vset v i (← iadd (← vget v i) 1)
  let v ← Steps.forDown .round (fun j v => vset v j 0) i v
  trimS { x with chunks := v }

/-- int.hpp:99-113 `abs_dec`. -/
def absDecS (x : BInt) : Steps BInt := do
  let v := x.chunks
  let i ← Steps.whileF .round (fun i => do pure ((← vget v i) == 0)) (fun i => pure (i + 1)) (v.length + 1) 0
  let v ← vset v i (← isub (← vget v i) 1)
  let v ← Steps.forDown .round (fun j v => vset v j 9) i v
  trimS { x with chunks := v }

/-- int.hpp:542-555 `operator++`. -/
def incS (x : BInt) : Steps BInt :=
  if x.sign = 0 then do
    tick .written
    pure { sign := 1, chunks := x.chunks ++ [1] }
  else if x.sign = 1 then absIncS x else absDecS x

/-- int.hpp:558-571 `operator--`. -/
def decS (x : BInt) : Steps BInt :=
  if x.sign = 0 then do
    tick .written
    pure { sign := -1, chunks := x.chunks ++ [1] }
  else if x.sign = 1 then absDecS x else absIncS x

/-- A client that increments (`true`) and decrements (`false`) an `Int`. -/
def crementS : List Bool → BInt → Steps BInt
  | [], x => pure x
  | true :: l, x => do crementS l (← incS x)
  | false :: l, x => do crementS l (← decS x)

/-- int.hpp:137-143, the loop of `abs_cmp` from index `i - 1` downwards. -/
def absCmpLoopS (a b : List Int) : Nat → Steps Int
  | 0 => pure 0
  | i + 1 => do
    tick .round
    let x ← vget a i
    let y ← vget b i
    if x ≠ y then pure (if x > y then 1 else -1) else absCmpLoopS a b i

/-- int.hpp:130-146 `abs_cmp`. -/
def absCmpS (x y : BInt) : Steps Int :=
  if x.chunks.length ≠ y.chunks.length then pure (if x.chunks.length > y.chunks.length then 1 else -1)
  else absCmpLoopS x.chunks y.chunks x.chunks.length

/-- int.hpp:227-248 `operator<=>`. -/
def cmpS (a b : BInt) : Steps Int :=
  if a.sign ≠ b.sign then
    if a.sign = 1 then pure 1
    else if a.sign = -1 then pure (-1)
    else pure (if b.sign = 1 then -1 else 1)
  else do
    let c ← absCmpS a b
    pure (if a.sign ≥ 0 then c else -c)

/-- `a >= b`. -/
def geS (a b : BInt) : Steps Bool := do pure ((← cmpS a b) ≥ 0)

/-- int.hpp:353-373, the part of `operator+=` for operands of the same non-zero sign. -/
def addSameS (mem : Mem) (self : Bool) (x y : BInt) : Steps BInt := do
  let bv := fun (a : List Int) => if self then a else y.chunks
  let a := vresize x.chunks (max x.chunks.length y.chunks.length + 1)
  tick .written (a.length - x.chunks.length)
  let n := (bv a).length
  let a ← Steps.forRange .round 0 n (fun i a => do
      let tmp ← iadd (← vget a i) (← vget (bv a) i)
      let a ← vset a i (tmp.tmod 10)
      vaddAt mem a (i + 1) (tmp.tdiv 10)) a
  let a ← Steps.forUpWhile .round (fun i a => do pure (decide ((← vget a i) ≥ 10)))
    (fun i a => do
      let a ← vaddAt mem a (i + 1) 1
      vset a i 0) n (a.length - n) a
  trimS { x with chunks := a }

/-- int.hpp:391-416, the part of `operator-=` for operands of the same non-zero sign. `rhs_digits` is a copy. -/
def subSameS (mem : Mem) (x y : BInt) : Steps BInt := do
  let y ← copyS y
  let c ← absCmpS x y
  let (sign, a, b) := if c = -1 then (-x.sign, y.chunks, x.chunks) else (x.sign, x.chunks, y.chunks)
  let n := b.length
  let a ← Steps.forRange .round 0 n (fun i a => do
      let tmp ← isub (← vget a i) (← vget b i)
      let a ← vset a i (← cycleMod tmp 10)
      vaddAt mem a (i + 1) (floorDiv tmp 10)) a
  let a ← Steps.forUpWhile .round (fun i a => do pure (decide ((← vget a i) < 0)))
    (fun i a => do
      let a ← vaddAt mem a (i + 1) (-1)
      vset a i 9) n (a.length - n) a
  trimS { sign := sign, chunks := a }

mutual
/-- int.hpp:339-374 `operator+=`. `*this = rhs` and `-rhs` copy the digits. -/
def addAssignS (mem : Mem) (self : Bool) : Nat → BInt → BInt → Steps BInt
  | 0, _, _ => Steps.lift .fuel
  | k + 1, x, y =>
    if x.sign = 0 ∨ y.sign = 0 then (if x.sign = 0 then copyS y else pure x)
    else if x.sign ≠ y.sign then do subAssignS mem k x (neg (← copyS y))
    else addSameS mem self x y

/-- int.hpp:377-417 `operator-=`. -/
def subAssignS (mem : Mem) : Nat → BInt → BInt → Steps BInt
  | 0, _, _ => Steps.lift .fuel
  | k + 1, x, y =>
    if x.sign = 0 ∨ y.sign = 0 then (if x.sign = 0 then do copyS (neg (← copyS y)) else pure x)
    else if x.sign ≠ y.sign then do addAssignS mem false k x (neg (← copyS y))
    else subSameS mem x y
end

/-- int.hpp:420-448 `operator*=`. The result is copied: `trim` returns a reference. -/
def mulAssignS (x y : BInt) : Steps BInt :=
  if x.sign = 0 ∨ y.sign = 0 then Steps.lift (ofInt 0)
  else do
    let a := x.chunks
    let b := y.chunks
    let c := List.replicate (a.length + b.length) 0
    tick .written c.length
    let c ← Steps.forRange .round 0 a.length (fun i c =>
        Steps.forRange .round 0 b.length (fun j c => do
          let p ← imul (← vget a i) (← vget b j)
          let c ← vset c (i + j) (← iadd (← vget c (i + j)) p)
          let cij ← vget c (i + j)
          let c ← vset c (i + j + 1) (← iadd (← vget c (i + j + 1)) (cij.tdiv 10))
          vset c (i + j) (cij.tmod 10)) c) c
    copyS (← trimS { sign := if x.sign = y.sign then 1 else -1, chunks := c })

/-- `v.erase(v.begin())`: all other elements move one place down. -/
def eraseFrontS (v : List Int) : Steps (List Int) := do
  tick .moved (v.length - 1)
  eraseFront v

/-- int.hpp:451-496 `operator/=`. -/
def divAssignS (mem : Mem) (k : Nat) (x y : BInt) : Steps BInt := do
  checkZero (y.sign == 0)
  if (← digits x) < (← digits y) then ofInt 0
  else
    let size := x.chunks.length - y.chunks.length + 1
    let tmp := List.replicate size (0 : Int) ++ y.chunks
    tick .written tmp.length
    let rsign : Int := if x.sign = y.sign then 1 else -1
    let r := List.replicate size (0 : Int)
    tick .written r.length
    let (_, _, r) ← Steps.forDown .round (fun i (s : BInt × List Int × List Int) => do
        let tmp ← eraseFrontS s.2.1
        let t : BInt := { sign := 1, chunks := tmp }
        let (x, r) ← Steps.whileF .subtraction (fun (w : BInt × List Int) => geS w.1 t)
          (fun w => do
            let r ← vset w.2 i (← iadd (← vget w.2 i) 1)
            let x ← subAssignS mem k w.1 t
            pure (x, r)) k (s.1, s.2.2)
        pure (x, tmp, r)) size ({ x with sign := 1 }, tmp, r)
    copyS (← trimS { sign := rsign, chunks := r })

/-- int.hpp:499-539 `operator%=`. -/
def modAssignS (mem : Mem) (k : Nat) (x y : BInt) : Steps BInt := do
  checkZero (y.sign == 0)
  if (← digits x) < (← digits y) then pure x
  else
    let size := x.chunks.length - y.chunks.length + 1
    let tmp := List.replicate size (0 : Int) ++ y.chunks
    tick .written tmp.length
    let (x, _) ← Steps.forRange .round 0 size (fun _ (s : BInt × List Int) => do
        let tmp ← eraseFrontS s.2
        let t : BInt := { sign := 1, chunks := tmp }
        let x ← Steps.whileF .subtraction (fun w => geS w t) (fun w => subAssignS mem k w t) k s.1
        pure (x, tmp)) ({ x with sign := 1 }, tmp)
    trimS x

end BInt
end Pyincpp
