import Verif.Model.Int

/-! # sources/int.hpp: the functions of `Int` with their `int` counters

`Model/Int.lean` counts the positions of a digit vector with natural numbers. The code counts them with variables
of type `int` while `chunks_.size()` is a `std::size_t`. The two agree as long as no vector has more than
`INT_MAX` elements. The definitions here repeat those functions of `Int` that count, with the counters of the
code: incrementing a counter and computing an index are checked 32-bit additions, and a size stored in an `int` is
reduced modulo 2^32. Functions that do not count (`trim`, `==`, unary operators, copies, printing, `hash`, `random`)
are those of `Model/Int.lean`. -/

namespace Pyincpp

/-- `for (int i = i; i < i + n; ++i) s = body(i, s);` where the bound is a `std::size_t`: `++i` is a checked `int`
operation. -/
def countUp {σ : Type} (body : Nat → σ → Res σ) : (i n : Nat) → σ → Res σ
  | _, 0, s => .ok s
  | i, n + 1, s => do
    let s ← body i s
    let _ ← iadd i 1
    countUp body (i + 1) n s

/-- `for (int i = i; i < i + n && cond(i, s); ++i) s = body(i, s);` with a checked `++i`. -/
def countUpWhile {σ : Type} (cond : Nat → σ → Res Bool) (body : Nat → σ → Res σ) : (i n : Nat) → σ → Res σ
  | _, 0, s => .ok s
  | i, n + 1, s => do
    if ← cond i s then
      let s ← body i s
      let _ ← iadd i 1
      countUpWhile cond body (i + 1) n s
    else pure s

namespace Big

open BInt

/-- The number of rounds of `for (int i = size - 1; i >= 0; --i)`: `size - 1` is a `std::size_t` stored in an `int`.
For `size = 0` the counter starts at -1. -/
def downFrom (size : Nat) : Nat := (wrap32 ((size : Int) - 1) + 1).toNat

/-- int.hpp:54-72 `is_integer`: a negative `len` passes the tests of line 56 and the loop makes no round. -/
def isInteger (chars : List UInt8) (len : Int) : Bool :=
  if len < 0 then true else BInt.isInteger (chars.take len.toNat)

/-- int.hpp:173-203 `Int(const char* chars)`. `strlen` is stored in an `int` (line 175). With a negative `len`
the end of the range `[chars, chars + len)` of line 183 lies before its beginning. Otherwise the rest of the
constructor looks at the first `len` characters only, and `len` bounds all its counters. -/
def ofChars (chars : List UInt8) : Res BInt :=
  let len := wrap32 chars.length
  if ¬ isInteger chars len then .throw "Error: Wrong integer literal."
  else if len < 0 then .ub .badRange
  else BInt.ofChars (chars.take len.toNat)

/-- int.hpp:76-95 `abs_inc`. -/
def absInc (x : BInt) : Res BInt := do
  let v := x.chunks ++ [0]
  let i ← whileF (fun i => do pure ((← vget v i) == 9)) (fun i => do pure (← iadd i 1).toNat) (v.length + 1) 0
  let v ← vset v i (← iadd (← vget v i) 1)
  let v ← forDown (fun j v => vset v j 0) i v
  pure (trim { x with chunks := v })

/-- int.hpp:99-113 `abs_dec`. -/
def absDec (x : BInt) : Res BInt := do
  let v := x.chunks
  let i ← whileF (fun i => do pure ((← vget v i) == 0)) (fun i => do pure (← iadd i 1).toNat) (v.length + 1) 0
  let v ← vset v i (← isub (← vget v i) 1)
  let v ← forDown (fun j v => vset v j 9) i v
  pure (trim { x with chunks := v })

/-- int.hpp:130-146 `abs_cmp`: the sizes are compared as they are, the counter starts at `int(size - 1)`. -/
def absCmp (x y : BInt) : Res Int :=
  if x.chunks.length ≠ y.chunks.length then .ok (if x.chunks.length > y.chunks.length then 1 else -1)
  else absCmpLoop x.chunks y.chunks (downFrom x.chunks.length)

/-- int.hpp:227-248 `operator<=>`. -/
def cmp (a b : BInt) : Res Int :=
  if a.sign ≠ b.sign then
    if a.sign = 1 then .ok 1
    else if a.sign = -1 then .ok (-1)
    else .ok (if b.sign = 1 then -1 else 1)
  else do
    let c ← absCmp a b
    pure (if a.sign ≥ 0 then c else -c)

def lt (a b : BInt) : Res Bool := do pure ((← cmp a b) < 0)
def le (a b : BInt) : Res Bool := do pure ((← cmp a b) ≤ 0)
def ge (a b : BInt) : Res Bool := do pure ((← cmp a b) ≥ 0)

/-- int.hpp:273-283 `digits`: the sum of line 277 is a `double`, exact below 2^53, and its conversion to `int` is
undefined if it does not fit. -/
def digits (x : BInt) : Res Int := do ck (← BInt.digits x)

/-- int.hpp:353-373, the part of `operator+=` for operands of the same non-zero sign; `self` as in
`BInt.addSame`. The second loop starts at `int(b.size())`; a negative counter is not less than `a.size()`, being
converted to `std::size_t` for the comparison. -/
def addSame (mem : Mem) (self : Bool) (x y : BInt) : Res BInt := do
  let bv := fun (a : List Int) => if self then a else y.chunks
  let a := vresize x.chunks (max x.chunks.length y.chunks.length + 1)
  let n := (bv a).length
  let a ← countUp (fun i a => do
      let tmp ← iadd (← vget a i) (← vget (bv a) i)
      let a ← vset a i (tmp.tmod 10)
      let j ← iadd i 1
      vaddAt mem a j.toNat (tmp.tdiv 10)) 0 n a
  let a ← if wrap32 n < 0 then .ok a else
    countUpWhile (fun i a => do pure (decide ((← vget a i) ≥ 10)))
      (fun i a => do
        let j ← iadd i 1
        let a ← vaddAt mem a j.toNat 1
        vset a i 0) (wrap32 n).toNat (a.length - (wrap32 n).toNat) a
  pure (trim { x with chunks := a })

/-- int.hpp:391-416, the part of `operator-=` for operands of the same non-zero sign. -/
def subSame (mem : Mem) (x y : BInt) : Res BInt := do
  let c ← absCmp x y
  let (sign, a, b) := if c = -1 then (-x.sign, y.chunks, x.chunks) else (x.sign, x.chunks, y.chunks)
  let n := b.length
  let a ← countUp (fun i a => do
      let tmp ← isub (← vget a i) (← vget b i)
      let a ← vset a i (← cycleMod tmp 10)
      let j ← iadd i 1
      vaddAt mem a j.toNat (floorDiv tmp 10)) 0 n a
  let a ← if wrap32 n < 0 then .ok a else
    countUpWhile (fun i a => do pure (decide ((← vget a i) < 0)))
      (fun i a => do
        let j ← iadd i 1
        let a ← vaddAt mem a j.toNat (-1)
        vset a i 9) (wrap32 n).toNat (a.length - (wrap32 n).toNat) a
  pure (trim { sign := sign, chunks := a })

mutual
/-- int.hpp:339-374 `operator+=`. -/
def addAssign (mem : Mem) (self : Bool) : Nat → BInt → BInt → Res BInt
  | 0, _, _ => .fuel
  | k + 1, x, y =>
    if x.sign = 0 ∨ y.sign = 0 then .ok (if x.sign = 0 then y else x)
    else if x.sign ≠ y.sign then subAssign mem k x (neg y)
    else addSame mem self x y

/-- int.hpp:377-417 `operator-=`. -/
def subAssign (mem : Mem) : Nat → BInt → BInt → Res BInt
  | 0, _, _ => .fuel
  | k + 1, x, y =>
    if x.sign = 0 ∨ y.sign = 0 then .ok (if x.sign = 0 then neg y else x)
    else if x.sign ≠ y.sign then addAssign mem false k x (neg y)
    else subSame mem x y
end

/-- int.hpp:598-607 `operator+`, `operator-`. -/
def add (mem : Mem) (k : Nat) (x y : BInt) : Res BInt := addAssign mem false k x y
def sub (mem : Mem) (k : Nat) (x y : BInt) : Res BInt := subAssign mem k x y

/-- int.hpp:420-448 and 610-613 `operator*=`, `operator*`. The indices `i + j` and `i + j + 1` of lines 441-443 are `int`s. -/
def mul (x y : BInt) : Res BInt :=
  if x.sign = 0 ∨ y.sign = 0 then ofInt 0
  else do
    let a := x.chunks
    let b := y.chunks
    let c := List.replicate (a.length + b.length) 0
    let c ← countUp (fun i c =>
        countUp (fun j c => do
          let p ← imul (← vget a i) (← vget b j)
          let l := (← iadd i j).toNat
          let c ← vset c l (← iadd (← vget c l) p)
          let cij ← vget c l
          let m := (← iadd l 1).toNat
          let c ← vset c m (← iadd (← vget c m) (cij.tdiv 10))
          vset c l (cij.tmod 10)) 0 b.length c) 0 a.length c
    pure (trim { sign := if x.sign = y.sign then 1 else -1, chunks := c })

/-- int.hpp:451-496 and 616-619 `operator/=`, `operator/`. Both calls of `digits()` at line 457 have returned, so the
sizes are `int`s, and so is `size` (line 465), which bounds the counters of the loop. -/
def div (mem : Mem) (k : Nat) (x y : BInt) : Res BInt := do
  checkZero (y.sign == 0)
  if (← digits x) < (← digits y) then ofInt 0
  else
    let size := x.chunks.length - y.chunks.length + 1
    let tmp := List.replicate size (0 : Int) ++ y.chunks
    let rsign : Int := if x.sign = y.sign then 1 else -1
    let r := List.replicate size (0 : Int)
    let (_, _, r) ← forDown (fun i (s : BInt × List Int × List Int) => do
        let tmp ← eraseFront s.2.1
        let t : BInt := { sign := 1, chunks := tmp }
        let (x, r) ← whileF (fun (w : BInt × List Int) => ge w.1 t)
          (fun w => do
            let r ← vset w.2 i (← iadd (← vget w.2 i) 1)
            let x ← subAssign mem k w.1 t
            pure (x, r)) k (s.1, s.2.2)
        pure (x, tmp, r)) size ({ x with sign := 1 }, tmp, r)
    pure (trim { sign := rsign, chunks := r })

/-- int.hpp:499-539 and 622-625 `operator%=`, `operator%`. -/
def mod (mem : Mem) (k : Nat) (x y : BInt) : Res BInt := do
  checkZero (y.sign == 0)
  if (← digits x) < (← digits y) then pure x
  else
    let size := x.chunks.length - y.chunks.length + 1
    let tmp := List.replicate size (0 : Int) ++ y.chunks
    let (x, _) ← forRange 0 size (fun _ (s : BInt × List Int) => do
        let tmp ← eraseFront s.2
        let t : BInt := { sign := 1, chunks := tmp }
        let x ← whileF (fun w => ge w t) (fun w => subAssign mem k w t) k s.1
        pure (x, tmp)) ({ x with sign := 1 }, tmp)
    pure (trim x)

/-- int.hpp:542-555 `operator++`. -/
def inc (x : BInt) : Res BInt :=
  if x.sign = 0 then .ok { sign := 1, chunks := x.chunks ++ [1] }
  else if x.sign = 1 then absInc x else absDec x

/-- int.hpp:558-571 `operator--`. -/
def dec (x : BInt) : Res BInt :=
  if x.sign = 0 then .ok { sign := -1, chunks := x.chunks ++ [1] }
  else if x.sign = 1 then absDec x else absInc x

/-- int.hpp:316-332 `is_prime`. -/
def isPrimeLoop (mem : Mem) (k : Nat) (x : BInt) : Nat → BInt → Res Bool
  | 0, _ => .fuel
  | n + 1, i => do
    if ← le (← mul i i) x then
      if isZero (← mod mem k x i) then pure false
      else isPrimeLoop mem k x n (← absInc i)
    else pure true

def isPrime (mem : Mem) (k : Nat) (x : BInt) : Res Bool := do
  if ← le x (← ofInt 1) then pure false
  else isPrimeLoop mem k x k (← ofInt 2)

/-- int.hpp:628-643 `factorial`. -/
def factorial (k : Nat) (x : BInt) : Res BInt := do
  if x.sign = -1 then .throw "Error: Negative integer have no factorial."
  else
    let (_, r) ← whileF (fun (s : BInt × BInt) => .ok (isPositive s.1))
      (fun s => do
        let r ← mul s.2 s.1
        pure (← absDec s.1, r)) k (x, ← ofInt 1)
    pure r

/-- int.hpp:662-672, the endless loop of `next_prime`. -/
def nextPrimeLoop (mem : Mem) (k : Nat) : Nat → BInt → Res BInt
  | 0, _ => .fuel
  | n + 1, p => do
    let p ← absInc p
    let p ← absInc p
    if ← isPrime mem k p then pure p else nextPrimeLoop mem k n p

/-- int.hpp:646-675 `next_prime`. -/
def nextPrime (mem : Mem) (k : Nat) (x : BInt) : Res BInt := do
  if ← lt x (← ofInt 2) then ofInt 2
  else
    let p ← if ← isEven x then absDec x else pure x
    nextPrimeLoop mem k k p

/-- int.hpp:679-688 `to_integer<T>`, for the built-in integer types. -/
def toInteger (t : IntTy) (x : BInt) : Res Int := do
  let r ← forDown (fun i r => do
      let p ← t.arith (r * 10)
      let s ← t.arith (p + (← vget x.chunks i))
      pure (t.conv s)) (downFrom x.chunks.length) 0
  let s ← t.arith (r * x.sign)
  pure (t.conv s)

/-- int.hpp:695-726 `sqrt`. -/
def sqrt (mem : Mem) (k : Nat) (n : BInt) : Res BInt := do
  if n.sign = -1 then .throw "Error: Cannot compute square root of a negative integer."
  else if isZero n then ofInt 0
  else if ← lt n (← ofInt 4) then ofInt 1
  else
    let cur : BInt := { sign := 1, chunks := List.replicate (n.chunks.length / 2) 0 ++ [1] }
    let (cur, _) ← whileF (fun (s : BInt × BInt) => .ok (!(eq s.1 s.2)))
      (fun s => do
        let q ← div mem k n s.1
        let t ← add mem k s.1 q
        let h ← div mem k t (← ofInt 2)
        pure (h, s.1)) k (cur, ← ofInt 0)
    pure cur

/-- The test `base.digits() == 1 && base.chunks_[0] == 1` of `pow`. -/
def isUnit (x : BInt) : Res Bool := do
  if (← digits x) = 1 then pure ((← vget x.chunks 0) == 1) else pure false

/-- int.hpp:729-766 `pow`. -/
def pow (mem : Mem) (k : Nat) (base exp mod_ : BInt) : Res BInt := do
  if ← isUnit base then
    let odd ← if base.sign = -1 then isOdd exp else pure false
    ofInt (if odd then -1 else 1)
  else if isNegative exp then
    if isZero base then .throw "Error: Math domain error." else ofInt 0
  else
    let (_, _, r) ← whileF (fun (s : BInt × BInt × BInt) => .ok (!(isZero s.2.1)))
      (fun s => do
        let (num, n, r) := s
        let r ← if ← isOdd n then
            (if isZero mod_ then mul r num else do mod mem k (← mul r num) mod_) else pure r
        let num ← if isZero mod_ then mul num num else do mod mem k (← mul num num) mod_
        let n ← div mem k n (← ofInt 2)
        pure (num, n, r)) k (base, exp, ← ofInt 1)
    pure r

/-- int.hpp:769-790 `log`. -/
def log (mem : Mem) (k : Nat) (n base : BInt) : Res BInt := do
  let bad ← if n.sign ≤ 0 then pure true else lt base (← ofInt 2)
  if bad then .throw "Error: Math domain error."
  else if eq base (← ofInt 10) then ofInt ((← digits n) - 1)
  else
    let v ← div mem k n base
    let (_, r) ← whileF (fun (s : BInt × BInt) => .ok (!(isZero s.1)))
      (fun s => do
        let r ← inc s.2
        pure (← div mem k s.1 base, r)) k (v, ← ofInt 0)
    pure r

/-- utility.hpp:102-118 `internal::gcd<Int>`, called by int.hpp:793-796. -/
def gcd (mem : Mem) (k : Nat) (a b : BInt) : Res BInt := do
  let zero ← ofInt 0
  let (a, _) ← whileF (fun (s : BInt × BInt) => .ok (!(eq s.2 zero)))
    (fun s => do
      let r ← mod mem k s.1 s.2
      pure (s.2, r)) k (abs a, abs b)
  pure a

/-- int.hpp:799-807 `lcm`. -/
def lcm (mem : Mem) (k : Nat) (a b : BInt) : Res BInt := do
  if isZero a ∨ isZero b then ofInt 0
  else
    let p ← mul a b
    div mem k (abs p) (← gcd mem k a b)

end Big

end Pyincpp
