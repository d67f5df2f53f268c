import Verif.Model.Utility
import Mathlib.Data.Nat.Log

/-! # sources/int.hpp

The class `Int`. Sizes and indices of digit vectors are natural numbers (assumption: an `Int` has fewer
than 2^31 - 1 digits, so the `int` loop counters of the code do not overflow; Model/IntAny.lean has the functions
without this assumption); digit values and digit
arithmetic are checked 32-bit `int`s. Byte strings are `List UInt8`.

Every function that can loop takes a fuel `k`; every function that accesses digit vectors through the
subtraction takes the memory mode `mem`. -/

namespace Pyincpp

/-- int.hpp:15-33: `signed char sign_` (1, -1 or 0) and `std::vector<int> chunks_` (little endian).
`BASE = 10` (line 19) and `DIGITS_PER_CHUNK = 1` (line 22) are inlined. The helper constructor (148-153) is `BInt.mk`. -/
structure BInt where
  sign : Int
  chunks : List Int
  deriving DecidableEq, Repr

namespace BInt

/-- int.hpp:36-51 `trim`: erase the zeros at the most significant end; an empty vector means sign 0. -/
def trim (x : BInt) : BInt :=
  let c := (x.chunks.reverse.dropWhile (· == 0)).reverse
  { sign := if c.isEmpty then 0 else x.sign, chunks := c }

/-- `'0'`, `'9'`, `'+'`, `'-'`. -/
def c0 : UInt8 := 48
def c9 : UInt8 := 57
def cPlus : UInt8 := 43
def cMinus : UInt8 := 45

/-- int.hpp:54-72 `is_integer`. The `char` comparisons with `'0'` and `'9'` are on signed chars: a byte
≥ 128 is negative, hence `< '0'`; comparing bytes unsigned instead it is `> '9'`: rejected either way. -/
def isInteger (chars : List UInt8) : Bool :=
  if chars.length = 0 ∨ (chars.length = 1 ∧ (chars[0]? = some cPlus ∨ chars[0]? = some cMinus)) then false
  else
    (if chars[0]? = some cPlus ∨ chars[0]? = some cMinus then chars.drop 1 else chars).all
      (fun c => ¬ (c < c0 ∨ c > c9))

/-- int.hpp:76-95 `abs_inc`. -/
def absInc (x : BInt) : Res BInt := do
  let v := x.chunks ++ [0]                                   -- push_back(0)
  let i ← whileF (fun i => do pure ((← vget v i) == 9)) (fun i => .ok (i + 1)) (v.length + 1) 0
  let v ← vset v i (← iadd (← vget v i) 1)                   -- ++chunks_[i]
  let v ← forDown (fun j v => vset v j 0) i v                -- while (i != 0) chunks_[--i] = 0
  pure (trim { x with chunks := v })

/-- int.hpp:99-113 `abs_dec`. -/
def absDec (x : BInt) : Res BInt := do
  let v := x.chunks
  let i ← whileF (fun i => do pure ((← vget v i) == 0)) (fun i => .ok (i + 1)) (v.length + 1) 0
  let v ← vset v i (← isub (← vget v i) 1)
  let v ← forDown (fun j v => vset v j 9) i v
  pure (trim { x with chunks := v })

/-- int.hpp:117-120 `floor_div`: `std::floor(double(a) / double(b))`. Simplified to the exact floor; that the
rounding of the double quotient cannot change the floor for digit differences is `floorDiv_double` in
`Props/IntExtra.lean`. -/
def floorDiv (a b : Int) : Int := a.fdiv b

/-- int.hpp:124-127 `cycle_mod`. -/
def cycleMod (a b : Int) : Res Int := do isub a (← imul (floorDiv a b) b)

/-- int.hpp:137-143, the loop of `abs_cmp` from index `i - 1` downwards. -/
def absCmpLoop (a b : List Int) : Nat → Res Int
  | 0 => .ok 0
  | i + 1 => do
    let x ← vget a i
    let y ← vget b i
    if x ≠ y then pure (if x > y then 1 else -1) else absCmpLoop a b i

/-- int.hpp:130-146 `abs_cmp`. -/
def absCmp (x y : BInt) : Res Int :=
  if x.chunks.length ≠ y.chunks.length then .ok (if x.chunks.length > y.chunks.length then 1 else -1)
  else absCmpLoop x.chunks y.chunks x.chunks.length

/-- int.hpp:161-170 `Int(int integer = 0)`. -/
def ofInt (n : Int) : Res BInt := do
  let sign := if n = 0 then 0 else if n > 0 then 1 else -1
  let m ← iabs n
  let (_, c) ← whileF (fun (s : Int × List Int) => .ok (decide (s.1 > 0)))
    (fun s => do
      let d ← imod s.1 10
      let q ← idiv s.1 10
      pure (q, s.2 ++ [d])) (m.toNat + 1) (m, [])
  pure { sign := sign, chunks := c }

/-- int.hpp:173-203 `Int(const char* chars)`; the argument is the text before the terminating NUL.
Line 195 is always true because `DIGITS_PER_CHUNK = 1`, so every digit is stored at once. -/
def ofChars (chars : List UInt8) : Res BInt := do
  if ¬ isInteger chars then .throw "Error: Wrong integer literal."
  else
    let sign : Int := if chars[0]? = some cMinus then -1 else 1
    let digits := if chars[0]? = some cMinus ∨ chars[0]? = some cPlus then chars.drop 1 else chars
    let len := digits.length
    let v ← forRange 0 len (fun i v => do
        let d ← vget digits i
        let chunk ← iadd (← imul 0 10) ((d.toNat : Int) - 48)     -- chunk is 0 at the start of every round
        vset v (len - 1 - i) chunk) (List.replicate len 0)
    pure (trim { sign := sign, chunks := v })

/-- int.hpp:221-224 `operator==`. -/
def eq (a b : BInt) : Bool := a.sign == b.sign && a.chunks == b.chunks

/-- int.hpp:227-248 `operator<=>`. -/
def cmp (a b : BInt) : Res Int :=
  if a.sign ≠ b.sign then
    if a.sign = 1 then .ok 1
    else if a.sign = -1 then .ok (-1)
    else .ok (if b.sign = 1 then -1 else 1)
  else do
    let c ← absCmp a b
    pure (if a.sign ≥ 0 then c else -c)

/-- The rewritten relational operators of C++20: `a < b` is `(a <=> b) < 0` etc. -/
def lt (a b : BInt) : Res Bool := do pure ((← cmp a b) < 0)
def le (a b : BInt) : Res Bool := do pure ((← cmp a b) ≤ 0)
def gt (a b : BInt) : Res Bool := do pure ((← cmp a b) > 0)
def ge (a b : BInt) : Res Bool := do pure ((← cmp a b) ≥ 0)

/-- int.hpp:209-214 and 258-266, move construction / move assignment from `b` into another object:
`(new value, what is left in b)`. A moved-from `std::vector` is empty. -/
def move (b : BInt) : BInt × BInt := (b, { sign := 0, chunks := [] })

/-- int.hpp:273-283 `digits`. `std::floor(std::log10(c))` of a positive chunk is the floor logarithm; of 0 it
is -inf, whose conversion to `int` is undefined. -/
def digits (x : BInt) : Res Int :=
  match x.chunks.getLast? with
  | some c => if c ≤ 0 then .ub .overflow else .ok ((x.chunks.length : Int) - 1 + Nat.log 10 c.toNat + 1)
  | none => .ok 0

/-- int.hpp:286-301 -/
def isZero (x : BInt) : Bool := x.sign == 0
def isPositive (x : BInt) : Bool := x.sign == 1
def isNegative (x : BInt) : Bool := x.sign == -1

/-- int.hpp:304-307 `is_even`: `(chunks_[0] & 1) == 0`. -/
def isEven (x : BInt) : Res Bool :=
  if isZero x then .ok true else do pure ((← vget x.chunks 0) % 2 == 0)

/-- int.hpp:310-313 `is_odd`: `(chunks_[0] & 1) == 1`. -/
def isOdd (x : BInt) : Res Bool :=
  if isZero x then .ok false else do pure ((← vget x.chunks 0) % 2 == 1)

/-- int.hpp:584-589 unary `operator-`. -/
def neg (x : BInt) : BInt := { x with sign := -x.sign }

/-- int.hpp:578-581 unary `operator+`. -/
def pos (x : BInt) : BInt := x

/-- int.hpp:592-595 `abs`. -/
def abs (x : BInt) : BInt := if x.sign = -1 then neg x else x

/-- int.hpp:353-373, the part of `operator+=` for operands of the same non-zero sign. `self` says that `rhs`
is the same object as `*this`: then `b` is the very vector `a` that is being resized and written. -/
def addSame (mem : Mem) (self : Bool) (x y : BInt) : Res BInt := do
  let bv := fun (a : List Int) => if self then a else y.chunks
  let a := vresize x.chunks (max x.chunks.length y.chunks.length + 1)
  let n := (bv a).length
  let a ← forRange 0 n (fun i a => do
      let tmp ← iadd (← vget a i) (← vget (bv a) i)
      let a ← vset a i (tmp.tmod 10)
      vaddAt mem a (i + 1) (tmp.tdiv 10)) a
  let a ← forUpWhile (fun i a => do pure (decide ((← vget a i) ≥ 10)))
    (fun i a => do
      let a ← vaddAt mem a (i + 1) 1
      vset a i 0) n (a.length - n) a
  pure (trim { x with chunks := a })

/-- int.hpp:391-416, the part of `operator-=` for operands of the same non-zero sign. `rhs_digits` is a copy,
so aliasing does not matter here. -/
def subSame (mem : Mem) (x y : BInt) : Res BInt := do
  let c ← absCmp x y
  let (sign, a, b) := if c = -1 then (-x.sign, y.chunks, x.chunks) else (x.sign, x.chunks, y.chunks)
  let n := b.length
  let a ← forRange 0 n (fun i a => do
      let tmp ← isub (← vget a i) (← vget b i)
      let a ← vset a i (← cycleMod tmp 10)
      vaddAt mem a (i + 1) (floorDiv tmp 10)) a
  let a ← forUpWhile (fun i a => do pure (decide ((← vget a i) < 0)))
    (fun i a => do
      let a ← vaddAt mem a (i + 1) (-1)
      vset a i 9) n (a.length - n) a
  pure (trim { sign := sign, chunks := a })

mutual
/-- int.hpp:339-374 `operator+=`, with `self` as for `addSame`. The two operators call each other at most once. -/
def addAssign (mem : Mem) (self : Bool) : Nat → BInt → BInt → Res BInt
  | 0, _, _ => .fuel
  | k + 1, x, y =>
    if x.sign = 0 ∨ y.sign = 0 then .ok (if x.sign = 0 then y else x)
    else if x.sign ≠ y.sign then subAssign mem k x (neg y)
    else addSame mem self x y

/-- int.hpp:377-417 `operator-=`. -/
def subAssign (mem : Mem) : Nat → BInt → BInt → Res BInt
  | 0, _, _ => .fuel
  | k + 1, x, y =>
    if x.sign = 0 ∨ y.sign = 0 then .ok (if x.sign = 0 then neg y else x)
    else if x.sign ≠ y.sign then addAssign mem false k x (neg y)
    else subSame mem x y
end

/-- int.hpp:598-601 `operator+`: works on a copy, so never aliased. -/
def add (mem : Mem) (k : Nat) (x y : BInt) : Res BInt := addAssign mem false k x y
/-- int.hpp:604-607 `operator-`. -/
def sub (mem : Mem) (k : Nat) (x y : BInt) : Res BInt := subAssign mem k x y

/-- int.hpp:420-448 `operator*=`. The result is accumulated in a separate vector, so aliasing does not matter.
The helper constructor of lines 149-153 stores its arguments. -/
def mulAssign (x y : BInt) : Res BInt :=
  if x.sign = 0 ∨ y.sign = 0 then ofInt 0
  else do
    let a := x.chunks
    let b := y.chunks
    let c := List.replicate (a.length + b.length) 0
    let c ← forRange 0 a.length (fun i c =>
        forRange 0 b.length (fun j c => do
          let p ← imul (← vget a i) (← vget b j)
          let c ← vset c (i + j) (← iadd (← vget c (i + j)) p)
          let cij ← vget c (i + j)
          let c ← vset c (i + j + 1) (← iadd (← vget c (i + j + 1)) (cij.tdiv 10))
          vset c (i + j) (cij.tmod 10)) c) c
    pure (trim { sign := if x.sign = y.sign then 1 else -1, chunks := c })

/-- int.hpp:610-613 `operator*`. -/
def mul (x y : BInt) : Res BInt := mulAssign x y

/-- `v.erase(v.begin())`: undefined on an empty vector. -/
def eraseFront (v : List Int) : Res (List Int) :=
  match v with
  | [] => .ub .badRange
  | _ :: t => .ok t

/-- int.hpp:451-496 `operator/=`. `rhs` is read only before `*this` is modified (apart from `rhs.sign_`, read
at line 475 before line 478 writes `sign_`), so aliasing does not matter. -/
def divAssign (mem : Mem) (k : Nat) (x y : BInt) : Res BInt := do
  checkZero (y.sign == 0)
  if (← digits x) < (← digits y) then ofInt 0
  else
    let size := x.chunks.length - y.chunks.length + 1
    let tmp := List.replicate size (0 : Int) ++ y.chunks
    let rsign : Int := if x.sign = y.sign then 1 else -1
    let r := List.replicate size (0 : Int)
    let (_, _, r) ← forDown (fun i (s : BInt × List Int × List Int) => do
        let tmp ← eraseFront s.2.1
        let t : BInt := { sign := 1, chunks := tmp }
        let (x, r) ← whileF (fun (w : BInt × List Int) => ge w.1 t)
          (fun w => do
            let r ← vset w.2 i (← iadd (← vget w.2 i) 1)
            let x ← subAssign mem k w.1 t
            pure (x, r)) k (s.1, s.2.2)
        pure (x, tmp, r)) size ({ x with sign := 1 }, tmp, r)
    pure (trim { sign := rsign, chunks := r })

/-- int.hpp:616-619 `operator/`. -/
def div (mem : Mem) (k : Nat) (x y : BInt) : Res BInt := divAssign mem k x y

/-- int.hpp:499-539 `operator%=`. Aliasing does not matter, as for `operator/=`. -/
def modAssign (mem : Mem) (k : Nat) (x y : BInt) : Res BInt := do
  checkZero (y.sign == 0)
  if (← digits x) < (← digits y) then pure x
  else
    let size := x.chunks.length - y.chunks.length + 1
    let tmp := List.replicate size (0 : Int) ++ y.chunks
    let (x, _) ← forRange 0 size (fun _ (s : BInt × List Int) => do
        let tmp ← eraseFront s.2
        let t : BInt := { sign := 1, chunks := tmp }
        let x ← whileF (fun w => ge w t) (fun w => subAssign mem k w t) k s.1
        pure (x, tmp)) ({ x with sign := 1 }, tmp)
    pure (trim x)

/-- int.hpp:622-625 `operator%`. -/
def mod (mem : Mem) (k : Nat) (x y : BInt) : Res BInt := modAssign mem k x y

/-- int.hpp:542-555 `operator++`. -/
def inc (x : BInt) : Res BInt :=
  if x.sign = 0 then .ok { sign := 1, chunks := x.chunks ++ [1] }
  else if x.sign = 1 then absInc x else absDec x

/-- int.hpp:558-571 `operator--`. -/
def dec (x : BInt) : Res BInt :=
  if x.sign = 0 then .ok { sign := -1, chunks := x.chunks ++ [1] }
  else if x.sign = 1 then absDec x else absInc x

/-- int.hpp:316-332 `is_prime`. The loop returns early with `false`, so its state is `(i, result so far)`. -/
def isPrimeLoop (mem : Mem) (k : Nat) (x : BInt) : Nat → BInt → Res Bool
  | 0, _ => .fuel
  | n + 1, i => do
    if ← le (← mul i i) x then
      if isZero (← mod mem k x i) then pure false
      else isPrimeLoop mem k x n (← absInc i)
    else pure true

def isPrime (mem : Mem) (k : Nat) (x : BInt) : Res Bool := do
  if ← le x (← ofInt 1) then pure false
  else isPrimeLoop mem k x k (← ofInt 2)

/-- int.hpp:628-643 `factorial`. -/
def factorial (k : Nat) (x : BInt) : Res BInt := do
  if x.sign = -1 then .throw "Error: Negative integer have no factorial."
  else
    let (_, r) ← whileF (fun (s : BInt × BInt) => .ok (isPositive s.1))
      (fun s => do
        let r ← mul s.2 s.1
        pure (← absDec s.1, r)) k (x, ← ofInt 1)
    pure r

/-- int.hpp:662-672, the endless loop of `next_prime`. -/
def nextPrimeLoop (mem : Mem) (k : Nat) : Nat → BInt → Res BInt
  | 0, _ => .fuel
  | n + 1, p => do
    let p ← absInc p
    let p ← absInc p
    if ← isPrime mem k p then pure p else nextPrimeLoop mem k n p

/-- int.hpp:646-675 `next_prime`. -/
def nextPrime (mem : Mem) (k : Nat) (x : BInt) : Res BInt := do
  if ← lt x (← ofInt 2) then ofInt 2
  else
    let p ← if ← isEven x then absDec x else pure x
    nextPrimeLoop mem k k p

/-- A C++ integer type, for `to_integer<T>`. -/
structure IntTy where
  bits : Nat
  signed : Bool

/-- The value of type `T` obtained by converting `x` (modulo 2^bits). -/
def IntTy.conv (t : IntTy) (x : Int) : Int :=
  if t.signed then (x + 2 ^ (t.bits - 1)) % 2 ^ t.bits - 2 ^ (t.bits - 1) else x % 2 ^ t.bits

/-- `x` is a value of type `T`. -/
def IntTy.fits (t : IntTy) (x : Int) : Prop :=
  if t.signed then - 2 ^ (t.bits - 1) ≤ x ∧ x < 2 ^ (t.bits - 1) else 0 ≤ x ∧ x < 2 ^ t.bits

instance (t : IntTy) (x : Int) : Decidable (t.fits x) := by unfold IntTy.fits; infer_instance

/-- The result of an arithmetic operation whose operands have type `T` and `int`: types narrower than `int` are
promoted to `int`; a signed type of at least 32 bits overflows with undefined behaviour; an unsigned one wraps. -/
def IntTy.arith (t : IntTy) (x : Int) : Res Int :=
  if t.bits < 32 then ck x
  else if t.signed then (if t.fits x then .ok x else .ub .overflow)
  else .ok (t.conv x)

/-- int.hpp:679-688 `to_integer<T>`, for the built-in integer types. -/
def toInteger (t : IntTy) (x : BInt) : Res Int := do
  let r ← forDown (fun i r => do
      let p ← t.arith (r * 10)
      let s ← t.arith (p + (← vget x.chunks i))
      pure (t.conv s)) x.chunks.length 0
  let s ← t.arith (r * x.sign)
  pure (t.conv s)

/-- int.hpp:695-726 `sqrt`. -/
def sqrt (mem : Mem) (k : Nat) (n : BInt) : Res BInt := do
  if n.sign = -1 then .throw "Error: Cannot compute square root of a negative integer."
  else if isZero n then ofInt 0
  else if ← lt n (← ofInt 4) then ofInt 1
  else
    let cur : BInt := { sign := 1, chunks := List.replicate (n.chunks.length / 2) 0 ++ [1] }
    let (cur, _) ← whileF (fun (s : BInt × BInt) => .ok (!(eq s.1 s.2)))
      (fun s => do
        let q ← div mem k n s.1
        let t ← add mem k s.1 q
        let h ← div mem k t (← ofInt 2)
        pure (h, s.1)) k (cur, ← ofInt 0)
    pure cur

/-- The test `base.digits() == 1 && base.chunks_[0] == 1` of `pow`. -/
def isUnit (x : BInt) : Res Bool := do
  if (← digits x) = 1 then pure ((← vget x.chunks 0) == 1) else pure false

/-- int.hpp:729-766 `pow`. -/
def pow (mem : Mem) (k : Nat) (base exp mod_ : BInt) : Res BInt := do
  if ← isUnit base then
    let odd ← if base.sign = -1 then isOdd exp else pure false
    ofInt (if odd then -1 else 1)
  else if isNegative exp then
    if isZero base then .throw "Error: Math domain error." else ofInt 0
  else
    let (_, _, r) ← whileF (fun (s : BInt × BInt × BInt) => .ok (!(isZero s.2.1)))
      (fun s => do
        let (num, n, r) := s
        let r ← if ← isOdd n then
            (if isZero mod_ then mul r num else do mod mem k (← mul r num) mod_) else pure r
        let num ← if isZero mod_ then mul num num else do mod mem k (← mul num num) mod_
        let n ← divAssign mem k n (← ofInt 2)
        pure (num, n, r)) k (base, exp, ← ofInt 1)
    pure r

/-- int.hpp:769-790 `log`. -/
def log (mem : Mem) (k : Nat) (n base : BInt) : Res BInt := do
  let bad ← if n.sign ≤ 0 then pure true else lt base (← ofInt 2)
  if bad then .throw "Error: Math domain error."
  else if eq base (← ofInt 10) then ofInt ((← digits n) - 1)
  else
    let v ← div mem k n base
    let (_, r) ← whileF (fun (s : BInt × BInt) => .ok (!(isZero s.1)))
      (fun s => do
        let r ← inc s.2
        pure (← divAssign mem k s.1 base, r)) k (v, ← ofInt 0)
    pure r

/-- utility.hpp:102-118 `internal::gcd<Int>`, called by int.hpp:793-796. `b != 0` is `!(b == Int(0))`. -/
def gcd (mem : Mem) (k : Nat) (a b : BInt) : Res BInt := do
  let zero ← ofInt 0
  let (a, _) ← whileF (fun (s : BInt × BInt) => .ok (!(eq s.2 zero)))
    (fun s => do
      let r ← mod mem k s.1 s.2
      pure (s.2, r)) k (abs a, abs b)
  pure a

/-- int.hpp:799-807 `lcm`. -/
def lcm (mem : Mem) (k : Nat) (a b : BInt) : Res BInt := do
  if isZero a ∨ isZero b then ofInt 0
  else
    let p ← mul a b
    div mem k (abs p) (← gcd mem k a b)

/-- int.hpp:815-847 `random`. The random device is an oracle: `len` is what `digits_limit(gen)` yields
(used when `digits == -1`), `draw i` what the i-th `digit(gen)` yields, `most` what `most_digit(gen)` yields. -/
def random (len : Nat) (draw : Nat → Int) (most : Int) (digits : Int) : Res BInt :=
  if digits < -1 then .throw "Error: `digits` must be a non-negative integer or default = -1."
  else
    let n := if digits = -1 then len else digits.toNat
    let sign : Int := if n = 0 then 0 else 1
    let c := (List.range n).map draw
    let c := if n ≠ 0 ∧ c.getLast? = some 0 then c.set (n - 1) most else c
    .ok { sign := sign, chunks := c }

/-- `os << d` / `std::to_string(d)` for a chunk: decimal digits of a non-negative `int`. -/
def decimal (d : Int) : List UInt8 := ((Nat.toDigits 10 d.toNat).map (fun c => c.toNat.toUInt8))

/-- int.hpp:854-874 `operator<<` (on a stream with default formatting flags). -/
def print (x : BInt) : Res (List UInt8) :=
  if x.sign = 0 then .ok [c0]
  else match x.chunks.reverse with
    | [] => .ub .badDeref
    | c :: cs => .ok ((if x.sign = -1 then [cMinus] else []) ++ decimal c ++ (cs.map decimal).flatten)

/-- int.hpp:892-905 `std::hash<pyincpp::Int>`; `h8` and `h32` are the library's hashes of `signed char` and `int`. -/
def hash (h8 h32 : Int → BitVec 64) (x : BInt) : BitVec 64 :=
  x.chunks.foldl (fun v d => v ^^^ (h32 d <<< 1)) (h8 x.sign)

end BInt
end Pyincpp
