import Verif.Tests.Basic
import Verif.Model.Objects
import Verif.Model.IntMethods

/-! # tests/test_int.cpp -/

namespace Pyincpp.Tests

def I (t : List UInt8) : Res BInt := BInt.ofChars t
def eqI (r : Res BInt) (t : List UInt8) : Bool := holds (do pure (BInt.eq (← r) (← I t)))
def un (f : BInt → Res BInt) (a : List UInt8) : Res BInt := do f (← I a)
def bin (f : BInt → BInt → Res BInt) (a b : List UInt8) : Res BInt := do f (← I a) (← I b)
def tst (f : BInt → Res Bool) (a : List UInt8) : Bool := holds (do f (← I a))
def nst (f : BInt → Res Bool) (a : List UInt8) : Bool := holds (do pure (!(← f (← I a))))
def rel (f : BInt → BInt → Res Bool) (a b : List UInt8) : Bool := holds (do f (← I a) (← I b))

def z : List UInt8 := b!"0"
def p : List UInt8 := b!"18446744073709551617"
def n : List UInt8 := b!"-18446744073709551617"

-- basics
example : all [
    holds (do pure ((← BInt.digits (← BInt.ofInt 0)) == 0)),
    holds (do pure (BInt.isZero (← BInt.ofInt 0))),
    holds (do pure ((← BInt.digits (← BInt.ofInt 123456789)) == 9)),
    holds (do pure (!BInt.isZero (← BInt.ofInt 123456789))),
    holds (do pure ((← BInt.digits (← I b!"123456789000")) == 12)),
    nst (fun x => pure x.isZero) b!"123456789000",
    throws "Error: Wrong integer literal." (I b!"hello")] = true := by decide +kernel

-- compare
example : all [
    rel (fun x y => pure (x.eq y)) z z, rel (fun x y => pure (x.eq y)) p p, rel (fun x y => pure (x.eq y)) n n,
    rel (fun x y => pure (!x.eq y)) z p, rel (fun x y => pure (!x.eq y)) z n,
    rel BInt.lt n z, rel BInt.lt n p, rel BInt.le n z, rel BInt.le n p, rel BInt.le n n,
    rel BInt.gt p z, rel BInt.gt p n, rel BInt.ge p z, rel BInt.ge p n, rel BInt.ge p p] = true := by decide +kernel

-- assignment: addresses 0, 1, 2 hold zero, positive, negative
example : holds (do
    let a ← I z; let b ← I p; let c ← I n
    let s ← after (do Obj.copy 1 2; Obj.moveInt 0 2) (fun i => if i = 0 then a else if i = 1 then b else c)
    pure (BInt.eq (s 1) c && BInt.eq (s 0) c && BInt.eq (s 2) (← BInt.ofInt 0))) = true := by decide +kernel

-- examination
example : all [
    holds (do pure ((← BInt.digits (← I z)) == 0)), holds (do pure ((← BInt.digits (← I p)) == 20)),
    holds (do pure ((← BInt.digits (← I n)) == 20)),
    tst (fun x => pure x.isZero) z, nst (fun x => pure x.isZero) p, nst (fun x => pure x.isZero) n,
    nst (fun x => pure x.isPositive) z, tst (fun x => pure x.isPositive) p, nst (fun x => pure x.isPositive) n,
    nst (fun x => pure x.isNegative) z, nst (fun x => pure x.isNegative) p, tst (fun x => pure x.isNegative) n,
    tst BInt.isEven z, nst BInt.isEven p, nst BInt.isEven n,
    nst BInt.isOdd z, tst BInt.isOdd p, tst BInt.isOdd n] = true := by decide +kernel

-- is_prime (but for the three tests near INT_MAX, which take 20000 divisions each)
example : all [
    nst (BInt.isPrime .lenient 20) b!"-1", nst (BInt.isPrime .lenient 20) b!"0", nst (BInt.isPrime .lenient 20) b!"1",
    tst (BInt.isPrime .lenient 20) b!"2", tst (BInt.isPrime .lenient 20) b!"3", nst (BInt.isPrime .lenient 20) b!"4",
    tst (BInt.isPrime .lenient 20) b!"5", nst (BInt.isPrime .lenient 20) b!"6", tst (BInt.isPrime .lenient 20) b!"7",
    nst (BInt.isPrime .lenient 20) b!"8", nst (BInt.isPrime .lenient 20) b!"9", nst (BInt.isPrime .lenient 20) b!"10"] = true := by
  decide +kernel

-- inc_dec
example : all [
    eqI (un BInt.inc b!"-1") b!"0", eqI (un BInt.inc b!"0") b!"1", eqI (un BInt.inc b!"1") b!"2",
    eqI (un BInt.inc b!"99999999999999") b!"100000000000000",
    eqI (un BInt.dec b!"-1") b!"-2", eqI (un BInt.dec b!"0") b!"-1", eqI (un BInt.dec b!"1") b!"0",
    eqI (un BInt.dec b!"100000000000000") b!"99999999999999"] = true := by decide +kernel

def add := bin (BInt.add .lenient 3)
def sub := bin (BInt.sub .lenient 3)
def mul := bin BInt.mul
def div := bin (BInt.div .lenient 20)
def mod := bin (BInt.mod .lenient 20)

-- plus
example : all [
    eqI (add p p) b!"36893488147419103234", eqI (add p z) p, eqI (add p n) z,
    eqI (add n p) z, eqI (add n z) n, eqI (add n n) b!"-36893488147419103234",
    eqI (add z p) p, eqI (add z z) z, eqI (add z n) n,
    eqI (add b!"99999" b!"1") b!"100000"] = true := by decide +kernel

-- minus
example : all [
    eqI (sub p p) z, eqI (sub p z) p, eqI (sub p n) b!"36893488147419103234",
    eqI (sub n p) b!"-36893488147419103234", eqI (sub n z) n, eqI (sub n n) z,
    eqI (sub z p) n, eqI (sub z z) z, eqI (sub z n) p,
    eqI (sub b!"100000" b!"1") b!"99999"] = true := by decide +kernel

-- times
example : all [
    eqI (mul p p) b!"340282366920938463500268095579187314689", eqI (mul p z) z,
    eqI (mul p n) b!"-340282366920938463500268095579187314689",
    eqI (mul n p) b!"-340282366920938463500268095579187314689", eqI (mul n z) z,
    eqI (mul n n) b!"340282366920938463500268095579187314689",
    eqI (mul z p) z, eqI (mul z z) z, eqI (mul z n) z,
    eqI (mul b!"100000" b!"1") b!"100000"] = true := by decide +kernel

-- divide
example : all [
    eqI (div p p) b!"1", throws "Error: Divide by zero." (div p z), eqI (div p n) b!"-1",
    eqI (div n p) b!"-1", throws "Error: Divide by zero." (div n z), eqI (div n n) b!"1",
    eqI (div z p) z, throws "Error: Divide by zero." (div z z), eqI (div z n) z,
    eqI (div b!"100000" b!"1") b!"100000"] = true := by decide +kernel

-- mod
example : all [
    eqI (mod p p) z, throws "Error: Divide by zero." (mod p z), eqI (mod p n) z,
    eqI (mod n p) z, throws "Error: Divide by zero." (mod n z), eqI (mod n n) z,
    eqI (mod z p) z, throws "Error: Divide by zero." (mod z z), eqI (mod z n) z,
    eqI (mod b!"100000" b!"1") z] = true := by decide +kernel

-- factorial (20 instead of 100 and 120)
example : all [
    throws "Error: Negative integer have no factorial." (un (BInt.factorial 200) b!"-1"),
    eqI (un (BInt.factorial 200) b!"0") b!"1", eqI (un (BInt.factorial 200) b!"1") b!"1",
    eqI (un (BInt.factorial 200) b!"2") b!"2", eqI (un (BInt.factorial 200) b!"3") b!"6",
    eqI (un (BInt.factorial 200) b!"20") b!"2432902008176640000"] = true := by decide +kernel

def primesFrom : Nat → BInt → Res (List BInt)
  | 0, _ => pure []
  | k + 1, x => do
    let y ← BInt.nextPrime .lenient 100 x
    pure (y :: (← primesFrom k y))

-- next_prime (up to 71)
example : holds (do
    pure ((← primesFrom 20 (← BInt.ofInt 0)) ==
      (← [2, 3, 5, 7, 11, 13, 17, 19, 23, 29, 31, 37, 41, 43, 47, 53, 59, 61, 67, 71].mapM BInt.ofInt))) = true := by decide +kernel

-- to_integer
example : all [
    holds (do pure ((← BInt.toInteger ⟨8, true⟩ (← I z)) == 0)),
    holds (do pure ((← BInt.toInteger ⟨64, true⟩ (← I z)) == 0)),
    holds (do pure ((← BInt.toInteger ⟨32, true⟩ (← I b!"1024")) == 1024)),
    holds (do pure ((← BInt.toInteger ⟨32, true⟩ (← I b!"-1024")) == -1024))] = true := by decide +kernel

def sqrt := un (BInt.sqrt .lenient 50)

-- sqrt
example : all [
    throws "Error: Cannot compute square root of a negative integer." (sqrt b!"-1"),
    eqI (sqrt b!"0") b!"0", eqI (sqrt b!"1") b!"1", eqI (sqrt b!"2") b!"1", eqI (sqrt b!"3") b!"1", eqI (sqrt b!"4") b!"2",
    eqI (sqrt b!"5") b!"2", eqI (sqrt b!"9") b!"3", eqI (sqrt b!"10") b!"3", eqI (sqrt b!"16") b!"4", eqI (sqrt b!"100") b!"10",
    eqI (sqrt b!"9801") b!"99"] = true := by decide +kernel

def pow (b e m : List UInt8) : Res BInt := do BInt.pow .lenient 100 (← I b) (← I e) (← I m)

-- pow (but for pow(pow(9, 9), 9), and for pow(9999, 1001, 100))
example : all [
    eqI (pow b!"-1" b!"-1" z) b!"-1", eqI (pow b!"-1" b!"0" z) b!"1", eqI (pow b!"-1" b!"1" z) b!"-1",
    throws "Error: Math domain error." (pow b!"0" b!"-1" z), eqI (pow b!"0" b!"0" z) b!"1", eqI (pow b!"0" b!"1" z) b!"0",
    eqI (pow b!"1" b!"-1" z) b!"1", eqI (pow b!"1" b!"0" z) b!"1", eqI (pow b!"1" b!"1" z) b!"1",
    eqI (pow b!"2" b!"3" z) b!"8", eqI (pow b!"2" b!"100" z) b!"1267650600228229401496703205376",
    eqI (pow b!"1024" b!"1024" b!"100") b!"76"] = true := by decide +kernel

def log (a b : List UInt8) : Res BInt := do BInt.log .lenient 100 (← I a) (← I b)

-- log (but for the logarithms of numbers near 2^64)
example : all [
    throws "Error: Math domain error." (log n b!"2"), throws "Error: Math domain error." (log z b!"2"),
    throws "Error: Math domain error." (log p b!"1"),
    eqI (log b!"1" b!"2") b!"0", eqI (log b!"1" b!"3") b!"0", eqI (log b!"1" b!"4") b!"0",
    eqI (log b!"2" b!"2") b!"1", eqI (log b!"4" b!"2") b!"2", eqI (log b!"8" b!"2") b!"3",
    eqI (log b!"10" b!"10") b!"1", eqI (log b!"100" b!"10") b!"2", eqI (log b!"1000" b!"10") b!"3",
    eqI (log b!"123" b!"10") b!"2", eqI (log b!"12345" b!"10") b!"4", eqI (log b!"123456789" b!"10") b!"8",
    eqI (log b!"123456789000" b!"233") b!"4"] = true := by decide +kernel

def gcd := bin (BInt.gcd .lenient 50)
def lcm := bin (BInt.lcm .lenient 50)

-- gcd_lcm
example : all [
    eqI (gcd b!"0" b!"0") b!"0", eqI (gcd b!"0" b!"1") b!"1", eqI (gcd b!"1" b!"0") b!"1", eqI (gcd b!"1" b!"1") b!"1",
    eqI (gcd b!"6" b!"8") b!"2", eqI (gcd b!"24" b!"48") b!"24", eqI (gcd b!"37" b!"48") b!"1", eqI (gcd b!"12345" b!"54321") b!"3",
    eqI (lcm b!"0" b!"0") b!"0", eqI (lcm b!"0" b!"1") b!"0", eqI (lcm b!"1" b!"0") b!"0", eqI (lcm b!"1" b!"1") b!"1",
    eqI (lcm b!"6" b!"8") b!"24", eqI (lcm b!"24" b!"48") b!"48", eqI (lcm b!"37" b!"48") b!"1776",
    eqI (lcm b!"12345" b!"54321") b!"223530915"] = true := by decide +kernel

-- random: for some draws
example : all [
    throws "Error: `digits` must be a non-negative integer or default = -1." (BInt.random 0 (fun _ => 0) 0 (-2)),
    eqI (BInt.random 0 (fun _ => 7) 3 0) b!"0",
    holds (do pure ((← BInt.digits (← BInt.random 0 (fun _ => 0) 3 1)) == 1)),
    holds (do pure ((← BInt.digits (← BInt.random 0 (fun _ => 9) 3 2)) == 2)),
    holds (do pure ((← BInt.digits (← BInt.random 0 (fun i => i) 3 3)) == 3)),
    holds (do pure (decide ((← BInt.digits (← BInt.random 43 (fun i => i % 10) 3 (-1))) ≤ 4300)))] = true := by decide +kernel

-- print
example : all [
    holds (do pure ((← BInt.print (← I z)) == b!"0")), holds (do pure ((← BInt.print (← I p)) == p)),
    holds (do pure ((← BInt.print (← I n)) == n))] = true := by decide +kernel

-- input
example : holds (do
    let (a, s) ← BInt.input { buf := b!"+123\n-456\t789 0" }
    let (b, s) ← BInt.input s
    let (c, s) ← BInt.input s
    let (d, _) ← BInt.input s
    pure ([a, b, c, d] == [← I b!"123", ← I b!"-456", ← I b!"789", ← I b!"0"])) = true := by decide +kernel

end Pyincpp.Tests
