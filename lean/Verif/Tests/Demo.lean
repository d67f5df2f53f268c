import Verif.Tests.Int
import Verif.Tests.Str
import Verif.Tests.Numbers
import Verif.Tests.Containers

/-! # tests/test_demo.cpp, tests/compatibility.cpp

Not repeated: `Complex::pow` and `Int("5").factorial().factorial()` (its digits are the business of C12), and the lines that only build
a `std::unordered_set`. -/

namespace Pyincpp.Tests.Demo
open Pyincpp Pyincpp.Tests.Containers

def int (t : List UInt8) : Res BInt := BInt.ofChars t
def isI (r : Res BInt) (t : List UInt8) : Bool := holds (do pure (BInt.eq (← r) (← int t)))

-- Usage: containers
example : all [
    is (Lst.get some5 (-1)) 5, makes (some5, ()) (Lst.map (fun x s => (.ok (), x * 2, s))) ([2, 4, 6, 8, 10], ()),
    makes ([1, 2, 3, 1, 2, 3, 1, 2, 3] : List Int) Lst.uniquify [1, 2, 3],
    PSet.lss lt (S [5, 1]) (S some5), PSet.inter lt (S some5) (S [1, 3, 5, 7, 9]) == S [1, 3, 5],
    is (PDict.get ltS named b!"one") 1, is (PDict.values lt named) (S [1, 2, 3]),
    decide ((t3.get 2 : Int) = 65), t3.rest.eq eqv (.cons (25 : Int) (.cons (65 : Int) .nil) : Tup El [1, 2]),
    is (Dq.front some5) 1, makes some5 (Dq.rotR 1) [5, 1, 2, 3, 4]] = true := by decide +kernel

-- Usage: Int
example : all [
    isI (do BInt.add .lenient 5 (← int b!"18446744073709551617") (← int b!"18446744073709551617")) b!"36893488147419103234",
    isI (do BInt.inc (← int b!"99999999999999")) b!"100000000000000",
    isI (do BInt.pow .lenient 50 (← int b!"1024") (← int b!"1024") (← int b!"100")) b!"76",
    isI (do BInt.factorial 10 (← int b!"5")) b!"120",
    isI (do BInt.nextPrime .lenient 10 (← BInt.ofInt 0)) b!"2"] = true := by decide +kernel

-- Usage: Str
example : all [
    Tests.Str.appr b!".1e-2" (1 / 1000),
    isI (Str.toInteger .lenient 5 b!"-ffffffffffffffff" 16) b!"-18446744073709551615",
    is (Str.mul b!"hello! " 2) b!"hello! hello! ",
    is (Str.replace 20 b!"hahaha" b!"a" b!"ooow~ ") b!"hooow~ hooow~ hooow~ ",
    is (Str.slice 20 b!"12345" 0 5 2) b!"135",
    is (Str.split 20 b!"one, two, three" b!", ") [b!"one", b!"two", b!"three"],
    is (Str.join b!"." [b!"192", b!"168", b!"0", b!"1"]) b!"192.168.0.1",
    Str.format b!"I'm {}, {} years old." [b!"Alice", b!"18"] == b!"I'm Alice, 18 years old."] = true := by decide +kernel

-- Usage: Complex, Fraction
example : all [
    Numbers.eqC (Cx.add Numbers.A (Numbers.C 1 2) (Numbers.C 1 3)) (Numbers.C 2 5),
    Numbers.isF (Numbers.bin Frac.add (Numbers.F 1 2) (Numbers.F 1 3)) 5 6,
    Numbers.isF (Numbers.bin Frac.mod (Numbers.F 1 2) (Numbers.F 1 3)) 1 6] = true := by decide +kernel

/-- The dictionary of the section "Advantage". -/
def dict : Res (List (List UInt8 × List BInt)) := do
  pure (PDict.ofRange ltS [(b!"first", [← int b!"123", ← int b!"456"]), (b!"second", [← int b!"789"]),
    (b!"third", [← int b!"12345678987654321", ← int b!"5"])])
def text {α : Type} (f : α → Res (List UInt8)) (a : α) : List UInt8 :=
  match f a with
  | .ok t => t
  | _ => []

-- Advantage
example : all [
    holds (do
      let t ← PDict.print Str.print (text (Lst.print (text BInt.print))) (← dict)
      pure (t == b!"{\"first\": [123, 456], \"second\": [789], \"third\": [12345678987654321, 5]}")),
    holds (do pure (decide ((← PDict.keys ltS (← dict)) = PSet.ofRange ltS [b!"first", b!"second", b!"third"]))),
    isI (do BInt.factorial 10 (← Lst.get (← PDict.get ltS (← dict) b!"third") (-1))) b!"120",
    holds (do
      let d := PDict.ofRange lt [(1, 1), (2, 4), (3, 9)]
      pure ((← Iter.forward 10 d).all (fun p => p.1 * p.1 == p.2))),
    t1.ne eqv t3] = true := by decide +kernel

end Pyincpp.Tests.Demo
