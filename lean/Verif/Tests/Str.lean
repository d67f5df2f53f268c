import Verif.Tests.Basic
import Verif.Model.Compare
import Verif.Model.Objects
import Verif.Model.Iter
import Verif.Model.Print
import Verif.Model.Double

/-! # tests/test_str.cpp

`to_decimal` is run over the model of `double` in Model/Double.lean, with `std::pow(10, n)` the double nearest to `10ⁿ`; as in the tests
the result is compared up to a relative error (`Approx`). -/

namespace Pyincpp.Tests.Str
open Pyincpp

def is {α : Type} [DecidableEq α] (r : Res α) (a : α) : Bool := decide (r = .ok a)
def oor : String := "Error: Index out of range."

-- basics
example : all [
    Str.size [] == 0, Str.isEmpty [], Str.size b!"hello" == 5, !Str.isEmpty b!"hello",
    holds (do
      let s ← after (Obj.moveCtorStr .lenient 1 0) (fun i => if i = 0 then b!"hello" else [])
      pure (Str.size (s 1) == 5 && Str.size (s 0) == 0))] = true := by decide +kernel

-- compare
example : all [
    holds (Str.eq b!"12345" b!"12345"), holds (do pure (!(← Str.eq b!"135" b!"12345"))),
    holds (Str.lss b!"123" b!"12345"), holds (Str.lss b!"09999" b!"12345"),
    holds (Str.le b!"123" b!"12345"), holds (Str.le b!"09999" b!"12345"), holds (Str.le b!"12345" b!"12345"),
    holds (Str.gtr b!"123456" b!"12345"), holds (Str.gtr b!"2" b!"12345"),
    holds (Str.ge b!"123456" b!"12345"), holds (Str.ge b!"2" b!"12345"), holds (Str.ge b!"12345" b!"12345")] = true := by decide +kernel

-- assignment: addresses 0, 1, 2 hold empty, one, some
example : holds (do
    let s ← after (do Obj.copyStr .lenient 2 1; Obj.moveStr .lenient 0 1) (fun i => if i = 0 then [] else if i = 1 then b!"1" else b!"12345")
    pure (s 2 == b!"1" && s 0 == b!"1" && s 1 == [])) = true := by decide +kernel

-- iterator, access
example : all [
    Iter.begin b!"" == Iter.end b!"", Iter.rbegin b!"" == Iter.rend b!"",
    is (Iter.forward 10 b!"12345") b!"12345", is (Iter.backward 10 b!"12345") b!"54321",
    is ([0, 1, 2, 3, 4].mapM (Str.get b!"12345")) b!"12345", is ([-1, -2, -3, -4, -5].mapM (Str.get b!"12345")) b!"54321",
    throws oor (Str.get b!"12345" 5)] = true := by decide +kernel

-- find
example : all [
    is (Str.find b!"" b!"") 0, is (Str.find b!"abcdefg" b!"") 0, is (Str.find b!"abcdefg" b!"a") 0, is (Str.find b!"abcdefg" b!"g") 6,
    is (Str.find b!"abcdefg" b!"cde") 2, is (Str.find b!"abcdefg" b!"abcdefg") 0,
    is (Str.find b!"" b!"" 3 99) (-1), is (Str.find b!"abcdefg" b!"" 3 99) 3, is (Str.find b!"abcdefg" b!"a" 3 99) (-1),
    is (Str.find b!"abcdefg" b!"g" 3 99) 6, is (Str.find b!"abcdefg" b!"cde" 3 99) (-1),
    is (Str.find b!"abcdefg" b!"abcdefg" 3 99) (-1)] = true := by decide +kernel

-- examination
example : all [
    is (Str.contains b!"12345" b!"1") true, is (Str.contains b!"12345" b!"5") true, is (Str.contains b!"12345" b!"0") false,
    is (Str.contains b!"12345" b!"1" 1 99) false, is (Str.contains b!"12345" b!"5" 1 99) true, is (Str.contains b!"12345" b!"0" 1 99) false,
    is (Str.count 10 b!"12345" b!"0") 0, is (Str.count 10 b!"12345" b!"1") 1, is (Str.count 10 b!"aaa" b!"aaaa") 0,
    is (Str.count 10 b!"aaa" b!"aaa") 1, is (Str.count 10 b!"aaa" b!"aa") 1, is (Str.count 10 b!"aaa" b!"a") 3,
    is (Str.count 10 b!"aaa" b!"") 4, is (Str.count 10 b!"ababa" b!"ab") 2, is (Str.count 10 b!"ababa" b!"ba") 2,
    Str.startsWith b!"12345" b!"1", Str.startsWith b!"12345" b!"12345", !Str.startsWith b!"12345" b!"2",
    !Str.startsWith b!"12345" b!"123456",
    Str.endsWith b!"12345" b!"5", Str.endsWith b!"12345" b!"12345", !Str.endsWith b!"12345" b!"4",
    !Str.endsWith b!"12345" b!"123456"] = true := by decide +kernel

def dbl : Str.DoubleOps Dbl where
  ofInt := Dbl.ofInt
  mul := Dbl.mul
  div := Dbl.div
  add := Dbl.add
  pow10 := fun x => match x with
    | .fin q => Dbl.ofRat (10 ^ q.num)
    | x => x
  inf := .inf false
  negInf := .inf true
  nan := .nan

def dec (s : List UInt8) : Res Dbl := Str.toDecimal dbl s
/-- `REQUIRE(Str(s).to_decimal() == Approx(q))` -/
def appr (s : List UInt8) (q : ℚ) : Bool :=
  match dec s with
  | .ok (.fin x) => decide (|x - q| ≤ 2 ^ (-23 : ℤ) * |q|)
  | _ => false
def badDec : String := "Error: Invalid literal for to_decimal()."

-- to_decimal
example : all [
    appr b!"233.33" (23333 / 100), appr b!"123.456e-3" (123456 / 1000000), is (dec b!"1e+600") (.inf false),
    is (dec b!"nan") .nan, is (dec b!"inf") (.inf false),
    appr b!"0" 0, appr b!"-0" 0, appr b!"+0" 0, appr b!".0" 0, appr b!"0." 0,
    appr b!"1" 1, appr b!"-1" (-1), appr b!"+1" 1, appr b!".1" (1 / 10), appr b!"1." 1,
    appr b!"1e2" 100, appr b!"-1e2" (-100), appr b!"+1e2" 100, appr b!".1e2" 10, appr b!"1.e2" 100] = true := by decide +kernel
example : all [
    appr b!"1e+2" 100, appr b!"-1e+2" (-100), appr b!"+1e+2" 100, appr b!".1e+2" 10, appr b!"1.e+2" 100,
    appr b!"1e-2" (1 / 100), appr b!"-1e-2" (-1 / 100), appr b!"+1e-2" (1 / 100), appr b!".1e-2" (1 / 1000), appr b!"1.e-2" (1 / 100),
    appr b!"-.1" (-1 / 10), appr b!"-.1e1" (-1), appr b!"-.1e-1" (-1 / 100), appr b!"-.1e+123" (-10 ^ 122),
    throws badDec (dec b!"+"), throws badDec (dec b!"."), throws badDec (dec b!"-."), throws badDec (dec b!"1 1"),
    throws badDec (dec b!"123a"), throws badDec (dec b!"hello")] = true := by decide +kernel

def toI (s : List UInt8) (base : Int := 10) : Res BInt := Str.toInteger .lenient 5 s base
def isI (r : Res BInt) (t : List UInt8) : Bool := holds (do pure (BInt.eq (← r) (← BInt.ofChars t)))

-- to_integer
example : all [
    isI (toI b!"233") b!"233", isI (toI b!"cafebabe" 16) b!"3405691582", isI (toI b!"z" 36) b!"35",
    isI (toI b!"ffffffffffffffff" 16) b!"18446744073709551615",
    isI (toI b!"0001000") b!"1000", isI (toI b!"1") b!"1", isI (toI b!"0") b!"0", isI (toI b!"f" 16) b!"15", isI (toI b!"11" 2) b!"3",
    isI (toI b!"zz" 36) b!"1295", isI (toI b!"-1") b!"-1", isI (toI b!"-0") b!"0", isI (toI b!"-10") b!"-10",
    isI (toI b!"-10" 16) b!"-16", isI (toI b!"-z" 36) b!"-35"] = true := by decide +kernel
example : all [
    isI (toI b!"+1") b!"1", isI (toI b!"+0") b!"0",
    isI (toI b!"+10") b!"10", isI (toI b!"+10" 16) b!"16", isI (toI b!"+z" 36) b!"35", isI (toI b!"-0101" 2) b!"-5",
    isI (toI b!"-1010" 2) b!"-10", isI (toI b!"+0101" 2) b!"5", isI (toI b!"+1010" 2) b!"10",
    isI (toI b!"\n\r\n\t  233  \t\r\n\r") b!"233",
    throws "Error: Invalid base for to_integer()." (toI b!"123" 99),
    throws "Error: Invalid literal for to_integer()." (toI b!"!!!")] = true := by decide +kernel

-- reverse, lower_upper, erase
example : all [
    is (Str.reverse b!"") b!"", is (Str.reverse b!"1") b!"1", is (Str.reverse b!"12345") b!"54321",
    Str.upper b!"hahaha" == b!"HAHAHA", Str.lower b!"HAHAHA" == b!"hahaha",
    is (Str.erase b!"abcdefg" 0 1) b!"bcdefg", is (Str.erase b!"abcdefg" 1 2) b!"acdefg", is (Str.erase b!"abcdefg" 1 6) b!"ag",
    is (Str.erase b!"abcdefg" 0 7) b!"", throws oor (Str.erase b!"abcdefg" (-1) 99)] = true := by decide +kernel

-- replace
example : all [
    is (Str.replace 20 b!"abcdefg" b!"a" b!"g") b!"gbcdefg", is (Str.replace 20 b!"abcdefg" b!"g" b!"a") b!"abcdefa",
    is (Str.replace 20 b!"abcdefg" b!"cde" b!"~~~") b!"ab~~~fg", is (Str.replace 20 b!"abcdefg" b!"abcdefg" b!"") b!"",
    is (Str.replace 20 b!"abcdefg" b!"" b!"-") b!"-a-b-c-d-e-f-g-", is (Str.replace 20 b!"abcdefg" b!"" b!"") b!"abcdefg",
    is (Str.replace 20 b!"" b!"abc" b!"~~~") b!"", is (Str.replace 20 b!"hahaha" b!"h" b!"l") b!"lalala",
    is (do Str.replace 20 (← Str.replace 20 b!"hahaha" b!"a" b!"ooow~") b!"ooow" b!"o") b!"ho~ho~ho~"] = true := by decide +kernel

-- strip (`\b` is byte 8)
example : all [
    is (Str.strip .strict b!"hello") b!"hello", is (Str.strip .strict b!"\t\nhello\t\n") b!"hello",
    is (Str.strip .strict b!"           hello           ") b!"hello",
    is (Str.strip .strict (b!"\n\n\n\n \t\n" ++ [8] ++ b!"\n   hello  \n\n\t\n \r" ++ [8] ++ b!"\n\r")) b!"hello",
    is (Str.strip .strict b!"'''hello'''" 39) b!"hello"] = true := by decide +kernel

-- rotate
example : all [
    is (Str.shr b!"" 1) b!"", is (Str.shr b!"" 2) b!"", is (Str.shl b!"" 1) b!"", is (Str.shl b!"" 2) b!"",
    is (Str.shr b!"1" 1) b!"1", is (Str.shr b!"1" 2) b!"1", is (Str.shl b!"1" 1) b!"1", is (Str.shl b!"1" 2) b!"1",
    is (Str.shr b!"ABCDEFGHIJK" (-1)) b!"BCDEFGHIJKA", is (Str.shr b!"ABCDEFGHIJK" 0) b!"ABCDEFGHIJK",
    is (Str.shr b!"ABCDEFGHIJK" 1) b!"KABCDEFGHIJ", is (Str.shr b!"ABCDEFGHIJK" 3) b!"IJKABCDEFGH",
    is (Str.shr b!"ABCDEFGHIJK" 11) b!"ABCDEFGHIJK",
    is (Str.shl b!"ABCDEFGHIJK" (-1)) b!"KABCDEFGHIJ", is (Str.shl b!"ABCDEFGHIJK" 0) b!"ABCDEFGHIJK",
    is (Str.shl b!"ABCDEFGHIJK" 1) b!"BCDEFGHIJKA", is (Str.shl b!"ABCDEFGHIJK" 3) b!"DEFGHIJKABC",
    is (Str.shl b!"ABCDEFGHIJK" 11) b!"ABCDEFGHIJK"] = true := by decide +kernel

def sl (a b : Int) (st : Int := 1) : Res (List UInt8) := Str.slice 20 b!"12345" a b st

-- slice
example : all [
    is (sl (-1) 1) b!"", is (sl (-1) 1 (-1)) b!"543", is (sl 1 (-1)) b!"234", is (sl 1 (-1) (-1)) b!"",
    is (sl 0 5) b!"12345", is (sl 0 5 2) b!"135", is (sl 0 5 (-1)) b!"", is (sl 0 5 (-2)) b!"",
    is (sl (-1) (-6)) b!"", is (sl (-1) (-6) 2) b!"", is (sl (-1) (-6) (-1)) b!"54321", is (sl (-1) (-6) (-2)) b!"531",
    is (sl 0 0) b!"", is (sl 1 1) b!"", is (sl (-1) (-1)) b!"", is (sl (-1) (-1) (-1)) b!"",
    throws "Error: Slice step can not be zero." (sl 1 2 0), throws oor (sl (-7) (-6))] = true := by decide +kernel

-- append, times
example : all [
    Str.plusChar b!"12345" 54 == b!"123456", Str.plus b!"12345" b!"67" == b!"1234567",
    is (Str.mul b!"12345" 0) b!"", is (Str.mul b!"12345" 1) b!"12345", is (Str.mul b!"12345" 2) b!"1234512345"] = true := by decide +kernel

-- split; the default separator is a blank (str.hpp:662)
example : all [
    is (Str.split 20 b!"one, two, three" b!", ") [b!"one", b!"two", b!"three"],
    is (Str.split 20 b!"192.168.0.1" b!".") [b!"192", b!"168", b!"0", b!"1"],
    is (Str.split 20 b!"   1   2   3   " b!" ") [b!"1", b!"2", b!"3"],
    is (Str.split 20 b!"this is my code!" b!" ") [b!"this", b!"is", b!"my", b!"code!"],
    is (Str.split 20 b!"this is my code!" b!"this is my code!") [],
    is (Str.split 20 b!"this is my code!" b!"!") [b!"this is my code"],
    is (Str.split 20 b!"aaa" b!"a") [], is (Str.split 20 b!" " b!" ") [],
    is (Str.split 20 b!"this is my code!" b!"this is my code!" true) [b!"", b!""],
    is (Str.split 20 b!"this is my code!" b!"!" true) [b!"this is my code", b!""],
    is (Str.split 20 b!"aaa" b!"a" true) [b!"", b!"", b!"", b!""],
    is (Str.split 20 b!" " b!" " true) [b!"", b!""]] = true := by decide +kernel

-- join
example : all [
    is (Str.join b!", " []) b!"", is (Str.join b!", " [b!"a"]) b!"a", is (Str.join b!", " [b!"a", b!"b"]) b!"a, b",
    is (Str.join b!", " [b!"a", b!"b", b!"c"]) b!"a, b, c", is (Str.join b!"" [b!"a", b!"b", b!"c"]) b!"abc",
    is (Str.join b!"." [b!"192", b!"168", b!"0", b!"1"]) b!"192.168.0.1"] = true := by decide +kernel

-- format, with the texts of the arguments
example : all [
    Str.format b!"{}, {}, {}, {}." [b!"1", b!"2", b!"3", b!"4"] == b!"1, 2, 3, 4.",
    Str.format b!"I'm {}, {} years old." [b!"Alice", b!"18"] == b!"I'm Alice, 18 years old.",
    holds (do
      let a ← Lst.print id [b!"1", b!"2", b!"3"]
      let b ← Lst.print Str.print [b!"one", b!"two", b!"three"]
      pure (Str.format b!"{} -> {}" [a, b] == b!"[1, 2, 3] -> [\"one\", \"two\", \"three\"]"))] = true := by decide +kernel

-- print
example : all [Str.print b!"" == b!"\"\"", Str.print b!"1" == b!"\"1\"", Str.print b!"12345" == b!"\"12345\""] = true := by
  decide +kernel

-- input
example :
    let a := Str.input { buf := b!"this is line1\nthis is line2\nhello!" }
    let b := Str.input a.2
    let c := Str.input b.2
    ([a.1, b.1, c.1] == [some b!"this is line1", some b!"this is line2", some b!"hello!"]) = true := by decide +kernel

end Pyincpp.Tests.Str
