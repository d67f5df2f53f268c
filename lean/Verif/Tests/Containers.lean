import Verif.Tests.Basic
import Verif.Model.Compare
import Verif.Model.Objects
import Verif.Model.Iter
import Verif.Model.Print
import Verif.Model.List
import Verif.Model.Deque
import Verif.Model.Set
import Verif.Model.Dict
import Verif.Model.Tuple

/-! # tests/test_list.cpp, test_deque.cpp, test_set.cpp, test_dict.cpp, test_tuple.cpp

Not repeated: the tests whose types have a `<` that is always true (`EqLtType`), and `extend_front` of a deque with its own range
(test_deque.cpp:177), which the standard forbids: `Dq.extendFrontSelf`. -/

namespace Pyincpp.Tests.Containers
open Pyincpp

def is {α : Type} [DecidableEq α] (r : Res α) (a : α) : Bool := decide (r = .ok a)
/-- `REQUIRE((l.m()) == r)`, for a method that changes `l`. -/
def makes {σ α : Type} [DecidableEq σ] (l : σ) (m : Meth σ α) (r : σ) : Bool := is (after m l) r
/-- `REQUIRE(l.m() == a)`, for a method that returns `a` and leaves the object as `r`. -/
def gives {σ α : Type} [DecidableEq σ] [DecidableEq α] (l : σ) (m : Meth σ α) (a : α) (r : σ) : Bool := decide (m l = (.ok a, r))
def oor : String := "Error: Index out of range."
def emp : String := "Error: The container is empty."
def some5 : List Int := [1, 2, 3, 4, 5]
def cmpInt (a b : Int) : Res (Option Ordering) := .ok (some (compare a b))
def dig (n : Int) : List UInt8 := Frac.intText n
/-- Objects at the addresses 0, 1, 2. -/
def store {σ : Type} (a b c : σ) : Store σ := fun i => if i = 0 then a else if i = 1 then b else c

/-! ## List -/

-- basics
example : all [
    Lst.size ([] : List Int) == 0, Lst.isEmpty ([] : List Int), Lst.size some5 == 5, !Lst.isEmpty some5,
    holds (do let s ← after (Obj.moveContainer 1 0) (store some5 [] []); pure (s 1 == some5 && s 0 == []))] = true := by decide +kernel

-- compare
example : all [
    Cmp.seqEq (· == ·) some5 [1, 2, 3, 4, 5], !Cmp.seqEq (· == ·) [1, 3, 5] some5,
    is (Cmp.lss cmpInt [1, 2, 3] some5) true, is (Cmp.lss cmpInt [0, 9, 9, 9, 9] some5) true,
    is (Cmp.le cmpInt [1, 2, 3] some5) true, is (Cmp.le cmpInt [0, 9, 9, 9, 9] some5) true, is (Cmp.le cmpInt some5 some5) true,
    is (Cmp.gtr cmpInt [1, 2, 3, 4, 5, 6] some5) true, is (Cmp.gtr cmpInt [2] some5) true,
    is (Cmp.ge cmpInt [1, 2, 3, 4, 5, 6] some5) true, is (Cmp.ge cmpInt [2] some5) true,
    is (Cmp.ge cmpInt some5 some5) true] = true := by decide +kernel

-- assignment
example : holds (do
    let s ← after (do Obj.copy 2 1; Obj.moveContainer 0 1) (store ([] : List Int) [1] some5)
    pure (s 2 == [1] && s 0 == [1] && s 1 == [])) = true := by decide +kernel

-- iterator, access
example : all [
    Iter.begin ([] : List Int) == Iter.end ([] : List Int), Iter.rbegin ([] : List Int) == Iter.rend ([] : List Int),
    is (Iter.forward 10 some5) [1, 2, 3, 4, 5], is (Iter.backward 10 some5) [5, 4, 3, 2, 1],
    is ([0, 1, 2, 3, 4].mapM (Lst.get some5)) [1, 2, 3, 4, 5], is ([-1, -2, -3, -4, -5].mapM (Lst.get some5)) [5, 4, 3, 2, 1],
    makes some5 (do Lst.assign 0 0; Lst.assign (-1) 999) [0, 2, 3, 4, 999], throws oor (Lst.get some5 5)] = true := by decide +kernel

-- examination
example : all [
    is (do Iter.deref some5 (← Lst.find some5 1)) 1, is (do Iter.deref some5 (← Lst.find some5 5)) 5, is (Lst.find some5 0) (Iter.end some5),
    is (Lst.index some5 1) 0, is (Lst.index some5 5) 4, is (Lst.index some5 0) (-1),
    is (Lst.index some5 1 1 99) (-1), is (Lst.index some5 5 1 99) 4, is (Lst.index some5 0 1 99) (-1),
    is (Lst.contains some5 1) true, is (Lst.contains some5 5) true, is (Lst.contains some5 0) false,
    is (Lst.contains some5 1 1 99) false, is (Lst.contains some5 5 1 99) true, is (Lst.contains some5 0 1 99) false,
    Lst.count some5 0 == 0, Lst.count some5 1 == 1] = true := by decide +kernel

-- insert, remove
example : all [
    throws oor (after (Lst.insert 999 0) ([] : List Int)),
    makes ([] : List Int) (Lst.insert 0 233) [233], makes [233] (Lst.insert 0 (1 : Int)) [1, 233], makes [1, 233] (Lst.insert 2 (999 : Int)) [1, 233, 999],
    makes [1, 233, 999] (Lst.insert 1 (5 : Int)) [1, 5, 233, 999], makes [1, 5, 233, 999] (Lst.insert (-1) (-1 : Int)) [1, 5, 233, -1, 999],
    throws oor (after (Lst.remove 999) some5),
    gives some5 (Lst.remove (-2)) 4 [1, 2, 3, 5], gives [1, 2, 3, 5] (Lst.remove 1) (2 : Int) [1, 3, 5], gives [1, 3, 5] (Lst.remove 0) (1 : Int) [3, 5],
    gives [3, 5] (Lst.remove 0) (3 : Int) [5], gives [5] (Lst.remove 0) (5 : Int) [],
    throws emp (after (Lst.remove 0) ([] : List Int))] = true := by decide +kernel

-- append, remove_element, repeat, remove_all_element
example : all [
    makes ([] : List Int) (do Lst.append 2; Lst.append 3; Lst.append 3) [2, 3, 3],
    makes ([2, 3, 3, 3, 3] : List Int) (Lst.extendList .lenient none) [2, 3, 3, 3, 3, 2, 3, 3, 3, 3],
    makes ([2, 3] : List Int) (Lst.extendList .lenient (some [0, 0])) [2, 3, 0, 0],
    makes some5 (Lst.removeFirst 1) [2, 3, 4, 5], makes ([2, 3, 4, 5] : List Int) (Lst.removeFirst 2) [3, 4, 5], makes ([] : List Int) (Lst.removeFirst 6) [],
    throws "Error: Times to repeat can not be less than zero." (after (Lst.mulAssign (-1)) some5),
    makes some5 (Lst.mulAssign 1) some5, makes some5 (Lst.mulAssign 2) [1, 2, 3, 4, 5, 1, 2, 3, 4, 5], makes some5 (Lst.mulAssign 0) [],
    makes ([1, 2, 3, 4, 5, 4, 3, 2, 1] : List Int) (Lst.removeAll (.val 1)) [2, 3, 4, 5, 4, 3, 2],
    makes ([2, 3, 4, 5, 4, 3, 2] : List Int) (Lst.removeAll (.val 2)) [3, 4, 5, 4, 3],
    makes ([3, 4, 5, 4, 3] : List Int) (Lst.removeAll (.val 3)) [4, 5, 4], makes ([4, 5, 4] : List Int) (Lst.removeAll (.val 4)) [5],
    makes ([5] : List Int) (Lst.removeAll (.val 5)) [], makes ([] : List Int) (Lst.removeAll (.val 6)) []] = true := by decide +kernel

-- rotate
example : all [
    makes ([] : List Int) (Lst.rotR 1) [], makes ([] : List Int) (Lst.rotR 2) [], makes ([] : List Int) (Lst.rotL 1) [], makes ([] : List Int) (Lst.rotL 2) [],
    makes ([1] : List Int) (Lst.rotR 1) [1], makes ([1] : List Int) (Lst.rotR 2) [1], makes ([1] : List Int) (Lst.rotL 1) [1], makes ([1] : List Int) (Lst.rotL 2) [1],
    makes some5 (Lst.rotR (-1)) [2, 3, 4, 5, 1], makes some5 (Lst.rotR 0) some5, makes some5 (Lst.rotR 1) [5, 1, 2, 3, 4], makes some5 (Lst.rotR 3) [3, 4, 5, 1, 2],
    makes some5 (Lst.rotR 5) some5,
    makes some5 (Lst.rotL (-1)) [5, 1, 2, 3, 4], makes some5 (Lst.rotL 0) some5, makes some5 (Lst.rotL 1) [2, 3, 4, 5, 1], makes some5 (Lst.rotL 3) [4, 5, 1, 2, 3],
    makes some5 (Lst.rotL 5) some5] = true := by decide +kernel

-- reverse, uniquify, sort
example : all [
    makes ([] : List Int) Lst.reverse [], makes ([1] : List Int) Lst.reverse [1], makes some5 Lst.reverse [5, 4, 3, 2, 1],
    makes ([1, 2, 2, 3, 3, 3] : List Int) Lst.uniquify [1, 2, 3], makes ([1, 2, 3, 1, 2, 3, 1, 2, 3] : List Int) Lst.uniquify [1, 2, 3]] = true := by
  decide +kernel
example : Lst.sort (fun a b => decide (a < b)) ([1, 3, 5, 7, 9, 8, 6, 4, 2, 0] : List Int) =
    (.ok (), [0, 1, 2, 3, 4, 5, 6, 7, 8, 9]) := by
  show (Res.ok (), List.mergeSort _ _) = _
  simp [List.mergeSort, List.MergeSort.Internal.splitInTwo]
example : Lst.sort (fun a b => decide (b < a)) ([0, 1, 2, 3, 4, 5, 6, 7, 8, 9] : List Int) =
    (.ok (), [9, 8, 7, 6, 5, 4, 3, 2, 1, 0]) := by
  show (Res.ok (), List.mergeSort _ _) = _
  simp [List.mergeSort, List.MergeSort.Internal.splitInTwo]
example : Lst.sort (fun a b => decide (a.2 < b.2)) [(b!"Alice", 18), (b!"Sakura", 19), (b!"Homura", 20), (b!"Mei", 17), (b!"Yuzu", (18 : Int))] =
    (.ok (), [(b!"Mei", 17), (b!"Alice", 18), (b!"Yuzu", 18), (b!"Sakura", 19), (b!"Homura", 20)]) := by
  show (Res.ok (), List.mergeSort _ _) = _
  simp [List.mergeSort, List.MergeSort.Internal.splitInTwo]

-- erase, map, filter, extend, clear
example : all [
    makes ([1, 2, 3, 4, 5, 6, 7] : List Int) (Lst.erase 0 1) [2, 3, 4, 5, 6, 7], makes ([1, 2, 3, 4, 5, 6, 7] : List Int) (Lst.erase 1 2) [1, 3, 4, 5, 6, 7],
    makes ([1, 2, 3, 4, 5, 6, 7] : List Int) (Lst.erase 1 6) [1, 7], makes ([1, 2, 3, 4, 5, 6, 7] : List Int) (Lst.erase 0 7) [],
    throws oor (after (Lst.erase (-1) 99) some5),
    makes (some5, ()) (Lst.map (fun x s => (.ok (), x * 2, s))) ([2, 4, 6, 8, 10], ()),
    makes (some5, ()) (Lst.map (fun _ s => (.ok (), 1, s))) ([1, 1, 1, 1, 1], ()),
    makes (([1, 1, 1, 1, 1] : List Int), b!"") (Lst.map (fun x s => (.ok (), x, s ++ dig x ++ b!" "))) ([1, 1, 1, 1, 1], b!"1 1 1 1 1 "),
    makes some5 (Lst.filter .lenient (fun x => x % 2 == 0)) [2, 4], makes ([2, 4] : List Int) (Lst.filter .lenient (fun x => x % 2 == 1)) [],
    makes ([] : List Int) (Lst.extend .lenient none) [], makes ([] : List Int) (Lst.extend .lenient (some [1])) [1],
    makes ([1] : List Int) (Lst.extend .lenient (some some5)) [1, 1, 2, 3, 4, 5],
    makes ([1, 1, 2, 3, 4, 5] : List Int) (Lst.extend .lenient (some [0, 9])) [1, 1, 2, 3, 4, 5, 0, 9],
    makes some5 Lst.clear [], makes ([] : List Int) Lst.clear []] = true := by decide +kernel

def sl (a b : Int) (st : Int := 1) : Res (List Int) := Lst.slice 20 some5 a b st

-- slice
example : all [
    is (sl (-1) 1) [], is (sl (-1) 1 (-1)) [5, 4, 3], is (sl 1 (-1)) [2, 3, 4], is (sl 1 (-1) (-1)) [],
    is (sl 0 5) [1, 2, 3, 4, 5], is (sl 0 5 2) [1, 3, 5], is (sl 0 5 (-1)) [], is (sl 0 5 (-2)) [],
    is (sl (-1) (-6)) [], is (sl (-1) (-6) 2) [], is (sl (-1) (-6) (-1)) [5, 4, 3, 2, 1], is (sl (-1) (-6) (-2)) [5, 3, 1],
    is (sl 0 0) [], is (sl 1 1) [], is (sl (-1) (-1)) [], is (sl (-1) (-1) (-1)) [],
    throws "Error: Slice step can not be zero." (sl 1 2 0), throws oor (sl (-7) (-6))] = true := by decide +kernel

-- production, print
example : all [
    is (Lst.plusElem some5 6) [1, 2, 3, 4, 5, 6], is (Lst.plusList .lenient some5 [6, 7]) [1, 2, 3, 4, 5, 6, 7],
    is (Lst.minus some5 5) [1, 2, 3, 4], is (Lst.minus some5 6) some5,
    is (Lst.mul some5 0) [], is (Lst.mul some5 1) some5, is (Lst.mul some5 2) [1, 2, 3, 4, 5, 1, 2, 3, 4, 5],
    is (Lst.divide some5 5) [1, 2, 3, 4], is (Lst.divide some5 6) some5,
    is (Lst.print dig []) b!"[]", is (Lst.print dig [1]) b!"[1]", is (Lst.print dig some5) b!"[1, 2, 3, 4, 5]"] = true := by decide +kernel

/-! ## Deque -/

-- access
example : all [
    throws emp (Dq.back ([] : List Int)), throws emp (Dq.front ([] : List Int)), throws oor (Dq.get ([] : List Int) 0),
    is (Dq.back some5) 5, is (Dq.front some5) 1, makes some5 (Dq.assign (-1) 6) [1, 2, 3, 4, 6], is (Dq.get some5 0) 1] = true := by decide +kernel

def pushPop (push : Int → Meth (List Int) Unit) (pop : Meth (List Int) Int) (n : Nat) : Bool :=
  holds (do
    let d ← after ((List.range n).forM (fun i => push (i : Int))) []
    let r := ((List.replicate n ()).mapM (fun _ => pop)) d
    pure (Dq.size d == n && decide (r = (.ok ((List.range n).map (fun i => (n : Int) - 1 - i)), []))))

-- push_pop
example : all [
    throws emp (after Dq.popBack ([] : List Int)), throws emp (after Dq.popFront ([] : List Int)),
    pushPop Dq.pushBack Dq.popBack 100, pushPop Dq.pushFront Dq.popFront 100] = true := by decide +kernel

-- extend
example : all [
    makes ([] : List Int) (Dq.extendBack [1]) [1], makes ([1] : List Int) (Dq.extendBack some5) [1, 1, 2, 3, 4, 5],
    makes ([1, 2] : List Int) (Dq.extendFront [1]) [1, 1, 2], makes ([1, 2] : List Int) (Dq.extendFront some5) [1, 2, 3, 4, 5, 1, 2],
    makes ([1, 2] : List Int) (Dq.extendBack [0, 9]) [1, 2, 0, 9], makes ([1, 2] : List Int) (Dq.extendFront [0, 9]) [0, 9, 1, 2]] = true := by
  decide +kernel

-- rotate, reverse, clear, print
example : all [
    makes ([] : List Int) (Dq.rotR 1) [], makes ([] : List Int) (Dq.rotL 2) [], makes ([1] : List Int) (Dq.rotR 2) [1], makes ([1] : List Int) (Dq.rotL 1) [1],
    makes some5 (Dq.rotR 1) [5, 1, 2, 3, 4], makes ([5, 1, 2, 3, 4] : List Int) (Dq.rotR 2) [3, 4, 5, 1, 2],
    makes ([3, 4, 5, 1, 2] : List Int) (Dq.rotL 1) [4, 5, 1, 2, 3], makes ([4, 5, 1, 2, 3] : List Int) (Dq.rotL 2) some5,
    makes some5 (Dq.rotR 233) [3, 4, 5, 1, 2], makes ([3, 4, 5, 1, 2] : List Int) (Dq.rotR (-233)) some5,
    makes some5 (Dq.rotL 233) [4, 5, 1, 2, 3], makes ([4, 5, 1, 2, 3] : List Int) (Dq.rotL (-233)) some5,
    makes ([] : List Int) Dq.reverse [], makes ([1] : List Int) Dq.reverse [1], makes some5 Dq.reverse [5, 4, 3, 2, 1],
    makes some5 Dq.clear [], makes ([] : List Int) Dq.clear [],
    is (Dq.print dig []) b!"<>", is (Dq.print dig [1]) b!"<1>", is (Dq.print dig some5) b!"<1, 2, 3, 4, 5>"] = true := by decide +kernel

/-! ## Set -/

def lt (a b : Int) : Bool := decide (a < b)
def S (l : List Int) : List Int := PSet.ofRange lt l

-- basics, compare
example : all [
    PSet.size (S []) == 0, PSet.isEmpty (S []), PSet.size (S some5) == 5, !PSet.isEmpty (S some5),
    PSet.eq (S []) [], PSet.eq (S [5, 4, 3, 2, 1, 2, 3, 4, 5]) (S some5), !PSet.eq (S [1]) (S some5), !PSet.eq (S []) (S [1]),
    PSet.lss lt (S [5, 1]) (S some5), PSet.lss lt (S []) (S [1]), PSet.le lt (S some5) (S some5), PSet.le lt (S []) (S [1]),
    PSet.gtr lt (S [0, 1, 2, 3, 4, 5]) (S some5), PSet.gtr lt (S [1]) (S []), PSet.ge lt (S some5) (S some5), PSet.ge lt (S [1]) (S []),
    !PSet.lss lt (S [0, 1]) (S [2, 3]), !PSet.gtr lt (S [0, 1]) (S [2, 3]), !PSet.eq (S [0, 1]) (S [2, 3])] = true := by decide +kernel

-- examination, add, remove, pop
example : all [
    is (Iter.deref (S some5) (PSet.findIter lt (S some5) 1)) 1, PSet.findIter lt (S some5) 0 == Iter.end (S some5),
    PSet.contains lt (S some5) 1, !PSet.contains lt (S some5) 0,
    is (PSet.min (S some5)) 1, throws emp (PSet.min ([] : List Int)), is (PSet.max (S some5)) 5, throws emp (PSet.max ([] : List Int)),
    decide (([3, 1, 2, 5, 4, 4, 5, 2, 1, 3].mapM (PSet.add lt)) [] =
      (.ok [true, true, true, true, true, false, false, false, false, false], S some5)),
    decide (([3, 1, 2, 5, 4, 4, 5, 2, 1, 3].mapM (PSet.remove lt)) (S some5) =
      (.ok [true, true, true, true, true, false, false, false, false, false], [])),
    decide (((List.replicate 5 ()).mapM (fun _ => PSet.pop)) (S some5) = (.ok some5, [])),
    throws emp (after PSet.pop ([] : List Int))] = true := by decide +kernel

-- ops, extend, clear, print
example : all [
    PSet.inter lt (S some5) (S [1, 3, 5, 7, 9]) == S [1, 3, 5], PSet.union lt (S some5) (S [1, 3, 5, 7, 9]) == S [1, 2, 3, 4, 5, 7, 9],
    PSet.diff lt (S some5) (S [1, 3, 5, 7, 9]) == S [2, 4], PSet.symDiff lt (S some5) (S [1, 3, 5, 7, 9]) == S [2, 4, 7, 9],
    PSet.inter lt [] [] == [], PSet.union lt [] [] == [], PSet.diff lt [] [] == [], PSet.symDiff lt [] [] == [],
    makes ([] : List Int) (PSet.extendSelf .lenient lt) [], makes ([] : List Int) (PSet.extend lt [1]) [1], makes (S [1]) (PSet.extend lt some5) some5,
    makes (S some5) (PSet.extend lt [0, 9]) (S [0, 1, 2, 3, 4, 5, 9]),
    makes (S some5) PSet.clear [], makes ([] : List Int) PSet.clear [],
    is (PSet.print dig []) b!"{}", is (PSet.print dig [1]) b!"{1}", is (PSet.print dig some5) b!"{1, 2, 3, 4, 5}"] = true := by decide +kernel

/-! ## Dict -/

def ltS : List UInt8 → List UInt8 → Bool
  | _, [] => false
  | [], _ :: _ => true
  | a :: as, b :: bs => decide (a < b) || (a == b && ltS as bs)
def D (l : List (Int × List UInt8)) : List (Int × List UInt8) := PDict.ofRange lt l
def three : List (Int × List UInt8) := [(1, b!"one"), (2, b!"two"), (3, b!"three")]
def named : List (List UInt8 × Int) := PDict.ofRange ltS [(b!"one", 1), (b!"two", 2), (b!"three", 3)]

-- basics, compare, iterator
example : all [
    PDict.size (D []) == 0, PDict.isEmpty (D []),
    PDict.size (D [(1, b!"one"), (2, b!"two"), (3, b!"three"), (4, b!"four"), (5, b!"five")]) == 5, !PDict.isEmpty (D three),
    PDict.eq (D []) [], PDict.eq (D three) three, !PDict.eq (D [(1, b!"one")]) [], !PDict.eq (D [(1, b!"one"), (2, b!"two"), (3, b!"three!")]) three,
    is (Iter.backward 10 (D three)) [(3, b!"three"), (2, b!"two"), (1, b!"one")]] = true := by decide +kernel

-- access, examination
example : all [
    is (PDict.getOr ltS named b!"one" 233) 1, is (PDict.getOr ltS named b!"not exist" 233) 233,
    is (PDict.get ltS named b!"one") 1, is (PDict.get ltS named b!"two") 2, is (PDict.get ltS named b!"three") 3,
    is (do PDict.get ltS (← after (PDict.assign ltS b!"one" 1111) named) b!"one") 1111,
    throws "Error: Key is not found in the dictionary." (PDict.get ltS named b!"four"),
    PDict.find lt three 1 == Iter.begin three, PDict.find lt three 3 + 1 == Iter.end three, PDict.find lt three 0 == Iter.end three,
    PDict.contains lt three 1, PDict.contains lt three 3, !PDict.contains lt three 0, is (PDict.min three) 1, is (PDict.max three) 3] = true := by
  decide +kernel

-- keys_values_items, add, remove, pop
example : all [
    is (PDict.keys lt three) (S [1, 2, 3]), is (PDict.values ltS three) (PSet.ofRange ltS [b!"one", b!"two", b!"three"]),
    is (PDict.items lt ltS three) (PSet.ofRange (PDict.pairLt lt ltS) three),
    decide ([(3, b!"three"), (1, b!"one"), (2, b!"two"), (3, b!"three"), (1, b!"one"), (2, b!"two")].mapM (fun p => PDict.add lt p.1 p.2) [] =
      (.ok [true, true, true, false, false, false], three)),
    decide ([3, 1, 2, 2, 1, 3].mapM (PDict.remove lt) three = (.ok [true, true, true, false, false, false], [])),
    decide ((List.replicate 3 ()).mapM (fun _ => PDict.pop) three = (.ok three, [])),
    throws emp (after PDict.pop (D []))] = true := by decide +kernel

-- extend, clear, print
example : all [
    makes (D []) (PDict.extendSelf .lenient lt) [], makes (D []) (PDict.extend lt [(1, b!"one")]) [(1, b!"one")], makes (D [(1, b!"one")]) (PDict.extend lt three) three,
    makes three (PDict.extend lt [(4, b!"four")]) (D [(1, b!"one"), (2, b!"two"), (3, b!"three"), (4, b!"four")]),
    makes (D [(1, b!"111")]) (PDict.extend lt three) [(1, b!"111"), (2, b!"two"), (3, b!"three")],
    makes three PDict.clear [], makes (D []) PDict.clear [],
    is (PDict.print dig id (D [])) b!"{}", is (PDict.print dig id (D [(1, b!"one")])) b!"{1: one}",
    is (PDict.print dig id three) b!"{1: one, 2: two, 3: three}"] = true := by decide +kernel

/-! ## Tuple: `int` is 0, `double` 1 (given by ten times its value), `char` 2 -/

abbrev El : Fin 3 → Type := fun _ => Int
def eqv (_ : Fin 3) (a b : Int) : Bool := a == b
def shown : (t : Fin 3) → El t → List UInt8
  | 0, n => dig n
  | 1, x => dig (x / 10) ++ (if x % 10 = 0 then [] else b!"." ++ dig (x % 10))
  | 2, c => [c.toNat.toUInt8]
def t0 : Tup El [] := .nil
def t1 : Tup El [0] := .cons (1 : Int) .nil
def t3 : Tup El [0, 1, 2] := .cons (1 : Int) (.cons (25 : Int) (.cons (65 : Int) .nil))

example : all [
    t0.size == 0, t1.size == 1, t3.size == 3,
    t0.eq eqv t0, t0.ne eqv t1, t0.ne eqv t3, t1.ne eqv t0, t1.eq eqv t1, t1.ne eqv t3, t3.ne eqv t0, t3.ne eqv t1, t3.eq eqv t3,
    t3.rest.eq eqv (.cons (25 : Int) (.cons (65 : Int) .nil) : Tup El [1, 2]), t3.rest.rest.eq eqv (.cons (65 : Int) .nil : Tup El [2]),
    t3.rest.rest.rest.eq eqv t0,
    decide ((t3.get 0 : Int) = 1), decide ((t3.get 1 : Int) = 25), decide ((t3.get 2 : Int) = 65),
    (Tup.make [] (fun i => i.elim0) : Tup El []).eq eqv t0, (Tup.make [0] (fun _ => (1 : Int)) : Tup El [0]).eq eqv t1,
    t0.print shown == b!"()", t1.print shown == b!"(1,)", t3.print shown == b!"(1, 2.5, A)"] = true := by decide +kernel

end Pyincpp.Tests.Containers
