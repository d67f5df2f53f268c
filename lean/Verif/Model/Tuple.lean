import Verif.Model.Utility

/-! # sources/tuple.hpp

A tuple type is a list of element types, taken from any collection `ι` of types with values `El t` and operators `==`
(`eqv`). A tuple is nested exactly as the class: a value and the tuple it inherits from. -/

namespace Pyincpp

/-- tuple.hpp:15-49 the empty tuple, and a value on top of the base class. -/
inductive Tup {ι : Type} (El : ι → Type) : List ι → Type
  | nil : Tup El []
  | cons {t : ι} {ts : List ι} (value : El t) (base : Tup El ts) : Tup El (t :: ts)

namespace Tup
variable {ι : Type} {El : ι → Type} {t : ι} {ts us : List ι}

/-- tuple.hpp:57-61 the constructor, given its arguments by position; also `make_tuple` (tuple.hpp:130-134). -/
def make : (ts : List ι) → ((i : Fin ts.length) → El (ts.get i)) → Tup El ts
  | [], _ => .nil
  | _ :: ts, a => .cons (a 0) (make ts (fun i => a i.succ))

/-- tuple.hpp:34-37, 113-116 `size`. -/
def size (_ : Tup El ts) : Int :=
  match ts with
  | [] => 0
  | _ :: ts => wrap32 (1 + ts.length)

/-- tuple.hpp:119-122 `rest`. -/
def rest : Tup El (t :: ts) → Tup El ts
  | .cons _ b => b

/-- tuple.hpp:94-106 `get<I>`; an index out of range does not compile. -/
def get : {ts : List ι} → Tup El ts → (i : Fin ts.length) → El (ts.get i)
  | _ :: _, .cons v _, ⟨0, _⟩ => v
  | _ :: ts, .cons _ b, ⟨i + 1, h⟩ => get (ts := ts) b ⟨i, Nat.lt_of_succ_lt_succ h⟩

/-- tuple.hpp:20-24, 68-80 `==`. -/
def eq [DecidableEq ι] (eqv : (t : ι) → El t → El t → Bool) : {ts us : List ι} → Tup El ts → Tup El us → Bool
  | _, _, .nil, that => that.size == 0
  | _, _, .cons _ _, .nil => false
  | t :: _, u :: _, .cons a x, .cons b y =>
    if h : t = u then if eqv u (h ▸ a) b then eq eqv x y else false else false

/-- tuple.hpp:27-31, 83-87 `!=`. -/
def ne [DecidableEq ι] (eqv : (t : ι) → El t → El t → Bool) : {ts us : List ι} → Tup El ts → Tup El us → Bool
  | _, _, .nil, that => that.size != 0
  | _, _, .cons a x, that => !eq eqv (.cons a x) that

/-- tuple.hpp:139-147 `internal::print`; `shown` is the text of an element. -/
def printElems (shown : (t : ι) → El t → List UInt8) : {ts : List ι} → Tup El ts → List UInt8
  | [], .nil => []
  | t :: ts, .cons a x => shown t a ++ (if (Tup.cons a x : Tup El (t :: ts)).size == 1 then [] else [44, 32]) ++ printElems shown x

/-- tuple.hpp:156-169 `operator<<`. -/
def print (shown : (t : ι) → El t → List UInt8) : {ts : List ι} → Tup El ts → List UInt8
  | [t], .cons a _ => [40] ++ shown t a ++ [44, 41]
  | _, x => [40] ++ printElems shown x ++ [41]

end Tup
end Pyincpp
