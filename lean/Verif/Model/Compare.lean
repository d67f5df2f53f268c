import Verif.Model.Set
import Verif.Model.Str
import Verif.Model.Double

/-! # Comparison of sequences

`List` (list.hpp:54), `Deque` (deque.hpp:56) and `Str` (str.hpp:139) have a defaulted `operator<=>`, which also declares a
defaulted `operator==`. They are those of `std::vector`, `std::deque` and `std::string`. -/

namespace Pyincpp
namespace Cmp
variable {α : Type}

/-- The library's `synth-three-way` for an element type that has only `<`, or whose `<=>` does not give a comparison
category (`Int` and `Fraction`, whose `<=>` is an `int`). The comparison of elements may fail. `none` is
`std::partial_ordering::unordered`, which only element types with a category of their own (`double`) produce. -/
def synth (lt : α → α → Res Bool) (a b : α) : Res (Option Ordering) := do
  if ← lt a b then pure (some .lt)
  else if ← lt b a then pure (some .gt)
  else pure (some .eq)

/-- `<=>` of `double`. -/
def ofDbl (a b : Dbl) : Res (Option Ordering) :=
  .ok (if Dbl.lt a b then some .lt else if Dbl.lt b a then some .gt else if Dbl.eq a b then some .eq else none)

/-- `std::lexicographical_compare_three_way`, the loop; it stops at the first pair that is not equivalent. -/
def lexCmp (cmp : α → α → Res (Option Ordering)) : List α → List α → Res (Option Ordering)
  | [], [] => .ok (some .eq)
  | [], _ :: _ => .ok (some .lt)
  | _ :: _, [] => .ok (some .gt)
  | a :: as, b :: bs => do
    let c ← cmp a b
    if c = some .eq then lexCmp cmp as bs else pure c

/-- `l < m`, i.e. `(l <=> m) < 0`. -/
def lss (cmp : α → α → Res (Option Ordering)) (l m : List α) : Res Bool := do pure ((← lexCmp cmp l m) == some .lt)
/-- `l > m`. -/
def gtr (cmp : α → α → Res (Option Ordering)) (l m : List α) : Res Bool := do pure ((← lexCmp cmp l m) == some .gt)
/-- `l <= m`. -/
def le (cmp : α → α → Res (Option Ordering)) (l m : List α) : Res Bool := do
  let c ← lexCmp cmp l m
  pure (c == some .lt || c == some .eq)
/-- `l >= m`. -/
def ge (cmp : α → α → Res (Option Ordering)) (l m : List α) : Res Bool := do
  let c ← lexCmp cmp l m
  pure (c == some .gt || c == some .eq)

/-- `l == m`: the sizes, then `std::equal`. -/
def eqLoop (eq : α → α → Bool) : List α → List α → Bool
  | [], _ => true
  | _ :: _, [] => false
  | a :: as, b :: bs => if !eq a b then false else eqLoop eq as bs

/-- list.hpp:54, deque.hpp:56. -/
def seqEq (eq : α → α → Bool) (l m : List α) : Bool := l.length == m.length && eqLoop eq l m

end Cmp

namespace Str

/-- `char_traits<char>::compare(s, t, n)`, i.e. `memcmp`: bytes compare as unsigned characters; the sign of the result. -/
def memcmp : Nat → List UInt8 → List UInt8 → Res Int
  | 0, _, _ => .ok 0
  | n + 1, a :: s, b :: t => if a < b then .ok (-1) else if b < a then .ok 1 else memcmp n s t
  | _ + 1, _, _ => .ub .outOfBounds

/-- `std::string::compare`: the common length first, then the difference of the lengths, cut to the range of `int`. -/
def compare (s t : List UInt8) : Res Int := do
  let r ← memcmp (min s.length t.length) s t
  if r = 0 then pure (max INT_MIN (min INT_MAX ((s.length : Int) - t.length))) else pure r

/-- str.hpp:139 `<`. -/
def lss (s t : List UInt8) : Res Bool := do pure (decide ((← compare s t) < 0))
/-- str.hpp:139 `>`. -/
def gtr (s t : List UInt8) : Res Bool := do pure (decide ((← compare s t) > 0))
/-- str.hpp:139 `<=`. -/
def le (s t : List UInt8) : Res Bool := do pure (decide ((← compare s t) ≤ 0))
/-- str.hpp:139 `>=`. -/
def ge (s t : List UInt8) : Res Bool := do pure (decide ((← compare s t) ≥ 0))
/-- str.hpp:139 `==`: the sizes, then `compare` over them. -/
def eq (s t : List UInt8) : Res Bool := do
  if s.length = t.length then pure (decide ((← memcmp s.length s t) = 0)) else pure false

/-- str.hpp:746-752 `std::hash<Str>`; `h` is `std::hash<std::string>`. -/
def hash (h : List UInt8 → BitVec 64) (s : List UInt8) : BitVec 64 := h s

end Str
end Pyincpp
