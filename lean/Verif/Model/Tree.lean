import Verif.Cpp

/-! # The ordered containers of the standard library

`std::set<T>` and `std::map<K, V>` hold their elements in the order of a comparator; here they are the list of the
elements in iteration order, smallest first. `lt` is the comparator (`std::less`). Two elements are equivalent if neither is
less than the other; at most one of them is held. -/

namespace Pyincpp
namespace Tree

variable {α : Type} (lt : α → α → Bool)

/-- `insert(x)`: the new contents, and whether `x` was inserted (no if an equivalent element is there, which stays). -/
def insert (x : α) : List α → List α × Bool
  | [] => ([x], true)
  | y :: ys =>
    if lt y x then (y :: (insert x ys).1, (insert x ys).2)
    else if lt x y then (x :: y :: ys, true)
    else (y :: ys, false)

/-- `insert(first, last)`, also the constructors from a range and `std::inserter`: one after the other. -/
def insertAll (xs : List α) (s : List α) : List α := xs.foldl (fun s x => (insert lt x s).1) s

/-- `erase(key)`: the new contents and the number of elements removed. -/
def erase (x : α) : List α → List α × Nat
  | [] => ([], 0)
  | y :: ys =>
    if lt y x then (y :: (erase x ys).1, (erase x ys).2)
    else if lt x y then (y :: ys, 0)
    else (ys, 1)

/-- `find(key)`: the position of the equivalent element, `none` is `end()`. -/
def find (x : α) : List α → Option Nat
  | [] => none
  | y :: ys =>
    if lt y x then (find x ys).map (· + 1)
    else if lt x y then none
    else some 0

/-- `std::includes(first1, last1, first2, last2)`: the loop of the reference implementation; the first argument is the
longer range. -/
def includes : List α → List α → Bool
  | _, [] => true
  | [], _ :: _ => false
  | a :: as, b :: bs =>
    if lt b a then false
    else if !(lt a b) then includes as bs
    else includes as (b :: bs)

/-- One step of the merge loops: the current element `a` of the first range against the second range. -/
def walkInner (l r b : Bool) (a : α) (as : List α) (next : List α → List α) : List α → List α
  | [] => if l then a :: as else []
  | c :: cs =>
    if lt a c then (if l then a :: next (c :: cs) else next (c :: cs))
    else if lt c a then (if r then c :: walkInner l r b a as next cs else walkInner l r b a as next cs)
    else (if b then a :: next cs else next cs)

/-- The loop of `std::set_union`, `set_intersection`, `set_difference`, `set_symmetric_difference`: both ranges are walked in
step; they differ in whether an element of the first range only (`l`), of the second range only (`r`), of both (`b`, from the first
range) is copied. -/
def walk (l r b : Bool) : List α → List α → List α
  | [], cs => if r then cs else []
  | a :: as, cs => walkInner lt l r b a as (walk l r b as) cs

def setUnion : List α → List α → List α := walk lt true true true
def setIntersection : List α → List α → List α := walk lt false false true
def setDifference : List α → List α → List α := walk lt true false false
def setSymmetricDifference : List α → List α → List α := walk lt true true false

end Tree
end Pyincpp
