import Verif.Model.List

/-! # Elements that moving changes

`List` and `Deque` rearrange their elements with standard algorithms that move them: `std::reverse`, `std::rotate`, `std::remove`, and `insert` and
`erase` of `std::vector`. Model/List.lean says what they give as if moving an element left it alone. The move constructors and assignments of
`Int`, `Fraction`, `Complex` and `Str` reset the source (int.hpp:209-214, 258-266, fraction.hpp:54-60, 88-97, complex.hpp:40-46, 67-76,
str.hpp:129-132, 153-157), those of the containers empty it. Here the algorithms are those of libstdc++, element by element; `left x` is what
moving leaves of `x`. -/

namespace Pyincpp
namespace Moves

variable {α : Type} (left : α → α)

/-- `v[i] = std::move(v[j])`, also for `i = j`. -/
def moveTo (v : List α) (i j : Nat) : Res (List α) := do
  let x ← vget v j
  vset (← vset v i x) j (left x)

/-- `std::iter_swap`, which is `T t = std::move(v[i]); v[i] = std::move(v[j]); v[j] = std::move(t);`. -/
def swap (v : List α) (i j : Nat) : Res (List α) := do
  let t ← vget v i
  let v ← vset v i (left t)
  let v ← moveTo left v i j
  vset v j t

/-- `std::reverse` of the elements from `a` on, up to `b` without it: list.hpp:257-262, deque.hpp:241-246. -/
def reverseLoop : Nat → (a b : Nat) → List α → Res (List α)
  | 0, _, _, _ => .fuel
  | k + 1, a, b, v => if a < b - 1 then do reverseLoop k (a + 1) (b - 1) (← swap left v a (b - 1)) else .ok v

/-- `std::move(v + b, v + b + n, v + a)`. -/
def shiftDown (a b : Nat) : Nat → List α → Res (List α)
  | 0, v => .ok v
  | n + 1, v => do shiftDown (a + 1) (b + 1) n (← moveTo left v a b)

/-- `vector_.erase(begin() + a, begin() + b)`: list.hpp:170, 200, 216, 297, 316. Nothing is moved if the range is empty. -/
def erase (v : List α) (a b : Nat) : Res (List α) :=
  if a ≤ b ∧ b ≤ v.length then
    if a = b then .ok v
    else do
      let r ← shiftDown left a b (v.length - b) v
      pure (r.take (v.length - (b - a)))
  else .ub .badRange

/-- list.hpp:163-173 `remove` behind its checks: `T element = std::move(vector_[i]); vector_.erase(begin() + i);`. -/
def takeOut (v : List α) (i : Nat) : Res (α × List α) := do
  let x ← vget v i
  let v ← vset v i (left x)
  let r ← erase left v i (i + 1)
  pure (x, r)

/-- `std::move_backward(v + p, v + n, v + n + 1)`. -/
def shiftUp (p : Nat) : Nat → List α → Res (List α)
  | 0, v => .ok v
  | n + 1, v => if p ≤ n then do shiftUp p n (← moveTo left v (n + 1) n) else .ok v

/-- `vector_.insert(begin() + p, e)` with room for it: list.hpp:158. Behind the last element it is constructed in place. Otherwise `e` is copied
first, the last element is moved to a new place, the ones before it are moved up, and the copy is assigned. -/
def insert (v : List α) (p : Nat) (e : α) : Res (List α) :=
  if p = v.length then .ok (v ++ [e])
  else if p < v.length then do
    let x ← vget v (v.length - 1)
    let v' ← vset v (v.length - 1) (left x)
    let r ← shiftUp left p (v.length - 1) (v' ++ [x])
    vset r p e
  else .ub .badRange

/-- The loop of `std::remove`, as `Lst.stdRemoveLoop`: `*result = std::move(*first)`. -/
def removeLoop [BEq α] (value : Arg α) : (n i res : Nat) → List α → Res (Nat × List α)
  | 0, _, res, v => .ok (res, v)
  | n + 1, i, res, v => do
    let x ← vget v i
    let e ← Lst.Arg.read v value
    if x == e then removeLoop value n (i + 1) res v
    else do removeLoop value n (i + 1) (res + 1) (← moveTo left v res i)

/-- list.hpp:213-218 `operator/=`. -/
def removeAll [BEq α] (value : Arg α) (v : List α) : Res (List α) :=
  if v.isEmpty then .ok v
  else do
    let e ← Lst.Arg.read v value
    let p ← Lst.stdFind v 0 v.length e
    let r ← if p = v.length then .ok (p, v) else removeLoop left value (v.length - (p + 1)) (p + 1) p v
    erase left r.2 r.1 r.2.length

/-- `m` swaps of `v[p]` and `v[q]`, both going up. -/
def swapUp : (m p q : Nat) → List α → Res (List α)
  | 0, _, _, v => .ok v
  | m + 1, p, q, v => do swapUp m (p + 1) (q + 1) (← swap left v p q)

/-- `m` swaps of `v[p - 1]` and `v[q - 1]`, both going down. -/
def swapDown : (m p q : Nat) → List α → Res (List α)
  | 0, _, _, v => .ok v
  | m + 1, p, q, v => do swapDown m (p - 1) (q - 1) (← swap left v (p - 1) (q - 1))

/-- The loop of `std::rotate` for random access iterators: the `n` elements from `p` on are to be rotated by `k`. -/
def rotateLoop : Nat → (p n k : Nat) → List α → Res (List α)
  | 0, _, _, _, _ => .fuel
  | f + 1, p, n, k, v =>
    if k < n - k then do
      let v ← swapUp left (n - k) p (p + k) v
      if n % k = 0 then .ok v else rotateLoop f (p + (n - k)) k (k - n % k) v
    else do
      let k := n - k
      let v ← swapDown left (n - k) (p + n - k) (p + n) v
      if n % k = 0 then .ok v else rotateLoop f p k (n % k) v

/-- `std::rotate(begin, begin + k, end)`: list.hpp:251, deque.hpp:235. If both parts are as long, they are exchanged. -/
def rotate (v : List α) (k : Nat) : Res (List α) :=
  if v.length < k then .ub .badRange
  else if k = 0 ∨ k = v.length then .ok v
  else if k = v.length - k then swapUp left k 0 k v
  else rotateLoop left v.length 0 v.length k v

end Moves
end Pyincpp
