import Verif.Model.StableSort
import Verif.Model.Moves

/-! # sources/list.hpp:283-289 `sort` when there is less memory for the buffer

`std::stable_sort` of libstdc++ 13 asks for a buffer of half the elements, and takes a smaller one or none (bits/stl_tempbuf.h:104-120). With a smaller
one, parts that do not fit are merged by cutting both parts in two, exchanging the inner pieces, and going on with both halves; without a buffer, all
parts are. Line numbers are those of bits/stl_algo.h. The places are those of Model/StableSort.lean; `std::rotate` is that of Model/Moves.lean. -/

namespace Pyincpp
namespace StableSort

variable {α : Type} (left : α → α) (cmp : α → α → Res Bool)

/-- `std::iter_swap`. -/
def swapPlaces (i j : Nat) : Meth (List α) Unit := do
  let t ← out left i
  move left i j
  put j t

/-- `std::rotate(i, i + l₁, i + l₁ + l₂)`. -/
def rotatePlaces (i l₁ l₂ : Nat) : Meth (List α) Unit := do
  let v ← Meth.get
  if v.length < i + l₁ + l₂ then Meth.lift (.ub .outOfBounds)
  else do
    let w ← Meth.lift (Moves.rotate left ((v.drop i).take (l₁ + l₂)) l₁)
    Meth.set (v.take i ++ w ++ v.drop (i + l₁ + l₂))

/-- bits/stl_algobase.h:1456-1483 `__lower_bound` and 2019-2046 `__upper_bound`: the binary search for the first of `len` places from `first` on for
which `go` says no. The first argument bounds the loop. -/
def bound (go : α → Res Bool) : (k first len : Nat) → Meth (List α) Nat
  | 0, _, _ => Meth.lift .fuel
  | k + 1, first, len =>
    if len = 0 then pure first
    else do
      let x ← get (first + len / 2)
      if ← Meth.lift (go x) then bound go k (first + len / 2 + 1) (len - len / 2 - 1)
      else bound go k first (len / 2)

/-- 2437-2457 and 2493-2513, where the parts of `l₁` and `l₂` elements are cut: the numbers of elements before the cuts. -/
def cuts (a l₁ l₂ : Nat) : Meth (List α) (Nat × Nat) :=
  if l₂ < l₁ then do
    let p ← get (a + l₁ / 2)
    let s ← bound (fun x => cmp x p) (l₂ + 1) (a + l₁) l₂
    pure (l₁ / 2, s - (a + l₁))
  else do
    let p ← get (a + l₁ + l₂ / 2)
    let s ← bound (fun x => do pure (!(← cmp p x))) (l₁ + 1) a l₁
    pure (s - a, l₂ / 2)

/-- 2475-2522 `__merge_without_buffer`; the first argument bounds the recursion. -/
def mergePlain : (k a l₁ l₂ : Nat) → Meth (List α) Unit
  | 0, _, _, _ => Meth.lift .fuel
  | k + 1, a, l₁, l₂ =>
    if l₁ = 0 ∨ l₂ = 0 then pure ()
    else if l₁ + l₂ = 2 then do
      let y ← get (a + l₁)
      let x ← get a
      if ← ask cmp y x then swapPlaces left a (a + l₁) else pure ()
    else do
      let (d₁, d₂) ← cuts cmp a l₁ l₂
      rotatePlaces left (a + d₁) (l₁ - d₁) d₂
      mergePlain k a d₁ d₂
      mergePlain k (a + d₁ + d₂) (l₁ - d₁) (l₂ - d₂)

/-- 2783-2799 `__inplace_stable_sort` of the `n` places from `a` on; the first argument bounds the recursion. -/
def sortPlain : (k a n : Nat) → Meth (List α) Unit
  | 0, _, _ => Meth.lift .fuel
  | k + 1, a, n =>
    if n < 15 then insertionSort left cmp a (a + n)
    else do
      sortPlain k a (n / 2)
      sortPlain k (a + n / 2) (n - n / 2)
      mergePlain left cmp (n + 1) a (n / 2) (n - n / 2)

/-- 2363-2396 `__rotate_adaptive`, with `size` places of the buffer at `buf`. -/
def rotateBuf (buf size i l₁ l₂ : Nat) : Meth (List α) Unit :=
  if l₂ < l₁ ∧ l₂ ≤ size then
    if l₂ ≠ 0 then do
      moveRange left (i + l₁) l₂ buf
      moveRangeBack left i l₁ (i + l₂)
      moveRange left buf l₂ i
    else pure ()
  else if l₁ ≤ size then
    if l₁ ≠ 0 then do
      moveRange left i l₁ buf
      moveRange left (i + l₁) l₂ i
      moveRangeBack left buf l₁ (i + l₂)
    else pure ()
  else rotatePlaces left i l₁ l₂

/-- 2399-2419 `__merge_adaptive`. -/
def mergeBuf (buf a l₁ l₂ : Nat) : Meth (List α) Unit :=
  if l₁ ≤ l₂ then do
    moveRange left a l₁ buf
    mergeInto left cmp false (l₁ + l₂ + 1) buf (buf + l₁) (a + l₁) (a + l₁ + l₂) a
  else do
    moveRange left (a + l₁) l₂ buf
    if l₁ = 0 then moveRangeBack left buf l₂ (a + l₁)
    else if l₂ = 0 then pure ()
    else mergeBack left cmp a buf (l₁ + l₂ + 1) l₁ l₂ (a + l₁ + l₂)

/-- 2421-2470 `__merge_adaptive_resize`; the first argument bounds the recursion. -/
def mergeResize (buf size : Nat) : (k a l₁ l₂ : Nat) → Meth (List α) Unit
  | 0, _, _, _ => Meth.lift .fuel
  | k + 1, a, l₁, l₂ =>
    if l₁ ≤ size ∨ l₂ ≤ size then mergeBuf left cmp buf a l₁ l₂
    else do
      let (d₁, d₂) ← cuts cmp a l₁ l₂
      rotateBuf left buf size (a + d₁) (l₁ - d₁) d₂
      mergeResize buf size k a d₁ d₂
      mergeResize buf size k (a + d₁ + d₂) (l₁ - d₁) (l₂ - d₂)

/-- 2742-2753 `__stable_sort_adaptive` of the `n` places from `a` on. -/
def sortBuf (buf a n : Nat) : Meth (List α) Unit := do
  mergeSort left cmp a (a + (n + 1) / 2) buf
  mergeSort left cmp (a + (n + 1) / 2) (a + n) buf
  mergeBuf left cmp buf a ((n + 1) / 2) (n - (n + 1) / 2)

/-- 2755-2780 `__stable_sort_adaptive_resize`; the first argument bounds the recursion. -/
def sortResize (buf size : Nat) : (k a n : Nat) → Meth (List α) Unit
  | 0, _, _ => Meth.lift .fuel
  | k + 1, a, n =>
    if size < (n + 1) / 2 then do
      sortResize buf size k a ((n + 1) / 2)
      sortResize buf size k (a + (n + 1) / 2) (n - (n + 1) / 2)
      mergeResize left cmp buf size (n + 1) a ((n + 1) / 2) (n - (n + 1) / 2)
    else sortBuf left cmp buf a n

/-- 5023-5052 `__stable_sort` when there is memory for `size` elements. -/
def runMem (size : Nat) (v : List α) : Res Unit × List α :=
  match v with
  | [] => (.ok (), [])
  | x :: _ =>
    if (v.length + 1) / 2 ≤ size then run left cmp v
    else if size = 0 then sortPlain left cmp (v.length + 1) 0 v.length v
    else
      let p := sortResize left cmp v.length size (v.length + 1) 0 v.length (v ++ List.replicate size (left x))
      (p.1, p.2.take v.length)

end StableSort
end Pyincpp
