import Verif.Model.StableSort

/-! # sources/list.hpp:283-289 `sort` with a comparator that keeps state

The functions of Model/StableSort.lean again, for a comparator that reads and changes a state of its own with every call. `sort` takes a pointer to
a function, so the state is a static or global variable, and there is one of it. -/

namespace Pyincpp
namespace StableSort

variable {α σ : Type} (left : α → α) (cmp : α → α → Meth σ Bool)

/-- A step that does not call the comparator. -/
def on {β : Type} (x : Meth (List α) β) : Meth (List α × σ) β := fun v => ((x v.1).1, (x v.1).2, v.2)

/-- The comparator on two values. -/
def askS (x y : α) : Meth (List α × σ) Bool := fun v => ((cmp x y v.2).1, v.1, (cmp x y v.2).2)

/-- 1792-1806 `__unguarded_linear_insert`, with `val` moved out of the place `last`. -/
def linearInsertS (val : α) : (last : Nat) → Meth (List α × σ) Unit
  | 0 => Meth.lift (.ub .outOfBounds)
  | last + 1 => do
    let x ← on (get last)
    if ← askS cmp val x then do
      on (move left (last + 1) last)
      linearInsertS val last
    else on (put (last + 1) val)

/-- 1821-1829, the body of the loop of `__insertion_sort` from the place `a` on. -/
def insertAtS (a i : Nat) : Meth (List α × σ) Unit := do
  let x ← on (get i)
  let f ← on (get a)
  if ← askS cmp x f then do
    let val ← on (out left i)
    on (moveRangeBack left a (i - a) (a + 1))
    on (put a val)
  else do
    let val ← on (out left i)
    linearInsertS left cmp val i

/-- 1819-1829, the loop; `n` places are left. -/
def insertionLoopS (a : Nat) : (n i : Nat) → Meth (List α × σ) Unit
  | 0, _ => pure ()
  | n + 1, i => do
    insertAtS left cmp a i
    insertionLoopS a n (i + 1)

/-- 1812-1830 `__insertion_sort`. -/
def insertionSortS (a b : Nat) : Meth (List α × σ) Unit := insertionLoopS left cmp a (b - a - 1) (a + 1)

/-- 2700-2710 `__chunk_insertion_sort` with `_S_chunk_size`, which is 7; the first argument bounds the loop. -/
def chunkSortS : (k a b : Nat) → Meth (List α × σ) Unit
  | 0, _, _ => Meth.lift .fuel
  | k + 1, a, b =>
    if 7 ≤ b - a then do
      insertionSortS left cmp a (a + 7)
      chunkSortS k (a + 7) b
    else insertionSortS left cmp a b

/-- 2649-2670 `__move_merge` (`rest`), and 2294-2314 `__move_merge_adaptive`, which leaves the rest of the second part where it is. The first
argument bounds the loop. -/
def mergeIntoS (rest : Bool) : (k p₁ e₁ p₂ e₂ r : Nat) → Meth (List α × σ) Unit
  | 0, _, _, _, _, _ => Meth.lift .fuel
  | k + 1, p₁, e₁, p₂, e₂, r =>
    if p₁ ≠ e₁ ∧ p₂ ≠ e₂ then do
      let y ← on (get p₂)
      let x ← on (get p₁)
      if ← askS cmp y x then do
        on (move left r p₂)
        mergeIntoS rest k p₁ e₁ (p₂ + 1) e₂ (r + 1)
      else do
        on (move left r p₁)
        mergeIntoS rest k (p₁ + 1) e₁ p₂ e₂ (r + 1)
    else do
      on (moveRange left p₁ (e₁ - p₁) r)
      if rest then on (moveRange left p₂ (e₂ - p₂) (r + (e₁ - p₁))) else pure ()

/-- 2675-2695 `__merge_sort_loop`. -/
def mergePassS (step : Nat) : (k a b r : Nat) → Meth (List α × σ) Unit
  | 0, _, _, _ => Meth.lift .fuel
  | k + 1, a, b, r =>
    if 2 * step ≤ b - a then do
      mergeIntoS left cmp true (2 * step + 1) a (a + step) (a + step) (a + 2 * step) r
      mergePassS step k (a + 2 * step) b (r + 2 * step)
    else
      let s := min (b - a) step
      mergeIntoS left cmp true (b - a + 1) a (a + s) (a + s) b r

/-- 2729-2737, the loop of `__merge_sort_with_buffer`. -/
def mergeLoopS (a b buf : Nat) : (k step : Nat) → Meth (List α × σ) Unit
  | 0, _ => Meth.lift .fuel
  | k + 1, step =>
    if step < b - a then do
      mergePassS left cmp step (b - a + 1) a b buf
      mergePassS left cmp (2 * step) (b - a + 1) buf (buf + (b - a)) a
      mergeLoopS a b buf k (4 * step)
    else pure ()

/-- 2716-2738 `__merge_sort_with_buffer`. -/
def mergeSortS (a b buf : Nat) : Meth (List α × σ) Unit := do
  chunkSortS left cmp (b - a + 1) a b
  mergeLoopS left cmp a b buf (b - a + 1) 7

/-- 2334-2355, the loop of `__move_merge_adaptive_backward`: `n₁` elements are left at `a`, `n₂` at `buf`. -/
def mergeBackS (a buf : Nat) : (k n₁ n₂ r : Nat) → Meth (List α × σ) Unit
  | 0, _, _, _ => Meth.lift .fuel
  | k + 1, n₁, n₂, r => do
    let y ← on (get (buf + (n₂ - 1)))
    let x ← on (get (a + (n₁ - 1)))
    if ← askS cmp y x then do
      on (move left (r - 1) (a + (n₁ - 1)))
      if n₁ = 1 then on (moveRangeBack left buf n₂ (r - 1 - n₂)) else mergeBackS a buf k (n₁ - 1) n₂ (r - 1)
    else do
      on (move left (r - 1) (buf + (n₂ - 1)))
      if n₂ = 1 then pure () else mergeBackS a buf k n₁ (n₂ - 1) (r - 1)

/-- 2401-2419 `__merge_adaptive` of the first `h` places and the other ones before `n`, with the buffer at `n`. -/
def mergeHalvesS (h n : Nat) : Meth (List α × σ) Unit :=
  if h ≤ n - h then do
    on (moveRange left 0 h n)
    mergeIntoS left cmp false (n + 1) n (n + h) h n 0
  else do
    on (moveRange left h (n - h) n)
    if h = 0 then on (moveRangeBack left n (n - h) h)
    else if n - h = 0 then pure ()
    else mergeBackS left cmp 0 n (n + 1) h (n - h) n

/-- 2742-2753 `__stable_sort_adaptive`. -/
def halvesS (n : Nat) : Meth (List α × σ) Unit := do
  mergeSortS left cmp 0 ((n + 1) / 2) n
  mergeSortS left cmp ((n + 1) / 2) n n
  mergeHalvesS left cmp ((n + 1) / 2) n

/-- 5023-5052 `__stable_sort`. -/
def runS (v : List α) (s : σ) : Res Unit × List α × σ :=
  match v with
  | [] => (.ok (), [], s)
  | x :: _ =>
    let p := halvesS left cmp v.length (v ++ List.replicate ((v.length + 1) / 2) (left x), s)
    (p.1, p.2.1.take v.length, p.2.2)

/-- A comparator that counts its calls. -/
def counted (cmp : α → α → Res Bool) (x y : α) : Meth Nat Bool := fun n => (cmp x y, n + 1)

end StableSort
end Pyincpp
