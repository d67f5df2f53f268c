import Verif.Model.Int
import Verif.Model.List
import Verif.Model.Set
import Verif.Model.Dict

/-! # Running out of memory

Elsewhere there is always memory. Here the state has a second component, the number of requests for memory that are still granted; the next one
throws `std::bad_alloc`. The members of `Int` that change it are modelled again, with the capacity of the digit vector, so that a request is made
exactly where libstdc++ makes one. The containers are modelled again where copying an element may ask for memory. Moving an `Int`, a
vector or a tree never does. -/

namespace Pyincpp

/-- The text of `std::bad_alloc`. -/
def badAlloc : String := "std::bad_alloc"

namespace Oom
variable {σ : Type}

/-- A request for memory. -/
def request : Meth (σ × ℕ) Unit := fun s =>
  match s.2 with
  | 0 => (.throw badAlloc, s)
  | b + 1 => (.ok (), (s.1, b))

/-- Several requests. -/
def requests : ℕ → Meth (σ × ℕ) Unit
  | 0 => pure ()
  | n + 1 => do request; requests n

/-- Read the object. -/
def read : Meth (σ × ℕ) σ := fun s => (.ok s.1, s)

/-- Overwrite the object. -/
def write (t : σ) : Meth (σ × ℕ) Unit := fun s => (.ok (), (t, s.2))

/-! ## Int -/

/-- An `Int` and the capacity of its vector. -/
structure Num where
  val : BInt
  cap : ℕ
  deriving DecidableEq, Repr

/-- Writing `sign_`. -/
def setSign (s : Int) : Meth (Num × ℕ) Unit := do
  let x ← read
  write { x with val := { x.val with sign := s } }

/-- Writing the object without a change of the capacity. -/
def setVal (v : BInt) : Meth (Num × ℕ) Unit := do
  let x ← read
  write { x with val := v }

/-- Make room for `n` digits: `grow c n` is the new capacity of a vector of capacity `c`. -/
def room (grow : ℕ → ℕ → ℕ) (n : ℕ) : Meth (Num × ℕ) Unit := do
  let x ← read
  if n ≤ x.cap then pure ()
  else do
    request
    write { x with cap := grow x.cap n }

/-- Copying a vector of digits into a new one; an empty vector needs no memory. -/
def copyOf (v : List Int) : Meth (Num × ℕ) Unit := if v = [] then pure () else request

/-- int.hpp:255, the defaulted copy assignment from another `Int`: `sign_`, then `chunks_`. The vector asks for memory exactly if its capacity is too small. -/
def copyAssign (y : BInt) : Meth (Num × ℕ) Unit := do
  setSign y.sign
  room (fun _ n => n) y.chunks.length
  setVal y

/-- int.hpp:258-266 `operator=(Int&&)` from a temporary with `c` as capacity. -/
def moveAssign (y : BInt) (c : ℕ) : Meth (Num × ℕ) Unit := write ⟨y, c⟩

section
variable (grow : ℕ → ℕ → ℕ) (mem : Mem)

mutual
/-- int.hpp:339-374 `operator+=`. -/
def addAssign (self : Bool) : ℕ → BInt → Meth (Num × ℕ) Unit
  | 0, _ => Meth.lift .fuel
  | k + 1, y => do
    let x ← read
    if x.val.sign = 0 ∨ y.sign = 0 then
      if x.val.sign = 0 then copyAssign y else pure ()
    else if x.val.sign ≠ y.sign then do
      copyOf y.chunks                                                   -- `-rhs`
      subAssign k (BInt.neg y)
    else do
      room grow (max x.val.chunks.length y.chunks.length + 1)           -- `a.resize(...)`
      let r ← Meth.lift (BInt.addSame mem self x.val y)
      setVal r

/-- int.hpp:377-417 `operator-=`. -/
def subAssign : ℕ → BInt → Meth (Num × ℕ) Unit
  | 0, _ => Meth.lift .fuel
  | k + 1, y => do
    let x ← read
    if x.val.sign = 0 ∨ y.sign = 0 then
      if x.val.sign = 0 then do
        copyOf y.chunks                                                 -- `-rhs`
        moveAssign (BInt.neg y) y.chunks.length
      else pure ()
    else if x.val.sign ≠ y.sign then do
      copyOf y.chunks
      addAssign false k (BInt.neg y)
    else do
      copyOf y.chunks                                                   -- `rhs_digits`
      let c ← Meth.lift (BInt.absCmp x.val y)
      let r ← Meth.lift (BInt.subSame mem x.val y)
      write ⟨r, if c = -1 then y.chunks.length else x.cap⟩              -- `swap` exchanges the capacities
end

/-- int.hpp:420-448 `operator*=`: the vector of the result, its copy in the helper constructor, and the copy assignment of line 447. -/
def mulAssign (y : BInt) : Meth (Num × ℕ) Unit := do
  let x ← read
  if x.val.sign = 0 ∨ y.sign = 0 then do
    let z ← Meth.lift (BInt.ofInt 0)
    moveAssign z 0
  else do
    request
    request
    let r ← Meth.lift (BInt.mulAssign x.val y)
    copyAssign r

/-- int.hpp:487-491, the inner loop of `/=` at position `i`; `r` are the digits of the quotient. -/
def divWhile (k i : ℕ) (t : BInt) : ℕ → List Int → Meth (Num × ℕ) (List Int)
  | 0, _ => Meth.lift .fuel
  | n + 1, r => do
    let x ← read
    let b ← Meth.lift (BInt.ge x.val t)
    if b then do
      let r ← Meth.lift (do vset r i (← iadd (← vget r i) 1))
      subAssign grow mem k t
      divWhile k i t n r
    else pure r

/-- int.hpp:481-493, the outer loop of `/=`, from position `i - 1` down. -/
def divLoop (k : ℕ) : ℕ → List Int → List Int → Meth (Num × ℕ) (List Int)
  | 0, _, r => pure r
  | i + 1, tmp, r => do
    let tmp ← Meth.lift (BInt.eraseFront tmp)
    let r ← divWhile grow mem k i ⟨1, tmp⟩ k r
    divLoop k i tmp r

/-- int.hpp:451-496 `operator/=`. The assignment of line 495 is a copy assignment. -/
def divAssign (k : ℕ) (y : BInt) : Meth (Num × ℕ) Unit := do
  let x ← read
  Meth.lift (checkZero (y.sign == 0))
  let dx ← Meth.lift (BInt.digits x.val)
  let dy ← Meth.lift (BInt.digits y)
  if dx < dy then do
    let z ← Meth.lift (BInt.ofInt 0)
    moveAssign z 0
  else do
    let size := x.val.chunks.length - y.chunks.length + 1
    request                                                             -- `std::vector<int>(size, 0)`
    request                                                             -- `tmp.chunks_.insert`
    request                                                             -- `result.chunks_.resize`
    setSign 1
    let r ← divLoop grow mem k size (List.replicate size 0 ++ y.chunks) (List.replicate size 0)
    copyAssign (BInt.trim { sign := if x.val.sign = y.sign then 1 else -1, chunks := r })

/-- int.hpp:532-535, the inner loop of `%=`. -/
def modWhile (k : ℕ) (t : BInt) : ℕ → Meth (Num × ℕ) Unit
  | 0 => Meth.lift .fuel
  | n + 1 => do
    let x ← read
    let b ← Meth.lift (BInt.ge x.val t)
    if b then do
      subAssign grow mem k t
      modWhile k t n
    else pure ()

/-- int.hpp:525-536, the outer loop of `%=`, with `n` rounds to go. -/
def modLoop (k : ℕ) : ℕ → List Int → Meth (Num × ℕ) Unit
  | 0, _ => pure ()
  | n + 1, tmp => do
    let tmp ← Meth.lift (BInt.eraseFront tmp)
    modWhile grow mem k ⟨1, tmp⟩ k
    modLoop k n tmp

/-- int.hpp:499-539 `operator%=`. -/
def modAssign (k : ℕ) (y : BInt) : Meth (Num × ℕ) Unit := do
  let x ← read
  Meth.lift (checkZero (y.sign == 0))
  let dx ← Meth.lift (BInt.digits x.val)
  let dy ← Meth.lift (BInt.digits y)
  if dx < dy then pure ()
  else do
    let size := x.val.chunks.length - y.chunks.length + 1
    setSign 1
    request
    request
    modLoop grow mem k size (List.replicate size 0 ++ y.chunks)
    let x ← read
    setVal (BInt.trim x.val)

/-- int.hpp:76-95 `abs_inc`. -/
def absInc : Meth (Num × ℕ) Unit := do
  let x ← read
  room grow (x.val.chunks.length + 1)                                   -- `push_back(0)`
  let r ← Meth.lift (BInt.absInc x.val)
  setVal r

/-- int.hpp:99-113 `abs_dec`. -/
def absDec : Meth (Num × ℕ) Unit := do
  let x ← read
  let r ← Meth.lift (BInt.absDec x.val)
  setVal r

/-- int.hpp:545-546 and 561-562: `++` and `--` of zero. -/
def fromZero (s : Int) : Meth (Num × ℕ) Unit := do
  setSign s
  let x ← read
  room grow (x.val.chunks.length + 1)
  setVal { sign := s, chunks := x.val.chunks ++ [1] }                   -- `push_back(1)`

/-- int.hpp:542-555 `operator++`. -/
def inc : Meth (Num × ℕ) Unit := do
  let x ← read
  if x.val.sign = 0 then fromZero grow 1
  else if x.val.sign = 1 then absInc grow else absDec

/-- int.hpp:558-571 `operator--`. -/
def dec : Meth (Num × ℕ) Unit := do
  let x ← read
  if x.val.sign = 0 then fromZero grow (-1)
  else if x.val.sign = 1 then absDec else absInc grow

end

/-! ## Containers

`c` is the number of requests made by copying an element (`0` for `int`, `1` for `Int`). -/

section
variable {α : Type} (c : ℕ)

/-- The members that request all they need (`n` requests) before the object changes: `append`, `insert`, `extend` from forward iterators, `+=` (the
vector copies first and then moves), `uniquify`, `*=` of `List` (list.hpp:207-210, 266-279) and `&=`, `|=`, `-=`, `^=` of `Set` (set.hpp:182-206), which build
a new container and move it in. `std::stable_sort` works without a buffer if there is none and never throws `std::bad_alloc`. -/
def commit {β : Type} (n : ℕ) (f : Meth σ β) : Meth (σ × ℕ) β := do
  let s ← read
  match f s with
  | (.ok r, t) => do
    requests n
    write t
    pure r
  | (.throw m, t) => do
    write t
    Meth.lift (.throw m)
  | (.ub u, _) => Meth.lift (.ub u)
  | (.fuel, _) => Meth.lift .fuel

/-- list.hpp:324-327 `extend` from iterators that can be read only once: `std::vector` appends one element after the other, and element `x` takes
`n x` requests. -/
def extendOnce (n : α → ℕ) : List α → Meth (List α × ℕ) Unit
  | [] => pure ()
  | x :: xs => do
    let l ← read
    requests (n x)
    write (l ++ [x])
    extendOnce n xs

/-- `v[res] = x`, a copy assignment. If it fails, `half old x` is left in the place of `old`. -/
def assignAt (half : α → α → α) (res : ℕ) (x : α) : Meth (List α × ℕ) Unit := fun s =>
  match s.1[res]? with
  | none => (.ub .outOfBounds, s)
  | some old => if s.2 < c then (.throw badAlloc, (s.1.set res (half old x), 0)) else (.ok (), (s.1.set res x, s.2 - c))

/-- The loop of `std::copy_if` within one vector, as for `copyIfLoop`. Assigning an element to itself asks for nothing. -/
def copyIf (half : α → α → α) (p : α → Bool) : (n i res : ℕ) → Meth (List α × ℕ) ℕ
  | 0, _, res => pure res
  | n + 1, i, res => do
    let v ← read
    let x ← Meth.lift (vget v i)
    if p x then do
      if res = i then pure () else assignAt c half res x
      copyIf half p n (i + 1) (res + 1)
    else copyIf half p n (i + 1) res

/-- list.hpp:313-319 `filter`. -/
def filter (half : α → α → α) (p : α → Bool) : Meth (List α × ℕ) Unit := do
  let l ← read
  let res ← copyIf c half p l.length 0 0
  let v ← read
  let r ← Meth.lift (Lst.stdErase v res v.length)
  write r

/-- `set_.insert(x)`: the place is looked for first, memory for the node is requested only if it is free. -/
def treeInsert (lt : α → α → Bool) (x : α) : Meth (List α × ℕ) Bool := do
  let s ← read
  let r := Tree.insert lt x s
  if r.2 then requests (1 + c) else pure ()
  write r.1
  pure r.2

/-- `set_.insert(first, last)`, set.hpp:210-213 and dict.hpp:217-220 `extend`. -/
def treeExtend (lt : α → α → Bool) : List α → Meth (List α × ℕ) Unit
  | [] => pure ()
  | x :: xs => do
    let _ ← treeInsert c lt x
    treeExtend lt xs

/-- set.hpp:159-164 `add`. -/
def setAdd (lt : α → α → Bool) (e : α) : Meth (List α × ℕ) Bool := do
  let s ← read
  Meth.lift (checkFull (PSet.size s) INT_MAX)
  treeInsert c lt e

/-- set.hpp:173-178 `pop`: `return set_.extract(set_.begin()).value();`. The node has left the set when its element is copied. -/
def setPop : Meth (List α × ℕ) α := do
  let s ← read
  Meth.lift (checkEmpty (PSet.size s))
  let x ← Meth.lift (PSet.stdBegin s)
  write (s.drop 1)
  requests c
  pure x

end

section
variable {K V : Type} (c : ℕ)

/-- dict.hpp:193-198 `add`: the pair is made before the place is looked for (`c` requests). It is moved into the node, but its key is `const` and copied
(`ck` requests). -/
def dictAdd (ck : ℕ) (lt : K → K → Bool) (k : K) (v : V) : Meth (List (K × V) × ℕ) Bool := do
  let d ← read
  Meth.lift (checkFull (PDict.size d) INT_MAX)
  requests c
  treeInsert ck (PDict.keyLt lt) (k, v)

/-- dict.hpp:207-213 `pop`: the node has left the dictionary when key and value are copied. -/
def dictPop : Meth (List (K × V) × ℕ) (K × V) := do
  let d ← read
  Meth.lift (checkEmpty (PDict.size d))
  let p ← Meth.lift (PSet.stdBegin d)
  write (d.drop 1)
  requests c
  pure p

end

end Oom
end Pyincpp
