import Verif.Model.Utility

/-! # sources/list.hpp

The class template `List<T>`: a `std::vector<T>`, here a Lean `List α` (class name `Lst`). Indices, sizes and
counters are checked 32-bit `int`s. Copying and moving elements never throws in the model, and equality of
elements is a function (`BEq α`). -/

namespace Pyincpp

/-- An argument `const T& element`: an independent object, or a reference to element `p` of the list itself. -/
inductive Arg (α : Type)
  | val (a : α)
  | ref (p : Nat)
  deriving DecidableEq, Repr

namespace Lst

variable {α : Type}

/-- list.hpp:109-112 `int size() const { return vector_.size(); }`: conversion of `size_t` to `int`. -/
def size (l : List α) : Int := wrap32 l.length

/-- list.hpp:115-118 `is_empty`. -/
def isEmpty (l : List α) : Bool := l.isEmpty

/-- The iterator `begin() + i` of a vector or deque, as a position: outside `[0, length]` it is undefined. -/
def iter (l : List α) (i : Int) : Res Nat :=
  if 0 ≤ i ∧ i ≤ (l.length : Int) then .ok i.toNat else .ub .badRange

/-- `vector_[i]` for an `int i` (converted to `size_t`, so a negative `i` is far out of bounds). -/
def vat (l : List α) (i : Int) : Res α := if 0 ≤ i then vget l i.toNat else .ub .outOfBounds

/-- `std::find(begin() + a, begin() + b, e)` as a position. -/
def stdFind [BEq α] (l : List α) (a b : Nat) (e : α) : Res Nat :=
  if a ≤ b ∧ b ≤ l.length then .ok (a + ((l.drop a).take (b - a)).findIdx (fun x => x == e)) else .ub .badRange

/-- `vector_.erase(begin() + a, begin() + b)`. -/
def stdErase (l : List α) (a b : Nat) : Res (List α) :=
  if a ≤ b ∧ b ≤ l.length then .ok (l.take a ++ l.drop b) else .ub .badRange

/-- The position an index refers to: lines 92-94 of `operator[]`. -/
def refAt (l : List α) (index : Int) : Res Int := do
  checkBounds index (← ineg (size l)) (size l)
  if index ≥ 0 then pure index else iadd index (size l)

/-- list.hpp:90-102 `operator[]`, reading the element. -/
def get (l : List α) (index : Int) : Res α := do vat l (← refAt l index)

/-- list.hpp:90-95, assigning through the reference: `list[index] = e`. -/
def assign (index : Int) (e : α) : Meth (List α) Unit := do
  let l ← Meth.get
  let i ← Meth.lift (refAt l index)
  let _ ← Meth.lift (vat l i)
  Meth.set (l.set i.toNat e)

/-- list.hpp:121-124 `find`: the position of the iterator; `length` is `end()`. -/
def find [BEq α] (l : List α) (e : α) : Res Nat := stdFind l 0 l.length e

/-- list.hpp:127-132 `index`. -/
def index [BEq α] (l : List α) (e : α) (start : Int := 0) (stop : Int := INT_MAX) : Res Int := do
  let stop := if stop > size l then size l else stop
  let a ← iter l start
  let b ← iter l stop
  let it ← stdFind l a b e
  pure (if it = b then -1 else wrap32 it)

/-- list.hpp:135-138 `contains`. -/
def contains [BEq α] (l : List α) (e : α) (start : Int := 0) (stop : Int := INT_MAX) : Res Bool := do
  pure ((← index l e start stop) != -1)

/-- list.hpp:141-144 `count`. -/
def count [BEq α] (l : List α) (e : α) : Int := wrap32 (l.countP (fun x => x == e))

/-- list.hpp:152-159 `insert`. (`std::vector::insert` of one element is defined for a reference into the vector.) -/
def insert (index : Int) (e : α) : Meth (List α) Unit := do
  let l ← Meth.get
  Meth.lift (checkFull (size l) INT_MAX)
  let lo ← Meth.lift (ineg (size l))
  let hi ← Meth.lift (iadd (size l) 1)
  Meth.lift (checkBounds index lo hi)
  let index ← Meth.lift (if index ≥ 0 then .ok index else iadd index (size l))
  let p ← Meth.lift (iter l index)
  Meth.set (l.take p ++ e :: l.drop p)

/-- list.hpp:163-173 `remove`. -/
def remove (index : Int) : Meth (List α) α := do
  let l ← Meth.get
  Meth.lift (checkEmpty (size l))
  let lo ← Meth.lift (ineg (size l))
  Meth.lift (checkBounds index lo (size l))
  let index ← Meth.lift (if index ≥ 0 then .ok index else iadd index (size l))
  let e ← Meth.lift (vat l index)
  Meth.set (l.eraseIdx index.toNat)
  pure e

/-- list.hpp:176-183 `operator+=(const T&)`. -/
def append (e : α) : Meth (List α) Unit := do
  let l ← Meth.get
  Meth.lift (checkFull (size l) INT_MAX)
  Meth.set (l ++ [e])

/-- `vector_.insert(end(), first, last)`. The standard forbids `first` and `last` to point into the vector
itself (`self`); libstdc++ then still appends a copy of the old contents when the position is the end and moving an
element does not change it (see `insertSelfMoved` in Model/Iter.lean). -/
def stdInsertEnd (mem : Mem) (self : Bool) (l m : List α) : Res (List α) :=
  if self ∧ mem = .strict then .ub .badRange else .ok (l ++ m)

/-- list.hpp:186-193 `operator+=(const List&)`; `m = none` means that the argument is the list itself. -/
def extendList (mem : Mem) (m : Option (List α)) : Meth (List α) Unit := do
  let l ← Meth.get
  let s ← Meth.lift (iadd ((size l).tdiv 2) ((size (m.getD l)).tdiv 2))
  Meth.lift (checkFull s (INT_MAX.tdiv 2))
  let r ← Meth.lift (stdInsertEnd mem m.isNone l (m.getD l))
  Meth.set r

/-- list.hpp:196-204 `operator-=`. The element is not read any more once the vector changes. -/
def removeFirst [BEq α] (e : α) : Meth (List α) Unit := do
  let l ← Meth.get
  let it ← Meth.lift (find l e)
  if it ≠ l.length then do
    let r ← Meth.lift (stdErase l it (it + 1))
    Meth.set r
  else pure ()

/-- The value an argument has at a moment when the list holds `v`. -/
def Arg.read (v : List α) : Arg α → Res α
  | .val a => .ok a
  | .ref p => vget v p

/-- The loop of `std::remove` from position `i` on, `res` being the output position; `n` elements are left. The
value is read anew at each step, because it may be a reference into the vector that is being rewritten. -/
def stdRemoveLoop [BEq α] (value : Arg α) : (n i res : Nat) → List α → Res (Nat × List α)
  | 0, _, res, v => .ok (res, v)
  | n + 1, i, res, v => do
    let x ← vget v i
    let e ← Arg.read v value
    if x == e then stdRemoveLoop value n (i + 1) res v
    else do stdRemoveLoop value n (i + 1) (res + 1) (← vset v res x)

/-- `std::remove(begin, end, value)`: find the first occurrence, then shift the others down. -/
def stdRemove [BEq α] (value : Arg α) (v : List α) : Res (Nat × List α) :=
  if v.isEmpty then .ok (0, v)
  else do
    let e ← Arg.read v value
    let p ← stdFind v 0 v.length e
    if p = v.length then pure (p, v) else stdRemoveLoop value (v.length - (p + 1)) (p + 1) p v

/-- list.hpp:213-218 `operator/=`. -/
def removeAll [BEq α] (value : Arg α) : Meth (List α) Unit := do
  let l ← Meth.get
  let (res, v) ← Meth.lift (stdRemove value l)
  Meth.set v
  let r ← Meth.lift (stdErase v res v.length)
  Meth.set r

/-- `std::rotate(begin, begin + n, end)`. -/
def stdRotate (l : List α) (n : Nat) : List α := l.drop n ++ l.take n

/-- list.hpp:237-254 `operator<<=`. -/
def rotL (n : Int) : Meth (List α) Unit := do
  let l ← Meth.get
  if size l ≤ 1 ∨ n = 0 then pure ()
  else do
    let n ← Meth.lift (imod n (size l))
    let n ← Meth.lift (if n < 0 then iadd n (size l) else .ok n)
    let p ← Meth.lift (iter l n)
    Meth.set (stdRotate l p)

/-- list.hpp:221-234 `operator>>=`. -/
def rotR (n : Int) : Meth (List α) Unit := do
  let l ← Meth.get
  if size l ≤ 1 ∨ n = 0 then pure ()
  else if n < 0 then do
    let m ← Meth.lift (ineg n)
    rotL m
  else do
    let m ← Meth.lift (isub (size l) n)
    rotL m

/-- list.hpp:257-262 `reverse`. -/
def reverse : Meth (List α) Unit := do
  let l ← Meth.get
  Meth.set l.reverse

/-- list.hpp:268-275, the loop of `uniquify`. -/
def uniquifyLoop [BEq α] : List α → List α → Res (List α)
  | [], buffer => .ok buffer
  | e :: es, buffer => do
    let it ← stdFind buffer 0 buffer.length e
    uniquifyLoop es (if it = buffer.length then buffer ++ [e] else buffer)

/-- list.hpp:266-279 `uniquify`. -/
def uniquify [BEq α] : Meth (List α) Unit := do
  let l ← Meth.get
  let b ← Meth.lift (uniquifyLoop l [])
  Meth.set b

/-- list.hpp:283-289 `sort`, for a comparator that is a strict weak order (otherwise undefined; the theorems assume
it). `std::stable_sort` is modelled by a merge sort that takes the left element unless the right one is smaller. -/
def sort (comparator : α → α → Bool) : Meth (List α) Unit := do
  let l ← Meth.get
  Meth.set (l.mergeSort (fun a b => !(comparator b a)))

/-- list.hpp:292-300 `erase`. -/
def erase (start stop : Int) : Meth (List α) Unit := do
  let l ← Meth.get
  let hi ← Meth.lift (iadd (size l) 1)
  Meth.lift (checkBounds start 0 hi)
  Meth.lift (checkBounds stop 0 hi)
  let a ← Meth.lift (iter l start)
  let b ← Meth.lift (iter l stop)
  let r ← Meth.lift (stdErase l a b)
  Meth.set r

/-- The loop of `std::for_each`: `action` gets a reference to the element and an environment `σ`, and may change
both; `n` elements are left from position `i` on. If it throws, what it wrote so far stays. -/
def forEach {σ : Type} (action : α → σ → Res Unit × α × σ) : (n i : Nat) → Meth (List α × σ) Unit
  | 0, _ => pure ()
  | n + 1, i => do
    let (l, s) ← Meth.get
    let x ← Meth.lift (vget l i)
    Meth.set (l.set i (action x s).2.1, (action x s).2.2)
    Meth.lift (action x s).1
    forEach action n (i + 1)

/-- list.hpp:304-309 `map`. -/
def map {σ : Type} (action : α → σ → Res Unit × α × σ) : Meth (List α × σ) Unit := do
  let (l, _) ← Meth.get
  forEach action l.length 0

/-- The loop of `std::copy_if(begin, end, begin, pred)` within one vector: `n` elements left from position `i` on,
`res` the output position. -/
def copyIfLoop (predicate : α → Bool) : (n i res : Nat) → List α → Res (Nat × List α)
  | 0, _, res, v => .ok (res, v)
  | n + 1, i, res, v => do
    let x ← vget v i
    if predicate x then do copyIfLoop predicate n (i + 1) (res + 1) (← vset v res x)
    else copyIfLoop predicate n (i + 1) res v

/-- list.hpp:313-319 `filter`. `std::copy_if` requires that source and destination do not overlap; here they are
the same range, so with a non-empty list the standard leaves it undefined (`strict`). -/
def filter (mem : Mem) (predicate : α → Bool) : Meth (List α) Unit := do
  let l ← Meth.get
  if mem = .strict ∧ l ≠ [] then Meth.lift (.ub .badRange)
  else do
    let (res, v) ← Meth.lift (copyIfLoop predicate l.length 0 0 l)
    Meth.set v
    let r ← Meth.lift (stdErase v res v.length)
    Meth.set r

/-- list.hpp:323-326 `extend`; `m = none` means the range `[begin(), end())` of the list itself. -/
def extend (mem : Mem) (m : Option (List α)) : Meth (List α) Unit := do
  let l ← Meth.get
  let r ← Meth.lift (stdInsertEnd mem m.isNone l (m.getD l))
  Meth.set r

/-- list.hpp:329-332 `clear`. -/
def clear : Meth (List α) Unit := Meth.set []

/-- list.hpp:356-359, the loop of `slice`. It makes at most `length` rounds, because every round reads a different
element; `k` bounds the rounds. -/
def sliceLoop (l : List α) (stop step : Int) : Nat → Int → List α → Res (List α)
  | 0, _, _ => .fuel
  | k + 1, i, buffer =>
    if (if step > 0 then i < stop else i > stop) then do
      let x ← vat l i
      sliceLoop l stop step k (← iadd i step) (buffer ++ [x])
    else .ok buffer

/-- list.hpp:351-352, the conversion of a negative index in `slice`. -/
def fromEnd (l : List α) (i : Int) : Res Int := if i < 0 then iadd i (size l) else .ok i

/-- list.hpp:340-362 `slice`. -/
def slice (k : Nat) (l : List α) (start stop : Int) (step : Int := 1) : Res (List α) := do
  if step = 0 then .throw "Error: Slice step can not be zero."
  else
    let lo ← ineg (size l)
    checkBounds start lo (size l)
    let lo' ← isub lo 1
    let hi' ← iadd (size l) 1
    checkBounds stop lo' hi'
    let start ← fromEnd l start
    let stop ← fromEnd l stop
    sliceLoop l stop step k start []

/-- `std::copy(src.begin(), src.end(), buffer.begin() + p)`. -/
def stdCopy (src buffer : List α) (p : Nat) : Res (List α) :=
  if p + src.length ≤ buffer.length then .ok (buffer.take p ++ src ++ buffer.drop (p + src.length))
  else .ub .outOfBounds

/-- list.hpp:383-399 `operator*`. `buffer(n)` holds `n` value-initialised elements (`default`); `n` is an `int`
converted to `size_t`: a negative one makes the constructor throw `std::length_error`. -/
def mul [Inhabited α] (l : List α) (times : Int) : Res (List α) := do
  if times < 0 then .throw "Error: Times to repeat can not be less than zero."
  else
    let n ← imul (size l) times
    checkFull n INT_MAX
    if n < 0 then .throw "cannot create std::vector larger than max_size()"
    else
      forRange 0 times.toNat (fun part b => do
        let p ← iter b (← imul (size l) part)
        stdCopy l b p) (List.replicate n.toNat default)

/-- list.hpp:207-210 `operator*=`. -/
def mulAssign [Inhabited α] (times : Int) : Meth (List α) Unit := do
  let l ← Meth.get
  let r ← Meth.lift (mul l times)
  Meth.set r

/-- `List(*this) op arg`: run a mutating method on a copy and return the copy. -/
def onCopy (m : Meth (List α) Unit) (l : List α) : Res (List α) :=
  match m l with
  | (.ok _, l') => .ok l'
  | (.throw e, _) => .throw e
  | (.ub u, _) => .ub u
  | (.fuel, _) => .fuel

/-- list.hpp:365-368 `operator+(const T&)`. -/
def plusElem (l : List α) (e : α) : Res (List α) := onCopy (append e) l
/-- list.hpp:371-374 `operator+(const List&)`: the left operand is a copy, so never aliased. -/
def plusList (mem : Mem) (l m : List α) : Res (List α) := onCopy (extendList mem (some m)) l
/-- list.hpp:377-380 `operator-`. -/
def minus [BEq α] (l : List α) (e : α) : Res (List α) := onCopy (removeFirst e) l
/-- list.hpp:402-405 `operator/`: the argument refers to no element of the copy. -/
def divide [BEq α] (l : List α) (e : α) : Res (List α) := onCopy (removeAll (.val e)) l

end Lst
end Pyincpp
