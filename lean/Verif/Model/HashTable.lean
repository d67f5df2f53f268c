import Verif.Cpp
import Verif.Spec.HashTable

/-! # `std::unordered_map` and `std::unordered_set`

`std::hash` is specialised for `Int` (int.hpp:891-905), `Str` (str.hpp:745-752), `Fraction` (fraction.hpp:302-309) and `Complex`
(complex.hpp:268-275) so that they can be keys of these (readme.md:141-144). The tables are not part of the library. They are
modelled as the standard describes them [unord.req]: the pairs are in some order; a key is searched among the pairs the table
looks at, which are at least those whose hash is the same; and `==` decides. What the standard leaves open is a parameter. -/

namespace Pyincpp

/-- The choices of an implementation. -/
structure HImpl (κ ν : Type) where
  /-- with this number of buckets, a search for a key with the first hash looks at a pair with the second hash -/
  looks : ℕ → BitVec 64 → BitVec 64 → Bool
  looks_same : ∀ n h, looks n h h = true
  /-- the number of buckets when a pair is added to this many pairs in this many buckets -/
  buckets : ℕ → ℕ → ℕ
  /-- the order of the pairs after a pair is put in front of them -/
  order : ℕ → List (κ × ν) → List (κ × ν)
  order_perm : ∀ n l, (order n l).Perm l

/-- A table: the number of buckets, the pairs in the order of iteration, and the calls of `==` so far. -/
structure HTable (κ ν : Type) where
  buckets : ℕ
  items : List (κ × ν)
  calls : ℕ

namespace HTable

variable {κ ν : Type}

/-- The place of the first pair looked at whose key is equal, and the number of calls of `==`. -/
def locate (looks : κ → Bool) (eq : κ → κ → Res Bool) (x : κ) : List (κ × ν) → Res (Option ℕ × ℕ)
  | [] => .ok (none, 0)
  | (y, _) :: r =>
    if looks y then do
      if ← eq x y then .ok (some 0, 1)
      else do
        let p ← locate looks eq x r
        .ok (p.1.map (· + 1), p.2 + 1)
    else do
      let p ← locate looks eq x r
      .ok (p.1.map (· + 1), p.2)

variable (I : HImpl κ ν) (eq : κ → κ → Res Bool) (hash : κ → BitVec 64)

/-- The search for a key in a table. -/
def search (t : HTable κ ν) (x : κ) : Res (Option ℕ × ℕ) :=
  locate (fun y => I.looks t.buckets (hash x) (hash y)) eq x t.items

/-- A new pair. -/
def push (t : HTable κ ν) (x : κ) (v : ν) : HTable κ ν :=
  let n := I.buckets t.buckets t.items.length
  { t with buckets := n, items := I.order n ((x, v) :: t.items) }

/-- One operation. -/
def step (t : HTable κ ν) : HOp κ ν → Res (HOut ν × HTable κ ν)
  | .insert x v => do
    let p ← search I eq hash t x
    let t := { t with calls := t.calls + p.2 }
    match p.1 with
    | some _ => .ok (.bool false, t)
    | none => .ok (.bool true, push I t x v)
  | .assign x v => do
    let p ← search I eq hash t x
    let t := { t with calls := t.calls + p.2 }
    match p.1 with
    | some i => .ok (.unit, { t with items := t.items.modify i (fun q => (q.1, v)) })
    | none => .ok (.unit, push I t x v)
  | .erase x => do
    let p ← search I eq hash t x
    let t := { t with calls := t.calls + p.2 }
    match p.1 with
    | some i => .ok (.bool true, { t with items := t.items.eraseIdx i })
    | none => .ok (.bool false, t)
  | .find x => do
    let p ← search I eq hash t x
    let t := { t with calls := t.calls + p.2 }
    match p.1 with
    | some i => .ok (.found (t.items[i]?.map (·.2)), t)
    | none => .ok (.found none, t)
  | .size => .ok (.size t.items.length, t)
  | .clear => .ok (.unit, { t with items := [] })

/-- A history. -/
def run (t : HTable κ ν) : List (HOp κ ν) → Res (List (HOut ν) × HTable κ ν)
  | [] => .ok ([], t)
  | o :: os => do
    let r ← step I eq hash t o
    let s ← run r.2 os
    .ok (r.1 :: s.1, s.2)

/-- The empty table. -/
def empty (n : ℕ) : HTable κ ν := ⟨n, [], 0⟩

end HTable
end Pyincpp
