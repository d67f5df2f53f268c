import Mathlib.Data.Set.Card

/-! # What a program expects of an unordered map: a finite map

Keys are values of `ι`; a map gives for every key what is stored under it. Unordered sets are maps to `Unit`. -/

namespace Pyincpp

variable {ι κ ν : Type}

/-- The operations of `std::unordered_map` a program uses. -/
inductive HOp (κ ν : Type)
  | insert (k : κ) (v : ν)
  | assign (k : κ) (v : ν)
  | erase (k : κ)
  | find (k : κ)
  | size
  | clear
  deriving Repr, DecidableEq

/-- What an operation gives: whether something was inserted or erased, what was found, the number of pairs. -/
inductive HOut (ν : Type)
  | unit
  | bool (b : Bool)
  | found (v : Option ν)
  | size (n : ℕ)
  deriving Repr, DecidableEq

def HOp.map (f : ι → κ) : HOp ι ν → HOp κ ν
  | .insert k v => .insert (f k) v
  | .assign k v => .assign (f k) v
  | .erase k => .erase (f k)
  | .find k => .find (f k)
  | .size => .size
  | .clear => .clear

open Classical in
/-- The map after an operation. -/
noncomputable def HOp.after (m : ι → Option ν) : HOp ι ν → ι → Option ν
  | .insert k v => if m k = none then Function.update m k (some v) else m
  | .assign k v => Function.update m k (some v)
  | .erase k => Function.update m k none
  | .find _ => m
  | .size => m
  | .clear => fun _ => none

/-- What the operation gives. -/
noncomputable def HOp.gives (m : ι → Option ν) : HOp ι ν → HOut ν
  | .insert k _ => .bool (m k).isNone
  | .assign _ _ => .unit
  | .erase k => .bool (m k).isSome
  | .find k => .found (m k)
  | .size => .size {k | m k ≠ none}.ncard
  | .clear => .unit

/-- The outcomes of a history, and the map in the end. -/
noncomputable def HOp.history : (ι → Option ν) → List (HOp ι ν) → List (HOut ν) × (ι → Option ν)
  | m, [] => ([], m)
  | m, o :: os => (o.gives m :: (history (o.after m) os).1, (history (o.after m) os).2)

end Pyincpp
