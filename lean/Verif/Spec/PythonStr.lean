import Verif.Spec.Python
import Verif.Spec.Str

/-! # What Python does: slices and strings

From the Python library reference, version 3.12, for ASCII texts. -/

namespace Pyincpp
namespace Py

/-- A bound of `[start:stop:step]` on a sequence of length `n`: counted from the end if negative, then moved into the range. -/
def clip (n : ℕ) (step i : ℤ) : ℤ :=
  if i < 0 then max (if step < 0 then -1 else 0) (i + n) else min (if step < 0 then n - 1 else n) i

/-- `r == l[start:stop:step]`. -/
def Slice {α : Type} (l : List α) (start stop step : ℤ) (r : List α) : Prop :=
  IsSlice l (clip l.length step start) (clip l.length step stop) step r

/-- `p` occurs in `s` at `i`, between the bounds `start` and `stop` of `find`. -/
def Within (s p : List UInt8) (start stop : ℤ) (i : ℕ) : Prop :=
  (if start < 0 then max 0 (start + s.length) else start) ≤ i ∧
  (i : ℤ) + p.length ≤ (if stop < 0 then max 0 (stop + s.length) else min stop s.length) ∧ OccursAt s p i

/-- `r == s.find(p, start, stop)`. -/
def Find (s p : List UInt8) (start stop : ℤ) (r : ℤ) : Prop :=
  (∃ i : ℕ, r = i ∧ Within s p start stop i ∧ ∀ j, Within s p start stop j → i ≤ j) ∨ (r = -1 ∧ ∀ j, ¬ Within s p start stop j)

/-- `r == s.count(p)`. -/
def Count (s p : List UInt8) (r : ℤ) : Prop :=
  (p = [] ∧ r = s.length + 1) ∨ (p ≠ [] ∧ ∃ ps, Scan p s ps ∧ r = ps.length - 1)

/-- `r == s.replace(p, q)`. -/
def Replace (s p q r : List UInt8) : Prop :=
  (p = [] ∧ r = q ++ s.flatMap fun c => c :: q) ∨ (p ≠ [] ∧ ∃ ps, Scan p s ps ∧ r = glue q ps)

/-- `ps == s.split(sep)`, for a separator that is not empty. -/
def Split (s sep : List UInt8) (ps : List (List UInt8)) : Prop := Scan sep s ps

/-- `r == s.strip()`. -/
def Strip (s r : List UInt8) : Prop :=
  ∃ pre suf, s = pre ++ (r ++ suf) ∧ (∀ c ∈ pre, IsSpace c) ∧ (∀ c ∈ suf, IsSpace c) ∧
    (∀ c t, r = c :: t → ¬ IsSpace c) ∧ (∀ c t, r = t ++ [c] → ¬ IsSpace c)

/-- `r == s.format(*args)` for format strings whose fields are all `{}`. -/
inductive Format : List UInt8 → List (List UInt8) → List UInt8 → Prop
  | nil (args : List (List UInt8)) : Format [] args []
  | char (c : UInt8) (t r : List UInt8) (args : List (List UInt8)) : c ≠ 123 → c ≠ 125 → Format t args r → Format (c :: t) args (c :: r)
  | field (t v r : List UInt8) (args : List (List UInt8)) : Format t args r → Format (123 :: 125 :: t) (v :: args) (v ++ r)
  | opening (t r : List UInt8) (args : List (List UInt8)) : Format t args r → Format (123 :: 123 :: t) args (123 :: r)
  | closing (t r : List UInt8) (args : List (List UInt8)) : Format t args r → Format (125 :: 125 :: t) args (125 :: r)

/-- `digit ("_"? digit)*` in base `b`, and its value. -/
inductive DigitsIn (b : ℕ) : List UInt8 → ℕ → Prop
  | one (c : UInt8) (v : ℕ) : digitValue c = some v → v < b → DigitsIn b [c] v
  | next (ds : List UInt8) (n : ℕ) (c : UInt8) (v : ℕ) : DigitsIn b ds n → digitValue c = some v → v < b → DigitsIn b (ds ++ [c]) (b * n + v)
  | under (ds : List UInt8) (n : ℕ) (c : UInt8) (v : ℕ) : DigitsIn b ds n → digitValue c = some v → v < b → DigitsIn b (ds ++ [95, c]) (b * n + v)

/-- The letters of the prefix of base `b`: `0b`, `0o`, `0x`, in either case. -/
def IsPrefixLetter (b : ℕ) (c : UInt8) : Prop :=
  (b = 2 ∧ (c = 98 ∨ c = 66)) ∨ (b = 8 ∧ (c = 111 ∨ c = 79)) ∨ (b = 16 ∧ (c = 120 ∨ c = 88))

/-- Nothing, or the prefix of base `b`, which an underscore may follow. -/
inductive Prefix (b : ℕ) : List UInt8 → Prop
  | none : Prefix b []
  | plain (c : UInt8) : IsPrefixLetter b c → Prefix b [48, c]
  | under (c : UInt8) : IsPrefixLetter b c → Prefix b [48, c, 95]

/-- `int(t, b) == z`, for `b` from 2 to 36. -/
inductive IntTextIn (b : ℕ) : List UInt8 → ℤ → Prop
  | mk (ws sg pf ds ws' : List UInt8) (σ : ℤ) (n : ℕ) : (∀ c ∈ ws, IsSpace c) → Sign sg σ → Prefix b pf → DigitsIn b ds n →
      (∀ c ∈ ws', IsSpace c) → IntTextIn b (ws ++ (sg ++ (pf ++ (ds ++ ws')))) (σ * n)

end Py
end Pyincpp
