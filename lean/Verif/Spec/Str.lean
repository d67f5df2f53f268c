import Verif.Model.Str
import Verif.Spec.Seq
import Verif.Spec.Int

/-! # Specification of strings -/

namespace Pyincpp

/-- `p` occurs in `s` at position `i`. -/
def OccursAt (s p : List UInt8) (i : Nat) : Prop := ∃ a b, s = a ++ p ++ b ∧ a.length = i

/-- `p` occurs in `s` first at position `i`. -/
def FirstAt (s p : List UInt8) (i : Nat) : Prop := OccursAt s p i ∧ ∀ j, j < i → ¬ OccursAt s p j

/-- The greedy left-to-right scan of `s` for the non-empty pattern `p`: `ps` are the pieces between the non-overlapping
occurrences it meets. -/
inductive Scan (p : List UInt8) : List UInt8 → List (List UInt8) → Prop
  | done (s : List UInt8) : (∀ i, ¬ OccursAt s p i) → Scan p s [s]
  | step (a t : List UInt8) (ps : List (List UInt8)) : FirstAt (a ++ p ++ t) p a.length → Scan p t ps →
      Scan p (a ++ p ++ t) (a :: ps)

/-- The pieces with `q` between them. -/
def glue (q : List UInt8) : List (List UInt8) → List UInt8
  | [] => []
  | [a] => a
  | a :: b :: ps => a ++ q ++ glue q (b :: ps)

/-! ## Numbers -/

/-- Blank characters of the number formats: space, newline, tab, carriage return. -/
def IsBlank (c : UInt8) : Prop := c = 32 ∨ c = 10 ∨ c = 9 ∨ c = 13

/-- The value of a digit in bases up to 36. -/
def digitValue (c : UInt8) : Option Nat :=
  if 48 ≤ c.toNat ∧ c.toNat ≤ 57 then some (c.toNat - 48)
  else if 65 ≤ c.toNat ∧ c.toNat ≤ 90 then some (c.toNat - 55)
  else if 97 ≤ c.toNat ∧ c.toNat ≤ 122 then some (c.toNat - 87)
  else none

/-- `c` is a digit of base `b`. -/
def IsDigitIn (b : Nat) (c : UInt8) : Prop := ∃ v, digitValue c = some v ∧ v < b

/-- The number that a sequence of digits denotes in base `b`. -/
def numeralIn (b : Nat) (ds : List UInt8) : Nat := ds.foldl (fun n c => b * n + (digitValue c).getD 0) 0

/-- An optional sign and the factor it stands for. -/
inductive Sign : List UInt8 → Int → Prop
  | none : Sign [] 1
  | plus : Sign [43] 1
  | minus : Sign [45] (-1)

/-- `blank* [+-]? digit+ blank*` in base `b`, denoting `z`. -/
inductive IntText (b : Nat) : List UInt8 → Int → Prop
  | mk (ws sg ds ws' : List UInt8) (σ : Int) : (∀ c ∈ ws, IsBlank c) → Sign sg σ → ds ≠ [] → (∀ c ∈ ds, IsDigitIn b c) →
      (∀ c ∈ ws', IsBlank c) → IntText b (ws ++ (sg ++ (ds ++ ws'))) (σ * numeralIn b ds)

/-- The mantissa `d+ [. d*]` or `. d+`: its digits before and after the point. -/
inductive Mantissa : List UInt8 → List UInt8 → List UInt8 → Prop
  | int (ds : List UInt8) : ds ≠ [] → (∀ c ∈ ds, IsDigitIn 10 c) → Mantissa ds ds []
  | full (ds fs : List UInt8) : ds ≠ [] → (∀ c ∈ ds, IsDigitIn 10 c) → (∀ c ∈ fs, IsDigitIn 10 c) →
      Mantissa (ds ++ 46 :: fs) ds fs
  | frac (fs : List UInt8) : fs ≠ [] → (∀ c ∈ fs, IsDigitIn 10 c) → Mantissa (46 :: fs) [] fs

/-- The optional exponent `([eE] [+-]? d+)?`: its sign and digits (none: `+`, no digits). -/
inductive Exponent : List UInt8 → Int → List UInt8 → Prop
  | none : Exponent [] 1 []
  | some (e : UInt8) (sg es : List UInt8) (σ : Int) : (e = 101 ∨ e = 69) → Sign sg σ → es ≠ [] →
      (∀ c ∈ es, IsDigitIn 10 c) → Exponent (e :: (sg ++ es)) σ es

/-- `blank* [+-]? mantissa exponent? blank*`: sign, integer digits, fraction digits, exponent sign, exponent digits. -/
inductive DecText : List UInt8 → Int → List UInt8 → List UInt8 → Int → List UInt8 → Prop
  | mk (ws sg m x ws' : List UInt8) (σ : Int) (ds fs : List UInt8) (τ : Int) (es : List UInt8) :
      (∀ c ∈ ws, IsBlank c) → Sign sg σ → Mantissa m ds fs → Exponent x τ es → (∀ c ∈ ws', IsBlank c) →
      DecText (ws ++ (sg ++ (m ++ (x ++ ws')))) σ ds fs τ es

/-- The texts for infinities and not-a-number: `[+-]? inf`, `[+-]? infinity` in lower case, upper case or capitalised;
`[+-]? nan` as `nan`, `NaN` or `NAN`. -/
def infNames : List String := ["inf", "INF", "Inf", "infinity", "INFINITY", "Infinity"]
def nanNames : List String := ["nan", "NaN", "NAN"]

/-- The texts of a list of names, behind one of the given signs. -/
def IsNamed (signs : List (List UInt8)) (names : List String) (s : List UInt8) : Prop :=
  ∃ sg ∈ signs, ∃ n ∈ names, s = sg ++ n.toList.map (fun c => c.toNat.toUInt8)

/-- The digits evaluated with the operations of `double`, most significant first. -/
def evalDigits {D : Type} (ops : Str.DoubleOps D) (ds : List UInt8) : D :=
  ds.foldl (fun x c => ops.add (ops.mul x (ops.ofInt 10)) (ops.ofInt ((digitValue c).getD 0 : Nat))) (ops.ofInt 0)

/-- A prefix of `s` is a decimal text whose exponent does not fit `int`. -/
def BigExponent (s : List UInt8) : Prop :=
  ∃ p q σ ds fs τ es, s = p ++ q ∧ DecText p σ ds fs τ es ∧ INT_MAX < (numeralIn 10 es : Int)

/-! ## Case -/

/-- ASCII lower case. -/
def asciiLower (c : UInt8) : UInt8 := if 65 ≤ c.toNat ∧ c.toNat ≤ 90 then c + 32 else c
/-- ASCII upper case. -/
def asciiUpper (c : UInt8) : UInt8 := if 97 ≤ c.toNat ∧ c.toNat ≤ 122 then c - 32 else c

/-! ## Format -/

/-- `t` has no `{` that is followed, somewhere later, by a `}`. -/
def NoGroup (t : List UInt8) : Prop := ∀ a b, t = a ++ 123 :: b → 125 ∉ b

/-- Formatting: the first group `{...}` – from the first `{` to the first `}` behind it – is replaced by the first argument,
and so on; when no group or no argument is left, the rest is copied. -/
inductive Formatted : List UInt8 → List (List UInt8) → List UInt8 → Prop
  | noArgs (t : List UInt8) : Formatted t [] t
  | noGroup (t : List UInt8) (args : List (List UInt8)) : NoGroup t → Formatted t args t
  | group (pre inner rest v r : List UInt8) (args : List (List UInt8)) : 123 ∉ pre → 125 ∉ inner →
      Formatted rest args r → Formatted (pre ++ 123 :: (inner ++ 125 :: rest)) (v :: args) (pre ++ v ++ r)

end Pyincpp
