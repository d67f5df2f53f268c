import Verif.Model.Tuple
import Verif.Model.Print
import Verif.Model.Str
import Mathlib.Data.List.OfFn

/-! # Theorems about tuples and printing (C59, C60) -/

namespace Pyincpp

section tuple
open Tup
variable {ι : Type} {El : ι → Type} {t : ι} {ts us : List ι}

/-- Every tuple is made by the constructor. -/
theorem C59_made (x : Tup El ts) : ∃ a, x = make ts a := by
  induction x with
  | nil => exact ⟨fun i => i.elim0, rfl⟩
  | @cons t ts v b ih =>
    obtain ⟨a, rfl⟩ := ih
    refine ⟨fun i => Fin.cases v a i, rfl⟩

/-- C59: `get<i>` is the i-th argument of the constructor. -/
theorem C59_get (a : (i : Fin ts.length) → El (ts.get i)) (i : Fin ts.length) : get (make ts a) i = a i := by
  induction ts with
  | nil => exact i.elim0
  | cons t ts ih =>
    obtain ⟨i, h⟩ := i
    cases i with
    | zero => rfl
    | succ i => exact ih (fun i => a i.succ) ⟨i, Nat.lt_of_succ_lt_succ h⟩

/-- C59: `rest` drops the first argument. -/
theorem C59_rest (a : (i : Fin (t :: ts).length) → El ((t :: ts).get i)) :
    rest (make (t :: ts) a) = make ts (fun i => a i.succ) := rfl

/-- C59: `size` is the number of elements. -/
theorem C59_size (x : Tup El ts) (h : ts.length ≤ 2147483647) : x.size = ts.length := by
  unfold size
  cases ts with
  | nil => rfl
  | cons t ts =>
    simp only [List.length_cons] at *
    rw [wrap32_eq]
    · push_cast; omega
    · unfold IsInt INT_MIN INT_MAX; omega

variable [DecidableEq ι] (eqv : (t : ι) → El t → El t → Bool)

/-- C59: tuples of different types (lengths or element types) are never equal. -/
theorem C59_eq_types (x : Tup El ts) (y : Tup El us) (hu : us.length ≤ 2147483647) (h : ts ≠ us) : eq eqv x y = false := by
  induction x generalizing us with
  | nil =>
    unfold eq
    rw [C59_size y hu]
    cases us with
    | nil => exact absurd rfl h
    | cons => simp; omega
  | @cons t ts v b ih =>
    cases y with
    | nil => rfl
    | @cons u us w c =>
      unfold eq
      split
      · next e =>
        subst e
        split
        · exact ih c (by simp at hu; omega) (by intro e; exact h (by rw [e]))
        · rfl
      · rfl

/-- C59: tuples of the same type are equal exactly if all pairs of elements are. -/
theorem C59_eq (a b : (i : Fin ts.length) → El (ts.get i)) :
    eq eqv (make ts a) (make ts b) = true ↔ ∀ i, eqv _ (a i) (b i) = true := by
  induction ts with
  | nil => exact ⟨fun _ i => i.elim0, fun _ => rfl⟩
  | cons t ts ih =>
    unfold make eq
    simp only [dite_true]
    constructor
    · intro h i
      split at h
      · next h0 => exact Fin.cases h0 (fun j => (ih (fun i => a i.succ) (fun i => b i.succ)).1 h j) i
      · simp at h
    · intro h
      have h0 : eqv t (a 0) (b 0) = true := h 0
      have h1 := (ih (fun i => a i.succ) (fun i => b i.succ)).2 (fun i => h i.succ)
      split
      · exact h1
      · next h2 => exact absurd h0 h2

/-- C59: `!=` is the negation of `==`. -/
theorem C59_ne (x : Tup El ts) (y : Tup El us) : ne eqv x y = !eq eqv x y := by
  cases x <;> rfl

/-- `(1, true) == (1, true)`, `(1, true) != (true, 1)`. -/
example : let El : Bool → Type := fun b => if b then Bool else ℕ
    let e : (b : Bool) → El b → El b → Bool := fun b => match b with | true => fun x y : Bool => x == y | false => fun x y : ℕ => x == y
    let x : Tup El [false, true] := .cons (1 : ℕ) (.cons true .nil)
    let y : Tup El [true, false] := .cons true (.cons (1 : ℕ) .nil)
    eq e x x = true ∧ eq e x y = false := by decide

end tuple

/-- The bracketed, comma separated texts. -/
def Bracketed (opening close : UInt8) (texts : List (List UInt8)) : List UInt8 :=
  opening :: (List.intercalate [44, 32] texts ++ [close])

theorem printLoop_eq (close : UInt8) : ∀ (xs : List (List UInt8)) (out : List UInt8), xs ≠ [] →
    printLoop close xs out = .ok (out ++ (List.intercalate [44, 32] xs ++ [close]))
  | [], _, h => absurd rfl h
  | [x], out, _ => by simp [printLoop, List.intercalate]
  | x :: y :: xs, out, _ => by
    rw [printLoop]
    simp only [List.isEmpty_cons, Bool.false_eq_true, if_false]
    rw [printLoop_eq close (y :: xs) _ (by simp)]
    simp [List.intercalate, List.intersperse]

/-- C60: `print` writes the bracketed texts, for any range, and never goes past its end. -/
theorem C60_print (texts : List (List UInt8)) (opening close : UInt8) :
    printRange texts opening close = .ok (Bracketed opening close texts) := by
  unfold printRange Bracketed
  cases texts with
  | nil => rfl
  | cons x xs =>
    simp only [List.isEmpty_cons, Bool.false_eq_true, if_false]
    rw [printLoop_eq close (x :: xs) [opening] (by simp)]
    rfl

/-- C60: `[a, b]`, `<a, b>`, `{a, b}`, `{k: v, k: v}`. -/
theorem C60_containers {α κ ν : Type} (shown : α → List UInt8) (key : κ → List UInt8) (val : ν → List UInt8) (l : List α)
    (d : List (κ × ν)) :
    Lst.print shown l = .ok (Bracketed 91 93 (l.map shown)) ∧
    Dq.print shown l = .ok (Bracketed 60 62 (l.map shown)) ∧
    PSet.print shown l = .ok (Bracketed 123 125 (l.map shown)) ∧
    PDict.print key val d = .ok (Bracketed 123 125 (d.map (fun p => key p.1 ++ 58 :: 32 :: val p.2))) := by
  refine ⟨C60_print _ _ _, C60_print _ _ _, C60_print _ _ _, ?_⟩
  unfold PDict.print
  rw [C60_print]
  simp [printPair]

/-- The bracketed texts: the brackets alone for none, nothing but brackets around one, and a separator after the first
of several. -/
theorem C60_bracketed (o c : UInt8) (x y : List UInt8) (r : List (List UInt8)) :
    Bracketed o c [] = [o, c] ∧ Bracketed o c [x] = o :: (x ++ [c]) ∧
    Bracketed o c (x :: y :: r) = o :: (x ++ 44 :: 32 :: (Bracketed o c (y :: r)).tail) := by
  refine ⟨rfl, ?_, ?_⟩
  · simp [Bracketed, List.intercalate]
  · simp [Bracketed, List.intercalate, List.intersperse]

example : Lst.print (fun n : ℕ => [48 + n.toUInt8]) [1, 2, 3] = .ok "[1, 2, 3]".toUTF8.toList := by decide +kernel

section tuple
open Tup
variable {ι : Type} {El : ι → Type} {t : ι} {ts : List ι} (shown : (t : ι) → El t → List UInt8)

/-- The texts of the elements of a tuple. -/
def Tup.texts : {ts : List ι} → Tup El ts → List (List UInt8)
  | _, .nil => []
  | t :: _, .cons a x => shown t a :: texts x

theorem printElems_eq : {ts : List ι} → (x : Tup El ts) → (h : ts.length ≤ 2147483647) →
    printElems shown x = List.intercalate [44, 32] (texts shown x)
  | _, .nil, _ => rfl
  | t :: ts, .cons a x, h => by
    rw [printElems, C59_size _ h, printElems_eq x (by simp at h; omega), texts]
    cases x with
    | nil => simp [texts, List.intercalate]
    | @cons u us b x =>
      rw [texts]
      have : ((((t :: u :: us : List ι).length : ℕ) : ℤ) == 1) = false := by
        rw [beq_eq_false_iff_ne]; simp only [List.length_cons]; push_cast; omega
      rw [this]
      simp [List.intercalate, List.intersperse]

/-- C60: a tuple of one element prints `(a,)`, every other one `(a, b)`. -/
theorem C60_tuple (a : (i : Fin ts.length) → El (ts.get i)) (h : ts.length ≤ 2147483647) :
    Tup.print shown (make ts a) = if ts.length = 1 then 40 :: ((List.ofFn fun i => shown _ (a i)).flatten ++ [44, 41])
      else Bracketed 40 41 (List.ofFn fun i => shown _ (a i)) := by
  have ht : ∀ (ts : List ι) (a : (i : Fin ts.length) → El (ts.get i)),
      texts shown (make ts a) = List.ofFn fun i => shown _ (a i) := by
    intro ts
    induction ts with
    | nil => intro a; rfl
    | cons t ts ih =>
      intro a
      have e : texts shown (make (t :: ts) a) = shown t (a 0) :: texts shown (make ts (fun i => a i.succ)) := rfl
      rw [e, ih]
      exact (List.ofFn_succ (f := fun i : Fin (ts.length + 1) => shown ((t :: ts).get i) (a i))).symm
  rcases ts with _ | ⟨t, _ | ⟨u, ts⟩⟩
  · rfl
  · rw [if_pos (by rfl), ← ht]
    have e : texts shown (make [t] a) = [shown t (a 0)] := rfl
    rw [e]
    have e : Tup.print shown (make [t] a) = [40] ++ shown t (a 0) ++ [44, 41] := rfl
    rw [e]
    simp
  · rw [if_neg (by simp)]
    have e : Tup.print shown (make (t :: u :: ts) a) = [40] ++ printElems shown (make (t :: u :: ts) a) ++ [41] := rfl
    rw [e, printElems_eq shown _ h, ht]
    simp [Bracketed]

end tuple

/-- C60: a string prints between double quotes, byte by byte. -/
theorem C60_str (s : List UInt8) : Str.print s = 34 :: (s ++ [34]) := rfl

end Pyincpp
