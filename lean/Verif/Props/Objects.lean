import Mathlib.Logic.Function.Basic
import Verif.Model.Objects
import Verif.Proof.Meth
import Verif.Proof.IntAddSub

/-! # C63, C69: copying and moving objects, reading lines -/

namespace Pyincpp
open Function

section
variable {σ : Type}

theorem Store.put_eq (s : Store σ) (a : Nat) (x : σ) : s.put a x = update s a x := by
  funext i
  unfold Store.put
  by_cases h : i = a
  · subst h; simp
  · simp [h]

/-- After `a = std::move(b)`: `a` has what `b` had, `b` has the value `d`, all others are as before. For `a = a` this leaves `d`. -/
def moved (s : Store σ) (a b : Nat) (d : σ) : Store σ := update (update s a (s b)) b d

/-- C63: `a = b` gives `a` the value of `b` and changes no other object, in particular not `b`; `a = a` changes nothing. All
classes but `Str`. -/
theorem C63_copy (a b : Nat) (s : Store σ) :
    Obj.copy a b s = (.ok (), update s a (s b)) ∧ (Obj.copy a a s).2 = s := by
  have h : ∀ a b, Obj.copy a b s = (.ok (), update s a (s b)) := by
    intro a b
    unfold Obj.copy
    rw [Meth.get_bind, Store.put_eq]
    rfl
  exact ⟨h a b, by rw [h, update_eq_self]⟩

/-- C63: moving a `List`, `Deque`, `Set` or `Dict`: the source is left empty. -/
theorem C63_move_container (a b : Nat) (s : Store (List σ)) :
    Obj.moveContainer a b s = (.ok (), moved s a b []) := by
  unfold Obj.moveContainer
  simp only [Meth.get_bind, Meth.set_bind, Meth.set_run, Store.put_eq, moved]

/-- C63: moving an `Int`: the source is left zero, in canonical form. -/
theorem C63_move_int (a b : Nat) (s : Store BInt) : Obj.moveInt a b s = (.ok (), moved s a b (enc 0)) := by
  unfold Obj.moveInt
  simp only [Meth.get_bind, Meth.set_bind, Meth.set_run, Store.put_eq, moved]
  refine congrArg (Prod.mk _) ?_
  by_cases h : a = b
  · subst h
    funext i
    by_cases hi : i = a <;> simp [hi, enc_zero]
  · have h' : b ≠ a := fun e => h e.symm
    funext i
    by_cases hi : i = b
    · simp [hi, enc_zero]
    · by_cases hi' : i = a <;> simp [hi, hi', h, h', enc_zero]

/-- C63: moving a `Fraction`: the source is left 0/1. -/
theorem C63_move_fraction (a b : Nat) (s : Store Frac) : Obj.moveFrac a b s = (.ok (), moved s a b ⟨0, 1⟩) := by
  unfold Obj.moveFrac
  simp only [Meth.get_bind, Meth.set_bind, Meth.set_run, Store.put_eq, moved]
  refine congrArg (Prod.mk _) ?_
  by_cases h : a = b
  · subst h
    funext i
    by_cases hi : i = a <;> simp [hi]
  · have h' : b ≠ a := fun e => h e.symm
    funext i
    by_cases hi : i = b
    · simp [hi]
    · by_cases hi' : i = a <;> simp [hi, hi', h, h']

/-- C63: moving a `Complex`: the source is left zero. -/
theorem C63_move_complex {F : Type} (A : Arith F) (a b : Nat) (s : Store (Cx F)) :
    Obj.moveCx A a b s = (.ok (), moved s a b ⟨A.zero, A.zero⟩) := by
  unfold Obj.moveCx
  simp only [Meth.get_bind, Meth.set_bind, Meth.set_run, Store.put_eq, moved]
  refine congrArg (Prod.mk _) ?_
  by_cases h : a = b
  · subst h
    funext i
    by_cases hi : i = a <;> simp [hi]
  · have h' : b ≠ a := fun e => h e.symm
    funext i
    by_cases hi : i = b
    · simp [hi]
    · by_cases hi' : i = a <;> simp [hi, hi', h, h']

example : ((Obj.moveInt 0 1 (fun i => if i = 0 then ⟨1, [7]⟩ else ⟨-1, [5, 2]⟩)).2 0,
    (Obj.moveInt 0 1 (fun i => if i = 0 then ⟨1, [7]⟩ else ⟨-1, [5, 2]⟩)).2 1) = (⟨-1, [5, 2]⟩, ⟨0, []⟩) := by decide

end

/-- C63 for `Str`, as compilers perform the writes through `const_cast`. Copy construction is defined by the standard as well.
Missing: by the standard all others are undefined (`C63_str_not`). -/
theorem C63_str_partial (a b : Nat) (s : Store (List UInt8)) :
    Obj.copyCtorStr a b s = (.ok (), update s a (s b)) ∧
    Obj.copyStr .lenient a b s = (.ok (), update s a (s b)) ∧
    Obj.moveCtorStr .lenient a b s = (.ok (), moved s a b []) ∧
    Obj.moveStr .lenient a b s = (.ok (), moved s a b []) := by
  refine ⟨(C63_copy a b s).1, ?_, ?_, ?_⟩
  · unfold Obj.copyStr Obj.writeStr
    simp only [Meth.get_bind, Meth.set_run, Store.put_eq]
  · unfold Obj.moveCtorStr Obj.writeStr
    simp only [Meth.get_bind, Meth.set_bind, Meth.set_run, Store.put_eq, moved]
  · show ((Obj.writeStr .lenient a (s b)) >>= fun _ => Obj.writeStr .lenient b []) s = _
    rw [Meth.run_ok (show Obj.writeStr .lenient a (s b) s = (.ok (), s.put a (s b)) from rfl)]
    unfold Obj.writeStr
    simp only [Meth.get_bind, Meth.set_run, Store.put_eq, moved]

/-- C63 fails for `Str`: its only member is declared `const`, so every assignment and every move modifies a `const` object. -/
theorem C63_str_not (a b : Nat) (s : Store (List UInt8)) :
    (Obj.copyStr .strict a b s).1 = .ub .constWrite ∧ (Obj.moveCtorStr .strict a b s).1 = .ub .constWrite ∧
    (Obj.moveStr .strict a b s).1 = .ub .constWrite := ⟨rfl, rfl, rfl⟩

example : ((Obj.moveStr .lenient 0 1 (fun i => if i = 0 then [97] else [98, 99])).2 0,
    (Obj.moveStr .lenient 0 1 (fun i => if i = 0 then [97] else [98, 99])).2 1) = ([98, 99], []) := by decide

/-! ## C69 -/

/-- C69: `operator>>` on a good stream stores everything up to the next newline, which is extracted; without a newline everything
that is left, which ends the stream, as a failure if nothing was left. No other object changes. Missing: by the standard the write
to the `const` member is undefined (`C69_line_not`). -/
theorem C69_line_partial (a : Nat) (s : Store (List UInt8)) (line : List UInt8) (hl : ∀ c ∈ line, c ≠ 10) :
    (∀ rest, Obj.inputStr .lenient a (s, ⟨line ++ 10 :: rest, false, false⟩) = (.ok (), (update s a line, ⟨rest, false, false⟩))) ∧
    Obj.inputStr .lenient a (s, ⟨line, false, false⟩) = (.ok (), (update s a line, ⟨[], true, line.isEmpty⟩)) := by
  have hp : ∀ c ∈ line, (c != 10) = true := fun c hc => by simpa using hl c hc
  have ht : line.takeWhile (· != 10) = line := List.takeWhile_eq_self_iff.2 hp
  have hd : line.dropWhile (· != 10) = [] := List.dropWhile_eq_nil_iff.2 hp
  constructor
  · intro rest
    have e : Str.input ⟨line ++ 10 :: rest, false, false⟩ = (some line, ⟨rest, false, false⟩) := by
      unfold Str.input IStream.good
      simp only [Bool.not_false, Bool.and_self, Bool.not_true, Bool.false_eq_true, if_false,
        List.takeWhile_append_of_pos hp, List.dropWhile_append_of_pos hp]
      simp
    unfold Obj.inputStr
    rw [Meth.get_bind]
    simp only [e, Meth.set_run, Store.put_eq]
  · have e : Str.input ⟨line, false, false⟩ = (some line, ⟨[], true, line.isEmpty⟩) := by
      unfold Str.input IStream.good
      simp only [Bool.not_false, Bool.and_self, Bool.not_true, Bool.false_eq_true, if_false, ht, hd]
    unfold Obj.inputStr
    rw [Meth.get_bind]
    simp only [e, Meth.set_run, Store.put_eq]

/-- C69: on a stream that is not good nothing is stored, and the stream fails. -/
theorem C69_exhausted (mem : Mem) (a : Nat) (s : Store (List UInt8)) (is : IStream) (h : is.good = false) :
    Obj.inputStr mem a (s, is) = (.ok (), (s, { is with fail := true })) := by
  have e : Str.input is = (none, { is with fail := true }) := by
    unfold Str.input
    rw [h]
    rfl
  unfold Obj.inputStr
  rw [Meth.get_bind]
  simp only [e, Meth.set_run]

/-- C69 fails by the standard: the line is written to a `const` object, on every good stream. -/
theorem C69_line_not (a : Nat) (s : Store (List UInt8)) (is : IStream) (h : is.good = true) :
    (Obj.inputStr .strict a (s, is)).1 = .ub .constWrite := by
  have e : ∃ line is', Str.input is = (some line, is') := by
    unfold Str.input
    rw [h]
    simp only [Bool.not_true, Bool.false_eq_true, if_false]
    split <;> exact ⟨_, _, rfl⟩
  obtain ⟨line, is', e⟩ := e
  unfold Obj.inputStr
  rw [Meth.get_bind]
  simp only [e]
  rfl

/-- The next `n` objects from `a` on are read. -/
def readLines (mem : Mem) : Nat → Nat → Meth (Store (List UInt8) × IStream) Unit
  | _, 0 => pure ()
  | a, n + 1 => do
    Obj.inputStr mem a
    readLines mem (a + 1) n

/-- C69: reading as many lines as there are gives them all, in order. Missing: as for `C69_line_partial`. -/
theorem C69_lines_partial (lines : List (List UInt8)) (hl : ∀ l ∈ lines, ∀ c ∈ l, c ≠ 10) (rest : List UInt8) (a : Nat)
    (s : Store (List UInt8)) :
    ∃ s', readLines .lenient a lines.length (s, ⟨lines.flatMap (· ++ [10]) ++ rest, false, false⟩) =
        (.ok (), (s', ⟨rest, false, false⟩)) ∧
      (∀ i l, lines[i]? = some l → s' (a + i) = l) ∧ ∀ j, j < a ∨ a + lines.length ≤ j → s' j = s j := by
  induction lines generalizing a s with
  | nil => exact ⟨s, rfl, by simp, fun _ _ => rfl⟩
  | cons l ls ih =>
    obtain ⟨s', h1, h2, h3⟩ := ih (fun l' h => hl l' (List.mem_cons_of_mem _ h)) (a + 1) (update s a l)
    have e := (C69_line_partial a s l (hl l (by simp))).1 (ls.flatMap (· ++ [10]) ++ rest)
    refine ⟨s', ?_, ?_, ?_⟩
    · have e' : (l :: ls).flatMap (· ++ [10]) ++ rest = l ++ 10 :: (ls.flatMap (· ++ [10]) ++ rest) := by simp
      rw [e', List.length_cons]
      show (Obj.inputStr .lenient a >>= fun _ => readLines .lenient (a + 1) ls.length) _ = _
      rw [Meth.run_ok e]
      exact h1
    · intro i x hx
      cases i with
      | zero =>
        simp only [List.getElem?_cons_zero, Option.some.injEq] at hx
        rw [Nat.add_zero, h3 a (by omega), update_self, hx]
      | succ i =>
        rw [← h2 i x (by simpa using hx)]
        congr 1; omega
    · intro j hj
      rw [h3 j (by simp at hj; omega), update_of_ne (by simp at hj; omega)]

example : ((readLines .lenient 3 2 (fun _ => [], ⟨[97, 10, 10, 98], false, false⟩)).2.1 3,
    (readLines .lenient 3 2 (fun _ => [1], ⟨[97, 10, 10, 98], false, false⟩)).2.1 4) = ([97], []) := by decide

/-- C69: what `operator<<` printed is not read back as it was: the quotes are kept, and a newline inside ends the line. -/
theorem C69_round_trip_not : (∀ s : List UInt8, (Str.input ⟨Str.print s, false, false⟩).1 ≠ some s) ∧
    (Str.input ⟨Str.print [97, 10, 98], false, false⟩).1 = some [34, 97] := by
  refine ⟨fun s h => ?_, by decide⟩
  unfold Str.input Str.print IStream.good at h
  simp only [Bool.not_false, Bool.and_self, Bool.not_true, Bool.false_eq_true, if_false] at h
  have e : (34 :: (s ++ [34])).takeWhile (· != 10) = s := by
    revert h
    split <;> intro h <;> simpa using h
  have hn : ∀ c ∈ s, (c != 10) = true := fun c hc => by rw [← e] at hc; exact List.mem_takeWhile_imp (p := (· != 10)) hc
  have : (34 :: (s ++ [34])).takeWhile (· != 10) = 34 :: (s ++ [34]) := by
    refine List.takeWhile_eq_self_iff.2 fun c hc => ?_
    simp only [List.mem_cons, List.mem_append, List.not_mem_nil, or_false] at hc
    rcases hc with rfl | hc | rfl
    · rfl
    · exact hn c hc
    · rfl
  rw [this] at e
  have := congrArg List.length e
  simp only [List.length_cons, List.length_append, List.length_nil] at this
  omega

end Pyincpp
