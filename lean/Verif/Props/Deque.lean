import Verif.Spec.Deque
import Verif.Props.List

/-! # Properties of `Deque` (C29, C33, C41, C42) -/

namespace Pyincpp
open Lst

variable {α : Type}

theorem Dq.size_eq' (d : List α) : Dq.size d = Lst.size d := by unfold Dq.size Lst.size; rfl
theorem Dq.rotL_eq (n : Int) : (Dq.rotL n : Meth (List α) Unit) = Lst.rotL n := by
  funext l; unfold Dq.rotL Lst.rotL; simp only [Dq.size_eq']
theorem Dq.rotR_eq (n : Int) : (Dq.rotR n : Meth (List α) Unit) = Lst.rotR n := by
  funext l; unfold Dq.rotR Lst.rotR; simp only [Dq.size_eq', Dq.rotL_eq]
theorem Dq.refAt_eq (d : List α) (i : Int) : Dq.refAt d i = Lst.refAt d i := by
  unfold Dq.refAt Lst.refAt; simp only [Dq.size_eq']
theorem Dq.get_eq (d : List α) (i : Int) : Dq.get d i = Lst.get d i := by
  unfold Dq.get Lst.get; simp only [Dq.refAt_eq]
theorem Dq.assign_eq (i : Int) (e : α) : (Dq.assign i e : Meth (List α) Unit) = Lst.assign i e := by
  funext l; unfold Dq.assign Lst.assign; simp only [Dq.refAt_eq]

theorem Dq.pushBack_run (d : List α) (hd : d.length ≤ maxLen) (e : α) :
    Dq.pushBack e d = if d.length = maxLen then (.throw msgFull, d) else (.ok (), d ++ [e]) := by
  split
  · next h =>
    have hs : Dq.size d = INT_MAX := by rw [Dq.size_eq', size_eq hd, h]; unfold maxLen INT_MAX; omega
    simp only [Dq.pushBack, Meth.get_bind, hs, checkFull_throw (Int.le_refl INT_MAX), Meth.lift_throw_bind]
  · next h =>
    have hs : Dq.size d = d.length := by rw [Dq.size_eq', size_eq hd]
    simp only [Dq.pushBack, Meth.get_bind, hs, checkFull_ok (a := (d.length : Int)) (b := INT_MAX)
      (by unfold INT_MAX; unfold maxLen at *; omega), Meth.lift_ok_bind, Meth.set_run]

theorem Dq.pushFront_run (d : List α) (hd : d.length ≤ maxLen) (e : α) :
    Dq.pushFront e d = if d.length = maxLen then (.throw msgFull, d) else (.ok (), e :: d) := by
  split
  · next h =>
    have hs : Dq.size d = INT_MAX := by rw [Dq.size_eq', size_eq hd, h]; unfold maxLen INT_MAX; omega
    simp only [Dq.pushFront, Meth.get_bind, hs, checkFull_throw (Int.le_refl INT_MAX), Meth.lift_throw_bind]
  · next h =>
    have hs : Dq.size d = d.length := by rw [Dq.size_eq', size_eq hd]
    simp only [Dq.pushFront, Meth.get_bind, hs, checkFull_ok (a := (d.length : Int)) (b := INT_MAX)
      (by unfold INT_MAX; unfold maxLen at *; omega), Meth.lift_ok_bind, Meth.set_run]

theorem Dq.empty_throws : checkEmpty (Dq.size ([] : List α)) = .throw msgEmpty := by
  rw [Dq.size_eq', size_eq (by simp)]; rfl

theorem Dq.checkEmpty_cons (x : α) (xs : List α) (hd : (x :: xs).length ≤ maxLen) : checkEmpty (Dq.size (x :: xs)) = .ok () :=
  checkEmpty_ok (by rw [Dq.size_eq', size_eq hd]; simp; omega)

theorem Dq.front_run (d : List α) (hd : d.length ≤ maxLen) :
    Dq.front d = match d.head? with | some x => .ok x | none => .throw msgEmpty := by
  cases d with
  | nil => simp [Dq.front, Dq.empty_throws]
  | cons x xs => simp [Dq.front, Dq.checkEmpty_cons x xs hd, Dq.stdFront, vget]

theorem Dq.stdBack_some (x : α) (xs : List α) : Dq.stdBack (x :: xs) = .ok ((x :: xs).getLast (by simp)) := by
  unfold Dq.stdBack
  rw [if_neg (by simp), vget_ok (by simp), List.getLast_eq_getElem]

theorem Dq.back_run (d : List α) (hd : d.length ≤ maxLen) :
    Dq.back d = match d.getLast? with | some x => .ok x | none => .throw msgEmpty := by
  cases d with
  | nil => simp [Dq.back, Dq.empty_throws]
  | cons x xs =>
    rw [List.getLast?_eq_some_getLast (by simp)]
    simp only [Dq.back, Dq.checkEmpty_cons x xs hd, Res.ok_bind, Dq.stdBack_some]

theorem Dq.popFront_run (d : List α) (hd : d.length ≤ maxLen) :
    Dq.popFront d = match d with | x :: xs => (.ok x, xs) | [] => (.throw msgEmpty, []) := by
  cases d with
  | nil => simp only [Dq.popFront, Meth.get_bind, Dq.empty_throws, Meth.lift_throw_bind]
  | cons x xs =>
    have : Dq.stdFront (x :: xs) = .ok x := by simp [Dq.stdFront, vget]
    simp only [Dq.popFront, Meth.get_bind, Dq.checkEmpty_cons x xs hd, Meth.lift_ok_bind, this, Meth.set_bind,
      Meth.pure_run, List.tail_cons]

theorem Dq.popBack_run (d : List α) (hd : d.length ≤ maxLen) :
    Dq.popBack d = match d.getLast? with | some x => (.ok x, d.dropLast) | none => (.throw msgEmpty, d) := by
  cases d with
  | nil => simp only [Dq.popBack, Meth.get_bind, Dq.empty_throws, Meth.lift_throw_bind, List.getLast?_nil]
  | cons x xs =>
    rw [List.getLast?_eq_some_getLast (by simp)]
    simp only [Dq.popBack, Meth.get_bind, Dq.checkEmpty_cons x xs hd, Meth.lift_ok_bind, Dq.stdBack_some, Meth.set_bind,
      Meth.pure_run]

/-- One operation of a `Deque` against the abstract one. -/
theorem deque_step (op : DOp α) (d : List α) (hd : d.length ≤ maxLen) (hf : op.Fair d) :
    match op.abs d with
    | .ok (r, d') => op.step d = (.ok r, d') ∧ d'.length ≤ maxLen
    | .error m => op.step d = (.throw m, d) := by
  cases op with
  | pushBack e =>
    simp only [DOp.abs, DOp.step]
    have := Dq.pushBack_run d hd e
    by_cases h : d.length = maxLen
    · rw [if_pos h] at this ⊢; exact Meth.run_throw this
    · rw [if_neg h] at this ⊢; exact ⟨Meth.run_ok this, by simp; omega⟩
  | pushFront e =>
    simp only [DOp.abs, DOp.step]
    have := Dq.pushFront_run d hd e
    by_cases h : d.length = maxLen
    · rw [if_pos h] at this ⊢; exact Meth.run_throw this
    · rw [if_neg h] at this ⊢; exact ⟨Meth.run_ok this, by simp; omega⟩
  | popBack =>
    simp only [DOp.abs, DOp.step]
    have := Dq.popBack_run d hd
    cases h : d.getLast? with
    | none => rw [h] at this; exact Meth.run_throw this
    | some x => rw [h] at this; exact ⟨Meth.run_ok this, by simp; omega⟩
  | popFront =>
    simp only [DOp.abs, DOp.step]
    have := Dq.popFront_run d hd
    cases d with
    | nil => exact Meth.run_throw this
    | cons x xs => exact ⟨Meth.run_ok this, by simp at hd; omega⟩
  | back =>
    simp only [DOp.abs, DOp.step]
    have := Dq.back_run d hd
    cases h : d.getLast? with
    | none => rw [h] at this; exact Meth.run_throw (by simp only [Meth.ask, Meth.get_bind, this, Meth.lift_run])
    | some x => rw [h] at this; exact ⟨Meth.run_ok (by simp only [Meth.ask, Meth.get_bind, this, Meth.lift_run]), hd⟩
  | front =>
    simp only [DOp.abs, DOp.step]
    have := Dq.front_run d hd
    cases h : d.head? with
    | none => rw [h] at this; exact Meth.run_throw (by simp only [Meth.ask, Meth.get_bind, this, Meth.lift_run])
    | some x => rw [h] at this; exact ⟨Meth.run_ok (by simp only [Meth.ask, Meth.get_bind, this, Meth.lift_run]), hd⟩
  | get i =>
    simp only [DOp.abs, DOp.step, Dq.get_eq]
    cases h : pyIndex d.length i with
    | none => exact Meth.run_throw (by simp only [Meth.ask, Meth.get_bind, get_none hd h, Meth.lift_run])
    | some p =>
      obtain ⟨x, e1, e2⟩ := get_some hd h
      refine ⟨?_, hd⟩
      rw [e1]
      exact Meth.run_ok (by simp only [Meth.ask, Meth.get_bind, e2, Meth.lift_run])
  | assign i e =>
    simp only [DOp.abs, DOp.step, Dq.assign_eq]
    cases h : pyIndex d.length i with
    | none => exact Meth.run_throw (assign_none hd h)
    | some p => exact ⟨Meth.run_ok (assign_some hd h), by simpa using hd⟩
  | extendBack m =>
    simp only [DOp.abs, DOp.step]
    exact ⟨Meth.run_ok (x := Dq.extendBack m) (s' := d ++ m) (a := ()) (by simp [Dq.extendBack]), by simpa [DOp.Fair] using hf⟩
  | extendFront m =>
    simp only [DOp.abs, DOp.step]
    exact ⟨Meth.run_ok (x := Dq.extendFront m) (s' := m ++ d) (a := ()) (by simp [Dq.extendFront]), by
      simp only [DOp.Fair] at hf; simp; omega⟩
  | rotL n =>
    simp only [DOp.abs, DOp.step, Dq.rotL_eq]
    exact ⟨Meth.run_ok (rotL_run hd hf), by rw [rotated_length]; exact hd⟩
  | rotR n =>
    simp only [DOp.abs, DOp.step, Dq.rotR_eq]
    exact ⟨Meth.run_ok (rotR_run hd hf.1 hf.2), by rw [rotated_length]; exact hd⟩
  | reverse =>
    simp only [DOp.abs, DOp.step]
    exact ⟨Meth.run_ok (x := Dq.reverse) (s' := d.reverse) (a := ()) (by simp [Dq.reverse]), by simpa using hd⟩
  | clear =>
    simp only [DOp.abs, DOp.step]
    exact ⟨Meth.run_ok (x := Dq.clear) (s := d) (s' := []) (a := ()) (by simp [Dq.clear]), by simp⟩

/-- C42, for every history of fair operations (`Fair` excludes growth beyond `INT_MAX` through `extend_*`, and
`>>= INT_MIN`, which are the defects below). -/
theorem C42_deque_history_partial (ops : List (DOp α)) (d : List α) (hd : d.length ≤ maxLen) (hf : DOp.FairRun d ops) :
    (DOp.run ops d).1 = (DOp.absRun d ops).1.map seen ∧ (DOp.run ops d).2 = (DOp.absRun d ops).2 := by
  induction ops generalizing d with
  | nil => simp [DOp.run, DOp.absRun]
  | cons op ops ih =>
    obtain ⟨hfair, hrest⟩ := hf
    have hstep := deque_step op d hd hfair
    cases habs : op.abs d with
    | ok x =>
      obtain ⟨r, d'⟩ := x
      simp only [habs] at hstep hrest
      obtain ⟨h1, h2⟩ := ih d' hstep.2 hrest
      simp [DOp.run, DOp.absRun, habs, hstep.1, h1, h2, seen]
    | error m =>
      simp only [habs] at hstep hrest
      obtain ⟨h1, h2⟩ := ih d hd hrest
      simp [DOp.run, DOp.absRun, habs, hstep, h1, h2, seen]

example : DOp.FairRun [1, 2] [.pushFront 0, .popBack, .rotR 1, .popFront, .popFront, .popFront, .extendFront [7, 8], .back] ∧
    DOp.absRun [1, 2] [.pushFront 0, .popBack, .rotR 1, .popFront, .popFront, .popFront, .extendFront [7, 8], .back] =
      ([.ok none, .ok (some 2), .ok none, .ok (some 1), .ok (some 0), .error msgEmpty, .ok none, .ok (some 8)], [7, 8]) := by
  constructor
  · simp [DOp.FairRun, DOp.Fair, DOp.abs, IsInt, INT_MIN, INT_MAX, maxLen, rotated]
  · simp [DOp.absRun, DOp.abs, maxLen, rotated]

theorem DOp.run_ub (op : DOp α) (d d' : List α) (u : UB) (h : op.step d = (.ub u, d')) :
    (DOp.run [op] d).1 = [.ub u] := by
  simp only [DOp.run, h]

/-- C42 is false of the code for `>>= INT_MIN` (undefined behaviour). -/
theorem C42_deque_history_not (d : List α) (hd : d.length ≤ maxLen) (h2 : 2 ≤ d.length) :
    (DOp.run [.rotR INT_MIN] d).1 = [.ub .overflow] := by
  apply DOp.run_ub (.rotR INT_MIN) d d
  simp only [DOp.step, Dq.rotR_eq]
  exact Meth.run_ub (rotR_min hd h2)

/-- C33 for `Deque`. -/
theorem C33_deque_index (d : List α) (hd : d.length ≤ maxLen) (i : Int) :
    (0 ≤ i ∧ i < d.length → ∃ x, d[i.toNat]? = some x ∧ Dq.get d i = .ok x) ∧
    (-(d.length : Int) ≤ i ∧ i < 0 → ∃ x, d[(d.length + i).toNat]? = some x ∧ Dq.get d i = .ok x) ∧
    (i < -(d.length : Int) ∨ (d.length : Int) ≤ i → Dq.get d i = .throw "Error: Index out of range.") := by
  rw [Dq.get_eq]; exact C33_list_index d hd i

example : Dq.get [10, 20, 30] (-3) = .ok 10 ∧ Dq.get [10, 20, 30] (-4) = .throw msgIndex := by decide +kernel

/-- C29 for `Deque <<=`. -/
theorem C29_deque_rotate_left (d : List α) (hd : d.length ≤ maxLen) (n : Int) (hn : IsInt n) :
    ∃ r, Dq.rotL n d = (.ok (), r) ∧ r.length = d.length ∧
      ∀ i : Nat, i < d.length → r[i]? = d[(((i : Int) + n) % d.length).toNat]? := by
  rw [Dq.rotL_eq]; exact C29_list_rotate_left d hd n hn

/-- C29 for `Deque >>=`, which fails for the single value `INT_MIN`. -/
theorem C29_deque_rotate_right_partial (d : List α) (hd : d.length ≤ maxLen) (n : Int) (hn : IsInt n) (hm : n ≠ INT_MIN) :
    ∃ r, Dq.rotR n d = (.ok (), r) ∧ Dq.rotL (-n) d = (.ok (), r) ∧ r.length = d.length ∧
      (∀ i : Nat, i < d.length → r[i]? = d[(((i : Int) - n) % d.length).toNat]?) ∧
      (do Dq.rotL n; Dq.rotR n : Meth (List α) Unit) d = (.ok (), d) := by
  rw [Dq.rotR_eq, Dq.rotL_eq, Dq.rotL_eq]
  obtain ⟨r, e1, e2, e3⟩ := C29_list_rotate_right_partial d hd n hn hm
  exact ⟨r, e1, by rw [← C29_list_right_left_partial d hd n hn hm, e1], e2, e3, C29_list_restore_partial d hd n hn hm⟩

/-- C29: rotations of a `Deque` add up. -/
theorem C29_deque_compose (d : List α) (hd : d.length ≤ maxLen) (m n : Int) (hm : IsInt m) (hn : IsInt n)
    (hmn : IsInt (m + n)) :
    (do Dq.rotL m; Dq.rotL n : Meth (List α) Unit) d = Dq.rotL (m + n) d := by
  rw [Dq.rotL_eq, Dq.rotL_eq, Dq.rotL_eq]; exact C29_list_compose d hd m n hm hn hmn

/-- C29 is false of the code for `Deque >>= INT_MIN`. -/
theorem C29_deque_rotate_right_not (d : List α) (hd : d.length ≤ maxLen) (h2 : 2 ≤ d.length) :
    Dq.rotR INT_MIN d = (.ub .overflow, d) := by
  rw [Dq.rotR_eq]; exact rotR_min hd h2

example : Dq.rotR 1 [1, 2, 3] = (.ok (), [3, 1, 2]) := by decide +kernel

/-- C41 for `Deque`: a push onto a full deque throws and changes nothing, otherwise the size stays in range. -/
theorem C41_deque_size (d : List α) (hd : d.length ≤ maxLen) (e : α) :
    0 ≤ Dq.size d ∧ ∀ op ∈ [Dq.pushBack e, Dq.pushFront e],
      (d.length < maxLen ∧ (op d).1 = .ok () ∧ (op d).2.length ≤ maxLen ∧ 0 ≤ Dq.size (op d).2) ∨
      (d.length = maxLen ∧ op d = (.throw "Error: The container has reached the maximum size.", d)) := by
  have hsz : ∀ x : List α, x.length ≤ maxLen → 0 ≤ Dq.size x := by
    intro x hx; rw [Dq.size_eq', size_eq hx]; omega
  refine ⟨hsz d hd, ?_⟩
  intro op hop
  simp only [List.mem_cons, List.not_mem_nil, or_false] at hop
  by_cases h : d.length = maxLen
  · right
    rcases hop with rfl | rfl
    · exact ⟨h, by rw [Dq.pushBack_run d hd, if_pos h, msgFull]⟩
    · exact ⟨h, by rw [Dq.pushFront_run d hd, if_pos h, msgFull]⟩
  · left
    rcases hop with rfl | rfl
    · rw [Dq.pushBack_run d hd, if_neg h]
      have : (d ++ [e]).length ≤ maxLen := by simp; omega
      exact ⟨by omega, rfl, this, hsz _ this⟩
    · rw [Dq.pushFront_run d hd, if_neg h]
      have : (e :: d).length ≤ maxLen := by simp; omega
      exact ⟨by omega, rfl, this, hsz _ this⟩

/-- C41 is false of the code for the unchecked `extend_back` and `extend_front`. -/
theorem C41_deque_extend_not (d : List α) (hd : d.length = maxLen) (e : α) :
    Dq.size (Dq.extendBack [e] d).2 = -2147483648 ∧ Dq.size (Dq.extendFront [e] d).2 = -2147483648 := by
  constructor
  · simp [Dq.extendBack, Dq.size, wrap32, hd, maxLen]
  · simp [Dq.extendFront, Dq.size, wrap32, hd, maxLen]

end Pyincpp
