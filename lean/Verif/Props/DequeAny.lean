import Verif.Props.AnySize
import Verif.Props.Deque

/-! # Deques of any size (C42)

`extend_back` and `extend_front` do not check the size, so a deque may have more than `INT_MAX` elements. -/

namespace Pyincpp

open Lst

variable {α : Type}

/-- What an operation does to a deque of any size. Indices count as if there were `size()` elements, rotation is modulo `size()`, and `pop_*`, `back` and
`front` take the deque for empty if the number of elements is a multiple of `2^32`. Undefined are `[]` on a deque whose `size()` is `INT_MIN`, and `>>= INT_MIN`. -/
def DOp.code (d : List α) : DOp α → Res (Option α) × List α
  | .pushBack e => if d.length % 4294967296 = maxLen then (.throw msgFull, d) else (.ok none, d ++ [e])
  | .pushFront e => if d.length % 4294967296 = maxLen then (.throw msgFull, d) else (.ok none, e :: d)
  | .popBack => if 4294967296 ∣ d.length then (.throw msgEmpty, d) else (.ok d.getLast?, d.dropLast)
  | .popFront => if 4294967296 ∣ d.length then (.throw msgEmpty, d) else (.ok d.head?, d.tail)
  | .back => if 4294967296 ∣ d.length then (.throw msgEmpty, d) else (.ok d.getLast?, d)
  | .front => if 4294967296 ∣ d.length then (.throw msgEmpty, d) else (.ok d.head?, d)
  | .get i =>
    if shown d.length = INT_MIN then (.ub .overflow, d)
    else match pyIndex (shown d.length).toNat i with
      | some p => (.ok d[p]?, d)
      | none => (.throw msgIndex, d)
  | .assign i e =>
    if shown d.length = INT_MIN then (.ub .overflow, d)
    else match pyIndex (shown d.length).toNat i with
      | some p => (.ok none, d.set p e)
      | none => (.throw msgIndex, d)
  | .extendBack m => (.ok none, d ++ m)
  | .extendFront m => (.ok none, m ++ d)
  | .rotL n => (.ok none, if shown d.length ≤ 1 then d else d.rotate (n % shown d.length).toNat)
  | .rotR n =>
    if shown d.length ≤ 1 then (.ok none, d)
    else if n = INT_MIN then (.ub .overflow, d)
    else (.ok none, d.rotate (-n % shown d.length).toNat)
  | .reverse => (.ok none, d.reverse)
  | .clear => (.ok none, [])

/-- A history of such operations; it ends with the first that is undefined. -/
def DOp.codeRun : List (DOp α) → List α → List (Res (Option α)) × List α
  | [], d => ([], d)
  | op :: ops, d =>
    match op.code d with
    | (.ub u, d') => ([.ub u], d')
    | (r, d') => (r :: (DOp.codeRun ops d').1, (DOp.codeRun ops d').2)

/-- The arguments are `int`s. -/
def DOp.Typed : DOp α → Prop
  | .get i | .assign i _ | .rotL i | .rotR i => IsInt i
  | _ => True

theorem Dq.size_shown (d : List α) : Dq.size d = shown d.length := (shown_eq_wrap _).symm

theorem shown_le (n : ℕ) : shown n ≤ n := by rw [shown_eq_wrap]; unfold wrap32; omega

theorem shown_isInt (n : ℕ) : IsInt (shown n) := by rw [shown_eq_wrap]; exact wrap32_isInt _

theorem Dq.checkEmpty_any (d : List α) :
    checkEmpty (Dq.size d) = if 4294967296 ∣ d.length then .throw msgEmpty else .ok () := PSet.checkEmpty_any d

theorem Dq.checkFull_any (d : List α) :
    checkFull (Dq.size d) INT_MAX = if d.length % 4294967296 = maxLen then .throw msgFull else .ok () := PSet.checkFull_any d

theorem Dq.refAt_min {d : List α} (h : shown d.length = INT_MIN) (i : Int) : Dq.refAt d i = .ub .overflow := by
  unfold Dq.refAt
  rw [Dq.size_shown, h]
  rfl

theorem Dq.refAt_any {d : List α} (h : shown d.length ≠ INT_MIN) (i : Int) :
    Dq.refAt d i = match pyIndex (shown d.length).toNat i with
      | some p => .ok (p : Int)
      | none => .throw msgIndex := by
  have hi := shown_isInt d.length
  rw [isInt_iff] at hi
  unfold INT_MIN at h
  unfold Dq.refAt
  rw [Dq.size_shown, ineg_ok (by rw [isInt_iff]; omega), Res.ok_bind]
  generalize shown d.length = s at *
  by_cases h1 : 0 ≤ i ∧ i < s
  · have e1 : checkBounds i (-s) s = .ok () := if_neg (by omega)
    have e2 : pyIndex s.toNat i = some i.toNat := if_pos (by omega)
    rw [e1, e2, Res.ok_bind, if_pos h1.1]
    simp only [Res.pure_eq]
    rw [Int.toNat_of_nonneg h1.1]
  · by_cases h2 : -s ≤ i ∧ i < 0
    · have e1 : checkBounds i (-s) s = .ok () := if_neg (by omega)
      have e2 : pyIndex s.toNat i = some (s.toNat - i.natAbs) := by
        unfold pyIndex; rw [if_neg (by omega), if_pos (by omega)]
      rw [e1, e2, Res.ok_bind, if_neg (by omega), iadd_ok (by rw [isInt_iff]; omega)]
      simp only
      congr 1
      omega
    · have e1 : checkBounds i (-s) s = .throw msgIndex := if_pos (by omega)
      have e2 : pyIndex s.toNat i = none := by
        unfold pyIndex; rw [if_neg (by omega), if_neg (by omega)]
      rw [e1, e2]
      rfl

theorem pyIndex_lt {n : ℕ} {i : Int} {p : ℕ} (h : pyIndex n i = some p) : p < n := by
  unfold pyIndex at h
  split at h
  · injection h; omega
  · split at h
    · injection h; omega
    · cases h

theorem Dq.rotL_any (d : List α) (n : Int) (hn : IsInt n) :
    Dq.rotL n d = (.ok (), if shown d.length ≤ 1 then d else d.rotate (n % shown d.length).toNat) := by
  have hi := shown_isInt d.length
  have hle := shown_le d.length
  rw [isInt_iff] at hi
  unfold Dq.rotL
  rw [Meth.get_bind, Dq.size_shown]
  generalize shown d.length = s at *
  by_cases h0 : s ≤ 1 ∨ n = 0
  · rw [if_pos h0, Meth.pure_run]
    by_cases h1 : s ≤ 1
    · rw [if_pos h1]
    · rw [if_neg h1]
      rcases h0 with h0 | h0
      · exact absurd h0 h1
      · subst h0; simp
  · rw [if_neg h0, if_neg (by omega)]
    have h2 : 2 ≤ s := by omega
    have hm1 := Int.emod_nonneg n (by omega : s ≠ 0)
    have hm2 := Int.emod_lt_of_pos n (by omega : 0 < s)
    have hfix := tmod_fix (n := n) (by omega : 0 < s)
    have e2 : (if n.tmod s < 0 then iadd (n.tmod s) s else (.ok (n.tmod s) : Res Int)) = .ok (n % s) := by
      split
      · rename_i hlt
        rw [if_pos hlt] at hfix
        rw [iadd_ok (by rw [isInt_iff]; omega), hfix]
      · rename_i hlt
        rw [if_neg hlt] at hfix
        rw [hfix]
    rw [imod_ok hn h2, Meth.lift_ok_bind, e2, Meth.lift_ok_bind, iter_ok (by omega) (by omega), Meth.lift_ok_bind, Meth.set_run]
    rw [stdRotate, List.rotate_eq_drop_append_take (by omega)]

theorem Dq.rotR_any (d : List α) (n : Int) (hn : IsInt n) :
    Dq.rotR n d = if shown d.length ≤ 1 then (.ok (), d) else if n = INT_MIN then (.ub .overflow, d)
      else (.ok (), d.rotate (-n % shown d.length).toNat) := by
  have hi := shown_isInt d.length
  have hn' := hn
  rw [isInt_iff] at hi hn'
  unfold Dq.rotR
  rw [Meth.get_bind, Dq.size_shown]
  by_cases h1 : shown d.length ≤ 1
  · rw [if_pos (Or.inl h1), if_pos h1, Meth.pure_run]
  · rw [if_neg h1]
    by_cases hz : n = 0
    · subst hz
      rw [if_pos (Or.inr rfl), Meth.pure_run, if_neg (by unfold INT_MIN; omega)]
      simp
    · rw [if_neg (by omega)]
      by_cases hm : n = INT_MIN
      · rw [if_pos hm, if_pos (by unfold INT_MIN at hm; omega)]
        have : ineg n = .ub .overflow := ck_ub (by rw [isInt_iff]; unfold INT_MIN at hm; omega)
        rw [this, Meth.lift_ub_bind]
      · rw [if_neg hm]
        unfold INT_MIN at hm
        by_cases hneg : n < 0
        · have hi' : IsInt (-n) := by rw [isInt_iff]; omega
          rw [if_pos hneg, ineg_ok hi', Meth.lift_ok_bind, Dq.rotL_any d _ hi', if_neg h1]
        · have hi' : IsInt (shown d.length - n) := by rw [isInt_iff]; omega
          rw [if_neg hneg, isub_ok hi', Meth.lift_ok_bind, Dq.rotL_any d _ hi', if_neg h1]
          rw [show shown d.length - n = -n + shown d.length * 1 by ring, Int.add_mul_emod_self_left]

/-- One operation on a deque of any size. -/
theorem deque_step_code (op : DOp α) (d : List α) (hf : op.Typed) : op.step d = op.code d := by
  have hz := Dq.checkEmpty_any d
  have hx := Dq.checkFull_any d
  have cons : ¬ 4294967296 ∣ d.length → ∃ x xs, d = x :: xs := by
    intro h
    cases d with
    | nil => exact absurd (by simp) h
    | cons x xs => exact ⟨x, xs, rfl⟩
  cases op with
  | pushBack e =>
    simp only [DOp.code, DOp.step]
    by_cases h : d.length % 4294967296 = maxLen
    · rw [if_pos h] at hx ⊢
      exact Meth.run_throw (by simp only [Dq.pushBack, Meth.get_bind, hx, Meth.lift_throw_bind])
    · rw [if_neg h] at hx ⊢
      exact Meth.run_ok (a := ()) (by simp only [Dq.pushBack, Meth.get_bind, hx, Meth.lift_ok_bind, Meth.set_run])
  | pushFront e =>
    simp only [DOp.code, DOp.step]
    by_cases h : d.length % 4294967296 = maxLen
    · rw [if_pos h] at hx ⊢
      exact Meth.run_throw (by simp only [Dq.pushFront, Meth.get_bind, hx, Meth.lift_throw_bind])
    · rw [if_neg h] at hx ⊢
      exact Meth.run_ok (a := ()) (by simp only [Dq.pushFront, Meth.get_bind, hx, Meth.lift_ok_bind, Meth.set_run])
  | popBack =>
    simp only [DOp.code, DOp.step]
    by_cases h : 4294967296 ∣ d.length
    · rw [if_pos h] at hz ⊢
      exact Meth.run_throw (by simp only [Dq.popBack, Meth.get_bind, hz, Meth.lift_throw_bind])
    · rw [if_neg h] at hz ⊢
      obtain ⟨x, xs, rfl⟩ := cons h
      rw [List.getLast?_eq_some_getLast (by simp)]
      exact Meth.run_ok (by simp only [Dq.popBack, Meth.get_bind, hz, Meth.lift_ok_bind, Dq.stdBack_some, Meth.set_bind, Meth.pure_run])
  | popFront =>
    simp only [DOp.code, DOp.step]
    by_cases h : 4294967296 ∣ d.length
    · rw [if_pos h] at hz ⊢
      exact Meth.run_throw (by simp only [Dq.popFront, Meth.get_bind, hz, Meth.lift_throw_bind])
    · rw [if_neg h] at hz ⊢
      obtain ⟨x, xs, rfl⟩ := cons h
      have : Dq.stdFront (x :: xs) = .ok x := by simp [Dq.stdFront, vget]
      exact Meth.run_ok (by simp only [Dq.popFront, Meth.get_bind, hz, Meth.lift_ok_bind, this, Meth.set_bind, Meth.pure_run])
  | back =>
    simp only [DOp.code, DOp.step]
    by_cases h : 4294967296 ∣ d.length
    · rw [if_pos h] at hz ⊢
      exact Meth.run_throw (by simp only [Meth.ask, Meth.get_bind, Dq.back, hz, Res.throw_bind, Meth.lift_run])
    · rw [if_neg h] at hz ⊢
      obtain ⟨x, xs, rfl⟩ := cons h
      rw [List.getLast?_eq_some_getLast (by simp)]
      exact Meth.run_ok (by simp only [Meth.ask, Meth.get_bind, Dq.back, hz, Res.ok_bind, Dq.stdBack_some, Meth.lift_run])
  | front =>
    simp only [DOp.code, DOp.step]
    by_cases h : 4294967296 ∣ d.length
    · rw [if_pos h] at hz ⊢
      exact Meth.run_throw (by simp only [Meth.ask, Meth.get_bind, Dq.front, hz, Res.throw_bind, Meth.lift_run])
    · rw [if_neg h] at hz ⊢
      obtain ⟨x, xs, rfl⟩ := cons h
      have : Dq.stdFront (x :: xs) = .ok x := by simp [Dq.stdFront, vget]
      exact Meth.run_ok (by simp only [Meth.ask, Meth.get_bind, Dq.front, hz, Res.ok_bind, this, Meth.lift_run])
  | get i =>
    simp only [DOp.code, DOp.step]
    by_cases h : shown d.length = INT_MIN
    · rw [if_pos h]
      exact Meth.run_ub (by simp only [Meth.ask, Meth.get_bind, Dq.get, Dq.refAt_min h, Res.ub_bind, Meth.lift_run])
    · rw [if_neg h]
      have hr := Dq.refAt_any h i
      cases hp : pyIndex (shown d.length).toNat i with
      | none =>
        rw [hp] at hr
        exact Meth.run_throw (by simp only [Meth.ask, Meth.get_bind, Dq.get, hr, Res.throw_bind, Meth.lift_run])
      | some p =>
        rw [hp] at hr
        have hlt : p < d.length := by have := pyIndex_lt hp; have := shown_le d.length; omega
        have hv : vat d (p : Int) = .ok d[p] := by
          have := vat_ok (l := d) (i := (p : Int)) (by omega) (by simpa using hlt)
          simpa using this
        simp only [List.getElem?_eq_getElem hlt]
        exact Meth.run_ok (by simp only [Meth.ask, Meth.get_bind, Dq.get, hr, Res.ok_bind, hv, Meth.lift_run])
  | assign i e =>
    simp only [DOp.code, DOp.step]
    by_cases h : shown d.length = INT_MIN
    · rw [if_pos h]
      exact Meth.run_ub (by simp only [Dq.assign, Meth.get_bind, Dq.refAt_min h, Meth.lift_ub_bind])
    · rw [if_neg h]
      have hr := Dq.refAt_any h i
      cases hp : pyIndex (shown d.length).toNat i with
      | none =>
        rw [hp] at hr
        exact Meth.run_throw (by simp only [Dq.assign, Meth.get_bind, hr, Meth.lift_throw_bind])
      | some p =>
        rw [hp] at hr
        have hlt : p < d.length := by have := pyIndex_lt hp; have := shown_le d.length; omega
        have hv : vat d (p : Int) = .ok d[p] := by
          have := vat_ok (l := d) (i := (p : Int)) (by omega) (by simpa using hlt)
          simpa using this
        exact Meth.run_ok (a := ()) (by simp only [Dq.assign, Meth.get_bind, hr, Meth.lift_ok_bind, hv, Meth.set_run, Int.toNat_natCast])
  | extendBack m =>
    exact Meth.run_ok (x := Dq.extendBack m) (s' := d ++ m) (a := ()) (by simp [Dq.extendBack])
  | extendFront m =>
    exact Meth.run_ok (x := Dq.extendFront m) (s' := m ++ d) (a := ()) (by simp [Dq.extendFront])
  | rotL n =>
    simp only [DOp.code, DOp.step]
    exact Meth.run_ok (Dq.rotL_any d n hf)
  | rotR n =>
    simp only [DOp.code, DOp.step]
    have := Dq.rotR_any d n hf
    split at this
    · next h => rw [if_pos h]; exact Meth.run_ok this
    · next h =>
      rw [if_neg h]
      split at this
      · next h' => rw [if_pos h']; exact Meth.run_ub this
      · next h' => rw [if_neg h']; exact Meth.run_ok this
  | reverse =>
    exact Meth.run_ok (x := Dq.reverse) (s' := d.reverse) (a := ()) (by simp [Dq.reverse])
  | clear =>
    exact Meth.run_ok (x := Dq.clear) (s := d) (s' := []) (a := ()) (by simp [Dq.clear])

theorem DOp.code_nofuel (op : DOp α) (d : List α) : (op.code d).1 ≠ .fuel := by
  cases op <;> simp only [DOp.code] <;> (repeat' split) <;> simp

/-- C42, every history of every deque, of whatever size: all returned elements, all exceptions, the first undefined behaviour and the contents. -/
theorem C42_deque_history_exact (ops : List (DOp α)) (d : List α) (hf : ∀ op ∈ ops, op.Typed) : DOp.run ops d = DOp.codeRun ops d := by
  induction ops generalizing d with
  | nil => rfl
  | cons op ops ih =>
    obtain ⟨h1, h2⟩ := List.forall_mem_cons.1 hf
    have h := DOp.code_nofuel op d
    rw [DOp.run, DOp.codeRun, deque_step_code op d h1]
    rcases hc : op.code d with ⟨r, d'⟩
    rw [hc] at h
    cases r with
    | ok a => simp only [ih d' h2]
    | throw m => simp only [ih d' h2]
    | ub u => rfl
    | fuel => exact absurd rfl h

example : (∀ op ∈ ([.pushFront 0, .rotR 1, .get (-1), .assign 5 7, .popBack, .rotR INT_MIN, .clear] : List (DOp Nat)), op.Typed) ∧
    DOp.codeRun [.pushFront 0, .rotR 1, .get (-1), .assign 5 7, .popBack, .rotR INT_MIN, .clear] [1, 2] =
      ([.ok none, .ok none, .ok (some 1), .throw msgIndex, .ok (some 1), .ub .overflow], [2, 0]) := by
  constructor
  · simp [DOp.Typed, IsInt, INT_MIN, INT_MAX]
  · decide +kernel

theorem DOp.codeRun_ok {op : DOp α} {ops : List (DOp α)} {d d' : List α} {a : Option α} (h : op.code d = (.ok a, d')) :
    DOp.codeRun (op :: ops) d = (.ok a :: (DOp.codeRun ops d').1, (DOp.codeRun ops d').2) := by
  rw [DOp.codeRun, h]

theorem DOp.codeRun_throw {op : DOp α} {ops : List (DOp α)} {d d' : List α} {m : String} (h : op.code d = (.throw m, d')) :
    DOp.codeRun (op :: ops) d = (.throw m :: (DOp.codeRun ops d').1, (DOp.codeRun ops d').2) := by
  rw [DOp.codeRun, h]

theorem shown_three {n : ℕ} (h : n = 4294967299) : shown n = 3 := by rw [shown_eq_wrap]; unfold wrap32; omega

theorem shown_min {n : ℕ} (h : n = 2147483648) : shown n = INT_MIN := by rw [shown_eq_wrap]; unfold wrap32 INT_MIN; omega

theorem not_dvd_three {n : ℕ} (h : n = 4294967299) : ¬ 4294967296 ∣ n := by omega

/-- A deque of `2^32 + 3` elements: its last element is not `d[-1]`, its third one is; and rotating by one place to the right brings the third element to the front. -/
theorem C42_deque_huge_not (d : List α) (hd : d.length = 4294967299) :
    (DOp.run [.get (-1), .get 3, .back] d).1 = [.ok d[2]?, .throw msgIndex, .ok d.getLast?] ∧ (DOp.run [.rotR 1] d).2 = d.rotate 2 := by
  have h3 : shown d.length = 3 := shown_three hd
  have h4 : ¬ 4294967296 ∣ d.length := not_dvd_three hd
  clear hd
  rw [C42_deque_history_exact _ d (by simp [DOp.Typed, IsInt, INT_MIN, INT_MAX]), C42_deque_history_exact _ d (by simp [DOp.Typed, IsInt, INT_MIN, INT_MAX])]
  have e1 : pyIndex 3 (-1) = some 2 := by decide
  have e2 : pyIndex 3 3 = none := by decide
  have hm : (3 : Int) ≠ INT_MIN := by decide
  have c1 : (DOp.get (-1)).code d = (.ok d[2]?, d) := by simp only [DOp.code]; rw [h3, if_neg hm, show (3 : Int).toNat = 3 from rfl, e1]
  have c2 : (DOp.get 3).code d = (.throw msgIndex, d) := by simp only [DOp.code]; rw [h3, if_neg hm, show (3 : Int).toNat = 3 from rfl, e2]
  have c3 : DOp.back.code d = (.ok d.getLast?, d) := by simp only [DOp.code]; rw [if_neg h4]
  have c4 : (DOp.rotR 1).code d = (.ok none, d.rotate 2) := by
    simp only [DOp.code]; rw [h3, if_neg (by decide), if_neg (by decide), show ((-1 : Int) % 3).toNat = 2 from rfl]
  exact ⟨by rw [DOp.codeRun_ok c1, DOp.codeRun_throw c2, DOp.codeRun_ok c3, DOp.codeRun], by rw [DOp.codeRun_ok c4, DOp.codeRun]⟩

/-- A deque of `2^31` elements: every index is undefined behaviour, since `-size()` overflows. -/
theorem C33_deque_huge_not (d : List α) (hd : d.length = 2147483648) (i : Int) (hi : IsInt i) :
    (DOp.run [.get i] d).1 = [.ub .overflow] := by
  have h3 : shown d.length = INT_MIN := shown_min hd
  clear hd
  rw [C42_deque_history_exact _ d (by simpa [DOp.Typed] using hi)]
  have e : (DOp.get i).code d = (.ub .overflow, d) := by simp only [DOp.code]; rw [if_pos h3]
  rw [DOp.codeRun, e]

example : (List.replicate 2147483648 'x').length = 2147483648 ∧ IsInt 0 := ⟨List.length_replicate, by decide⟩

end Pyincpp
