import Verif.Props.ListExact
import Verif.Props.DequeAny

/-! # Lists of any size (C28, C33, C34, C36, C40)

`extend`, the constructors and `+=` (which adds up halves cut to 32 bits) do not keep a list from having more than `INT_MAX` elements. The theorems here have no
bound on the number of elements. -/

namespace Pyincpp

open Lst

variable {α : Type}

/-- What an operation does to a list of any size. Indices count as if there were `size()` elements and rotation is modulo `size()`; where the size is reported as
negative no index is in range, and as `INT_MIN` the check of the index is undefined. -/
def LOp.anyCode [DecidableEq α] (mem : Mem) (l : List α) : LOp α → Res (Option α) × List α
  | .insert i e =>
    if shown l.length = INT_MAX then (.throw msgFull, l)
    else if shown l.length = INT_MIN then (.ub .overflow, l)
    else if shown l.length < 0 then (.throw msgIndex, l)
    else match pyInsertPoint (shown l.length).toNat i with
      | some p => (.ok none, l.insertIdx p e)
      | none => (.throw msgIndex, l)
  | .remove i =>
    if 4294967296 ∣ l.length then (.throw msgEmpty, l)
    else if shown l.length = INT_MIN then (.ub .overflow, l)
    else match pyIndex (shown l.length).toNat i with
      | some p => (.ok l[p]?, l.eraseIdx p)
      | none => (.throw msgIndex, l)
  | .append e => if shown l.length = INT_MAX then (.throw msgFull, l) else (.ok none, l ++ [e])
  | .extendList m =>
    if (shown l.length).tdiv 2 + (shown m.length).tdiv 2 < 1073741823 then (.ok none, l ++ m) else (.throw msgFull, l)
  | .addSelf =>
    if (shown l.length).tdiv 2 + (shown l.length).tdiv 2 < 1073741823 then
      (if mem = .strict then (.ub .badRange, l) else (.ok none, l ++ l))
    else (.throw msgFull, l)
  | .extend m => (.ok none, l ++ m)
  | .removeFirst e => (.ok none, l.erase e)
  | .removeAll (.val e) => (.ok none, l.filter (fun x => decide (x ≠ e)))
  | .removeAll (.ref p) => match l[p]? with
    | some e => (.ok none, dropAliased e p l)
    | none => (.ok none, l)
  | .rotL n => (.ok none, if shown l.length ≤ 1 then l else l.rotate (n % shown l.length).toNat)
  | .rotR n =>
    if shown l.length ≤ 1 then (.ok none, l)
    else if n = INT_MIN then (.ub .overflow, l)
    else (.ok none, l.rotate (-n % shown l.length).toNat)
  | .reverse => (.ok none, l.reverse)
  | .erase a b =>
    if shown l.length = INT_MAX then (.ub .overflow, l)
    else if ¬ (0 ≤ a ∧ a ≤ shown l.length ∧ 0 ≤ b ∧ b ≤ shown l.length) then (.throw msgIndex, l)
    else if b < a then (.ub .badRange, l)
    else (.ok none, l.take a.toNat ++ l.drop b.toNat)
  | .assign i e =>
    if shown l.length = INT_MIN then (.ub .overflow, l)
    else match pyIndex (shown l.length).toNat i with
      | some p => (.ok none, l.set p e)
      | none => (.throw msgIndex, l)
  | .clear => (.ok none, [])

/-- A history of such operations; it ends with the first that is undefined. -/
def LOp.anyRun [DecidableEq α] (mem : Mem) : List (LOp α) → List α → List (Res (Option α)) × List α
  | [], l => ([], l)
  | op :: ops, l =>
    match op.anyCode mem l with
    | (.ub u, l') => ([.ub u], l')
    | (r, l') => (r :: (LOp.anyRun mem ops l').1, (LOp.anyRun mem ops l').2)

/-- The arguments are `int`s, and references are to elements of the list. -/
def LOp.Sound (l : List α) : LOp α → Prop
  | .removeAll (.ref p) => p < l.length
  | .insert i _ | .remove i | .assign i _ | .rotL i | .rotR i => IsInt i
  | .erase a b => IsInt a ∧ IsInt b
  | _ => True

def LOp.SoundRun [DecidableEq α] (mem : Mem) : List (LOp α) → List α → Prop
  | [], _ => True
  | op :: ops, l => op.Sound l ∧ LOp.SoundRun mem ops (op.anyCode mem l).2

theorem Lst.size_shown (l : List α) : Lst.size l = shown l.length := (shown_eq_wrap _).symm

theorem Lst.checkEmpty_any (l : List α) :
    checkEmpty (Lst.size l) = if 4294967296 ∣ l.length then .throw msgEmpty else .ok () := PSet.checkEmpty_any l

theorem Lst.checkFull_any (l : List α) :
    checkFull (Lst.size l) INT_MAX = if shown l.length = INT_MAX then .throw msgFull else .ok () := by
  have hi := shown_isInt l.length
  rw [isInt_iff] at hi
  rw [Lst.size_shown]
  unfold checkFull INT_MAX
  split <;> split <;> first | rfl | omega

theorem Lst.refAt_any (l : List α) (i : Int) :
    Lst.refAt l i = if shown l.length = INT_MIN then .ub .overflow else
      match pyIndex (shown l.length).toNat i with
      | some p => .ok (p : Int)
      | none => .throw msgIndex := by
  have e : Lst.refAt l i = Dq.refAt l i := rfl
  rw [e]
  split
  · next h => exact Dq.refAt_min h i
  · next h => exact Dq.refAt_any h i

/-- C33, lists of any size: an index counts as if there were `size()` elements; it is undefined if `size()` is `INT_MIN`. -/
theorem C33_list_any_exact (l : List α) (i : Int) :
    (shown l.length = INT_MIN → Lst.get l i = .ub .overflow) ∧
    (shown l.length ≠ INT_MIN → ∀ p, pyIndex (shown l.length).toNat i = some p → ∃ h : p < l.length, Lst.get l i = .ok l[p]) ∧
    (shown l.length ≠ INT_MIN → pyIndex (shown l.length).toNat i = none → Lst.get l i = .throw msgIndex) := by
  unfold Lst.get
  rw [Lst.refAt_any]
  refine ⟨fun h => by rw [if_pos h]; rfl, fun h p hp => ?_, fun h hp => by rw [if_neg h, hp]; rfl⟩
  have hlt : p < l.length := by have := pyIndex_lt hp; have := shown_le l.length; omega
  refine ⟨hlt, ?_⟩
  rw [if_neg h, hp, Res.ok_bind]
  have := vat_ok (l := l) (i := (p : Int)) (by omega) (by simpa using hlt)
  simpa using this

/-- One operation on a list of any size. -/
theorem list_step_any [DecidableEq α] (mem : Mem) (op : LOp α) (l : List α) (h : op.Sound l) : op.step mem l = op.anyCode mem l := by
  have hz := Lst.checkEmpty_any l
  have hx := Lst.checkFull_any l
  have hs := Lst.size_shown l
  have hi := shown_isInt l.length
  have hle := shown_le l.length
  rw [isInt_iff] at hi
  have at_some : ∀ (p : ℕ) (hp : p < l.length), vat l (p : Int) = .ok l[p] := by
    intro p hp
    have := vat_ok (l := l) (i := (p : Int)) (by omega) (by simpa using hp)
    simpa using this
  have hneg : shown l.length = INT_MIN → ineg (size l) = .ub .overflow := by
    intro hm; rw [hs, hm]; rfl
  have hneg' : shown l.length ≠ INT_MIN → ineg (size l) = .ok (-shown l.length) := by
    intro hm; rw [hs]; exact ineg_ok (by unfold INT_MIN at hm; rw [isInt_iff]; omega)
  have half : ∀ a : ℕ, -1073741824 ≤ (shown a).tdiv 2 ∧ (shown a).tdiv 2 ≤ 1073741823 := by
    intro a
    have := shown_isInt a
    rw [isInt_iff] at this
    generalize shown a = z at *
    rcases le_total 0 z with hz | hz
    · rw [Int.tdiv_eq_ediv_of_nonneg hz]; omega
    · have : (-z).tdiv 2 = -(z.tdiv 2) := Int.neg_tdiv z 2
      rw [Int.tdiv_eq_ediv_of_nonneg (by omega)] at this
      omega
  cases op with
  | insert i e =>
    simp only [LOp.anyCode, LOp.step]
    by_cases hf : shown l.length = INT_MAX
    · rw [if_pos hf] at hx ⊢
      exact Meth.run_throw (by simp only [Lst.insert, Meth.get_bind, hx, Meth.lift_throw_bind])
    · rw [if_neg hf] at hx ⊢
      by_cases hm : shown l.length = INT_MIN
      · rw [if_pos hm]
        exact Meth.run_ub (by simp only [Lst.insert, Meth.get_bind, hx, Meth.lift_ok_bind, hneg hm, Meth.lift_ub_bind])
      · rw [if_neg hm]
        have e1 := hneg' hm
        have e2 : iadd (size l) 1 = .ok (shown l.length + 1) := by
          rw [hs]; exact iadd_ok (by unfold INT_MAX at hf; rw [isInt_iff]; omega)
        by_cases hn : shown l.length < 0
        · rw [if_pos hn]
          have e3 : checkBounds i (-shown l.length) (shown l.length + 1) = .throw msgIndex := checkBounds_throw (by omega)
          exact Meth.run_throw (by simp only [Lst.insert, Meth.get_bind, hx, Meth.lift_ok_bind, e1, e2, e3, Meth.lift_throw_bind])
        · rw [if_neg hn]
          cases hp : pyInsertPoint (shown l.length).toNat i with
          | none =>
            have e3 : checkBounds i (-shown l.length) (shown l.length + 1) = .throw msgIndex := by
              refine checkBounds_throw fun hc => ?_
              unfold pyInsertPoint at hp
              split at hp
              · cases hp
              · have := pyIndex_eq_none hp; omega
            exact Meth.run_throw (by simp only [Lst.insert, Meth.get_bind, hx, Meth.lift_ok_bind, e1, e2, e3, Meth.lift_throw_bind])
          | some p =>
            have hp' : p ≤ (shown l.length).toNat ∧ -shown l.length ≤ i ∧ i < shown l.length + 1 ∧
                (p : Int) = if 0 ≤ i then i else i + shown l.length := by
              unfold pyInsertPoint at hp
              split at hp
              · have := Option.some.inj hp
                refine ⟨by omega, by omega, by omega, ?_⟩
                split <;> omega
              · obtain ⟨g1, g2, g3, g4⟩ := pyIndex_some hp
                refine ⟨by omega, by omega, by omega, ?_⟩
                rw [g4]; split <;> omega
            obtain ⟨h1, h2, h3, h4⟩ := hp'
            have e3 : checkBounds i (-shown l.length) (shown l.length + 1) = .ok () := checkBounds_ok (by omega)
            have e4 : (if i ≥ 0 then (.ok i : Res Int) else iadd i (size l)) = .ok (p : Int) := by
              split
              · rw [if_pos (by omega)] at h4; rw [h4]
              · rw [if_neg (by omega)] at h4; rw [hs, iadd_ok (by rw [isInt_iff]; omega), h4]
            have hpl : p ≤ l.length := by omega
            refine Meth.run_ok (a := ()) ?_
            simp only [Lst.insert, Meth.get_bind, hx, Meth.lift_ok_bind, e1, e2, e3, e4, iter_ok (l := l) (i := (p : Int)) (by omega) (by omega),
              Int.toNat_natCast, Meth.set_run]
            rw [insertIdx_eq l p e hpl]
  | remove i =>
    simp only [LOp.anyCode, LOp.step]
    by_cases hf : 4294967296 ∣ l.length
    · rw [if_pos hf] at hz ⊢
      exact Meth.run_throw (by simp only [Lst.remove, Meth.get_bind, hz, Meth.lift_throw_bind])
    · rw [if_neg hf] at hz ⊢
      by_cases hm : shown l.length = INT_MIN
      · rw [if_pos hm]
        exact Meth.run_ub (by simp only [Lst.remove, Meth.get_bind, hz, Meth.lift_ok_bind, hneg hm, Meth.lift_ub_bind])
      · rw [if_neg hm]
        have e1 := hneg' hm
        cases hp : pyIndex (shown l.length).toNat i with
        | none =>
          have e3 : checkBounds i (-shown l.length) (size l) = .throw msgIndex := by
            rw [hs]
            refine checkBounds_throw fun hc => ?_
            unfold pyIndex at hp
            split at hp
            · cases hp
            · split at hp
              · cases hp
              · omega
          exact Meth.run_throw (by simp only [Lst.remove, Meth.get_bind, hz, Meth.lift_ok_bind, e1, e3, Meth.lift_throw_bind])
        | some p =>
          obtain ⟨h1, h2, h3, h4⟩ := pyIndex_some hp
          have hlt : p < l.length := by omega
          have h5 : (p : Int) = if 0 ≤ i then i else i + shown l.length := by
            rw [h4]; split <;> omega
          have e3 : checkBounds i (-shown l.length) (size l) = .ok () := by rw [hs]; exact checkBounds_ok (by omega)
          have e4 : (if i ≥ 0 then (.ok i : Res Int) else iadd i (size l)) = .ok (p : Int) := by
            split
            · rw [if_pos (by omega)] at h5; rw [h5]
            · rw [if_neg (by omega)] at h5; rw [hs, iadd_ok (by rw [isInt_iff]; omega), h5]
          simp only [List.getElem?_eq_getElem hlt]
          exact Meth.run_ok (by simp only [Lst.remove, Meth.get_bind, hz, Meth.lift_ok_bind, e1, e3, e4, at_some p hlt, Int.toNat_natCast, Meth.set_bind,
            Meth.pure_run])
  | append e =>
    simp only [LOp.anyCode, LOp.step]
    by_cases hf : shown l.length = INT_MAX
    · rw [if_pos hf] at hx ⊢
      exact Meth.run_throw (by simp only [Lst.append, Meth.get_bind, hx, Meth.lift_throw_bind])
    · rw [if_neg hf] at hx ⊢
      exact Meth.run_ok (a := ()) (by simp only [Lst.append, Meth.get_bind, hx, Meth.lift_ok_bind, Meth.set_run])
  | extendList m =>
    simp only [LOp.anyCode, LOp.step]
    have h1 := half l.length
    have h2 := half m.length
    have e1 : iadd ((size l).tdiv 2) ((size m).tdiv 2) = .ok ((shown l.length).tdiv 2 + (shown m.length).tdiv 2) := by
      rw [hs, Lst.size_shown]; exact iadd_ok (by rw [isInt_iff]; omega)
    have e2 : INT_MAX.tdiv 2 = 1073741823 := rfl
    by_cases hf : (shown l.length).tdiv 2 + (shown m.length).tdiv 2 < 1073741823
    · rw [if_pos hf]
      exact Meth.run_ok (a := ()) (by
        simp only [extendList, Meth.get_bind, Option.getD_some, e1, e2, Meth.lift_ok_bind, checkFull_ok hf, stdInsertEnd,
          Option.isNone_some, Bool.false_eq_true, false_and, if_false, Meth.set_run])
    · rw [if_neg hf]
      exact Meth.run_throw (by
        simp only [extendList, Meth.get_bind, Option.getD_some, e1, e2, Meth.lift_ok_bind, checkFull_throw (not_lt.1 hf), Meth.lift_throw_bind])
  | addSelf =>
    simp only [LOp.anyCode, LOp.step]
    have h1 := half l.length
    have e1 : iadd ((size l).tdiv 2) ((size l).tdiv 2) = .ok ((shown l.length).tdiv 2 + (shown l.length).tdiv 2) := by
      rw [hs]; exact iadd_ok (by rw [isInt_iff]; omega)
    have e2 : INT_MAX.tdiv 2 = 1073741823 := rfl
    by_cases hf : (shown l.length).tdiv 2 + (shown l.length).tdiv 2 < 1073741823
    · rw [if_pos hf]
      cases mem with
      | strict =>
        rw [if_pos rfl]
        refine Meth.run_ub ?_
        simp only [extendList, Meth.get_bind, Option.getD_none, e1, e2, Meth.lift_ok_bind, checkFull_ok hf, stdInsertEnd]
        rfl
      | lenient =>
        rw [if_neg (by simp)]
        refine Meth.run_ok (a := ()) ?_
        simp only [extendList, Meth.get_bind, Option.getD_none, e1, e2, Meth.lift_ok_bind, checkFull_ok hf, stdInsertEnd]
        rfl
    · rw [if_neg hf]
      exact Meth.run_throw (by
        simp only [extendList, Meth.get_bind, Option.getD_none, e1, e2, Meth.lift_ok_bind, checkFull_throw (not_lt.1 hf), Meth.lift_throw_bind])
  | extend m => exact Meth.run_ok extend_some
  | removeFirst e => exact Meth.run_ok removeFirst_run
  | removeAll a =>
    cases a with
    | val e =>
      have := removeAll_val (l := l) (e := e)
      rw [show l.filter (fun x => !(x == e)) = l.filter (fun x => decide (x ≠ e)) from
        List.filter_congr fun x _ => by by_cases h : x = e <;> simp [h]] at this
      exact Meth.run_ok this
    | ref p =>
      have hp : l[p]? = some l[p] := List.getElem?_eq_getElem h
      simp only [LOp.anyCode, LOp.step, hp]
      have key := C39_list_remove_all_self l p l[p] hp
      by_cases hg : (l.filter (fun x => decide (x ≠ l[p]))).length ≤ p
      · rw [dropAliased_good _ _ _ hg]
        exact Meth.run_ok (key.1 hg)
      · obtain ⟨a, w, b, he, hw, hn⟩ := split_kept l[p] l p (by omega)
        have h1 := key.2 a w b he hw hn
        have h2 := dropAliased_bad l[p] w hw b a p hn
        rw [← he] at h2
        rw [h2]
        exact Meth.run_ok h1
  | rotL n =>
    simp only [LOp.anyCode, LOp.step]
    exact Meth.run_ok (Dq.rotL_any l n h)
  | rotR n =>
    simp only [LOp.anyCode, LOp.step]
    have : Lst.rotR n l = _ := Dq.rotR_any l n h
    split at this
    · next h => rw [if_pos h]; exact Meth.run_ok this
    · next h =>
      rw [if_neg h]
      split at this
      · next h' => rw [if_pos h']; exact Meth.run_ub this
      · next h' => rw [if_neg h']; exact Meth.run_ok this
  | reverse => exact Meth.run_ok (x := Lst.reverse) (s' := l.reverse) (a := ()) (by simp [Lst.reverse])
  | erase a b =>
    simp only [LOp.anyCode, LOp.step]
    by_cases hf : shown l.length = INT_MAX
    · rw [if_pos hf]
      have e : iadd (size l) 1 = .ub .overflow := by rw [hs, hf]; rfl
      exact Meth.run_ub (by simp only [Lst.erase, Meth.get_bind, e, Meth.lift_ub_bind])
    · rw [if_neg hf]
      have e2 : iadd (size l) 1 = .ok (shown l.length + 1) := by
        rw [hs]; exact iadd_ok (by unfold INT_MAX at hf; rw [isInt_iff]; omega)
      by_cases ha : 0 ≤ a ∧ a ≤ shown l.length
      · have c1 : checkBounds a 0 (shown l.length + 1) = .ok () := checkBounds_ok (by omega)
        by_cases hb : 0 ≤ b ∧ b ≤ shown l.length
        · have c2 : checkBounds b 0 (shown l.length + 1) = .ok () := checkBounds_ok (by omega)
          rw [if_neg (not_not.2 ⟨ha.1, ha.2, hb.1, hb.2⟩)]
          by_cases hab : b < a
          · rw [if_pos hab]
            refine Meth.run_ub ?_
            simp only [Lst.erase, Meth.get_bind, e2, Meth.lift_ok_bind, c1, c2, iter_ok (l := l) ha.1 (by omega), iter_ok (l := l) hb.1 (by omega),
              stdErase]
            rw [if_neg (by omega), Meth.lift_ub_bind]
          · rw [if_neg hab]
            refine Meth.run_ok (a := ()) ?_
            simp only [Lst.erase, Meth.get_bind, e2, Meth.lift_ok_bind, c1, c2, iter_ok (l := l) ha.1 (by omega), iter_ok (l := l) hb.1 (by omega),
              stdErase]
            rw [if_pos (by omega), Meth.lift_ok_bind, Meth.set_run]
        · have c2 : checkBounds b 0 (shown l.length + 1) = .throw msgIndex := checkBounds_throw (by omega)
          rw [if_pos (by omega)]
          exact Meth.run_throw (by simp only [Lst.erase, Meth.get_bind, e2, Meth.lift_ok_bind, c1, c2, Meth.lift_throw_bind])
      · have c1 : checkBounds a 0 (shown l.length + 1) = .throw msgIndex := checkBounds_throw (by omega)
        rw [if_pos (by omega)]
        exact Meth.run_throw (by simp only [Lst.erase, Meth.get_bind, e2, Meth.lift_ok_bind, c1, Meth.lift_throw_bind])
  | assign i e =>
    simp only [LOp.anyCode, LOp.step]
    have hr := Lst.refAt_any l i
    by_cases hm : shown l.length = INT_MIN
    · rw [if_pos hm] at hr ⊢
      exact Meth.run_ub (by simp only [Lst.assign, Meth.get_bind, hr, Meth.lift_ub_bind])
    · rw [if_neg hm] at hr ⊢
      cases hp : pyIndex (shown l.length).toNat i with
      | none =>
        rw [hp] at hr
        exact Meth.run_throw (by simp only [Lst.assign, Meth.get_bind, hr, Meth.lift_throw_bind])
      | some p =>
        rw [hp] at hr
        have hlt : p < l.length := by have := pyIndex_lt hp; omega
        exact Meth.run_ok (a := ()) (by
          simp only [Lst.assign, Meth.get_bind, hr, Meth.lift_ok_bind, at_some p hlt, Meth.set_run, Int.toNat_natCast])
  | clear => exact Meth.run_ok (x := Lst.clear) (s := l) (s' := []) (a := ()) (by simp [Lst.clear])

theorem LOp.anyCode_nofuel [DecidableEq α] (mem : Mem) (op : LOp α) (l : List α) : (op.anyCode mem l).1 ≠ .fuel := by
  cases op with
  | removeAll a => cases a <;> simp only [LOp.anyCode] <;> (repeat' split) <;> simp
  | _ => (simp only [LOp.anyCode]; repeat' split) <;> simp

/-- C36, every history of every list, of whatever size and in either memory mode: all returned elements, all exceptions, the first undefined behaviour and the
contents. -/
theorem C36_list_any_exact [DecidableEq α] (mem : Mem) (ops : List (LOp α)) (l : List α) (h : LOp.SoundRun mem ops l) :
    LOp.run mem ops l = LOp.anyRun mem ops l := by
  induction ops generalizing l with
  | nil => rfl
  | cons op ops ih =>
    have hn := LOp.anyCode_nofuel mem op l
    have := ih _ h.2
    rw [LOp.run, LOp.anyRun, list_step_any mem op l h.1]
    rcases hc : op.anyCode mem l with ⟨r, l'⟩
    rw [hc] at hn this
    cases r with
    | ok a => simp only [this]
    | throw m => simp only [this]
    | ub u => rfl
    | fuel => exact absurd rfl hn

theorem vat_take (l : List α) (n : ℕ) (i : Int) (h : i < n) : vat (l.take n) i = vat l i := by
  unfold vat
  split
  · unfold vget
    rw [List.getElem?_take_of_lt (by omega)]
  · rfl

theorem sliceLoop_take (l : List α) (n : ℕ) (stop step : Int) (hs : step ≠ 0) : ∀ (k : ℕ) (i : Int) (b : List α), (0 < step → stop ≤ n) → (step < 0 → i < n) →
    sliceLoop (l.take n) stop step k i b = sliceLoop l stop step k i b := by
  intro k
  induction k with
  | zero => intros; rfl
  | succ k ih =>
    intro i b h1 h2
    rw [sliceLoop, sliceLoop]
    by_cases hc : (if step > 0 then i < stop else i > stop)
    · rw [if_pos hc, if_pos hc]
      have hi : i < n := by
        split at hc
        · next h => have := h1 h; omega
        · next h => exact h2 (by omega)
      rw [vat_take l n i hi]
      congr 1
      funext x
      cases ha : iadd i step with
      | ok j =>
        have hj : j = i + step := by
          unfold iadd ck at ha
          split at ha
          · injection ha with ha; exact ha.symm
          · cases ha
        simp only [Res.ok_bind]
        exact ih j _ h1 (fun h => by have := h2 h; omega)
      | throw m => rfl
      | ub u => rfl
      | fuel => rfl
    · rw [if_neg hc, if_neg hc]

theorem slice_take (k : ℕ) (l : List α) (n : ℕ) (hs : Lst.size l = n) (hn : n ≤ l.length) (hm : n ≤ maxLen) (start stop step : Int) :
    Lst.slice k l start stop step = Lst.slice k (l.take n) start stop step := by
  have hs' : Lst.size (l.take n) = n := by
    rw [size_eq (by rw [List.length_take]; omega), List.length_take, Nat.min_eq_left hn]
  unfold maxLen at hm
  unfold Lst.slice
  by_cases hz : step = 0
  · rw [if_pos hz, if_pos hz]
  · rw [if_neg hz, if_neg hz]
    have hf : ∀ i, fromEnd (l.take n) i = fromEnd l i := by intro i; unfold fromEnd; rw [hs, hs']
    simp only [hs, hs', hf]
    have neg : ineg (n : Int) = .ok (-(n : Int)) := ineg_ok (by rw [isInt_iff]; omega)
    rw [neg]
    simp only [Res.ok_bind]
    by_cases hb : -(n : Int) ≤ start ∧ start < n
    · rw [checkBounds_ok hb]
      simp only [Res.ok_bind]
      have e1 : isub (-(n : Int)) 1 = .ok (-(n : Int) - 1) := isub_ok (by rw [isInt_iff]; omega)
      rw [e1]
      simp only [Res.ok_bind]
      by_cases hi : IsInt ((n : Int) + 1)
      · rw [iadd_ok hi]
        simp only [Res.ok_bind]
        by_cases hb' : -(n : Int) - 1 ≤ stop ∧ stop < n + 1
        · rw [checkBounds_ok hb']
          simp only [Res.ok_bind]
          have f1 : ∃ a, fromEnd l start = .ok a ∧ a < n := by
            unfold fromEnd
            rw [hs]
            split
            · exact ⟨_, iadd_ok (by rw [isInt_iff]; omega), by omega⟩
            · exact ⟨_, rfl, hb.2⟩
          have f2 : ∃ a, fromEnd l stop = .ok a ∧ a ≤ n := by
            unfold fromEnd
            rw [hs]
            split
            · exact ⟨_, iadd_ok (by rw [isInt_iff]; omega), by omega⟩
            · exact ⟨_, rfl, by omega⟩
          obtain ⟨a, fa, ha⟩ := f1
          obtain ⟨b, fb, hb2⟩ := f2
          rw [fa, fb]
          simp only [Res.ok_bind]
          exact (sliceLoop_take l n b step hz k a [] (fun _ => by omega) (fun _ => by omega)).symm
        · rw [checkBounds_throw hb']; rfl
      · have e2 : iadd (n : Int) 1 = .ub .overflow := ck_ub hi
        rw [e2]; rfl
    · rw [checkBounds_throw hb]; simp only [Res.throw_bind]

theorem slice_negative (k : ℕ) (l : List α) (z : Int) (hs : Lst.size l = z) (h0 : z < 0) (hm : INT_MIN < z) (start stop step : Int) (hz : step ≠ 0) :
    Lst.slice k l start stop step = .throw msgIndex := by
  unfold Lst.slice
  have neg : ineg z = .ok (-z) := ineg_ok (by unfold INT_MIN at hm; rw [isInt_iff]; omega)
  rw [if_neg hz, hs, neg]
  simp only [Res.ok_bind]
  rw [checkBounds_throw (by omega)]
  rfl

theorem slice_min (k : ℕ) (l : List α) (hs : Lst.size l = INT_MIN) (start stop step : Int) (hz : step ≠ 0) :
    Lst.slice k l start stop step = .ub .overflow := by
  unfold Lst.slice
  rw [if_neg hz, hs]
  rfl

theorem index_take [DecidableEq α] (l : List α) (n : ℕ) (hs : Lst.size l = n) (hn : n ≤ l.length) (hm : n ≤ maxLen) (e : α) (start stop : Int) :
    Lst.index l e start stop = Lst.index (l.take n) e start stop := by
  have hlen : (l.take n).length = n := by rw [List.length_take, Nat.min_eq_left hn]
  have hs' : Lst.size (l.take n) = n := by rw [size_eq (by omega), hlen]
  unfold Lst.index
  rw [hs, hs']
  have hst : (if stop > (n : Int) then (n : Int) else stop) ≤ n := by split <;> omega
  generalize (if stop > (n : Int) then (n : Int) else stop) = t at *
  simp only
  by_cases h1 : 0 ≤ start ∧ start ≤ l.length
  · by_cases h2 : 0 ≤ t
    · by_cases h3 : start ≤ n
      · rw [iter_ok h1.1 h1.2, iter_ok h2 (by omega), iter_ok h1.1 (by rw [hlen]; omega), iter_ok h2 (by rw [hlen]; omega)]
        simp only [Res.ok_bind]
        unfold stdFind
        by_cases h4 : start.toNat ≤ t.toNat
        · rw [if_pos (by omega), if_pos (by omega)]
          have : ((l.take n).drop start.toNat).take (t.toNat - start.toNat) = (l.drop start.toNat).take (t.toNat - start.toNat) := by
            rw [List.drop_take, List.take_take, Nat.min_eq_left (by omega)]
          rw [this]
        · rw [if_neg (by omega), if_neg (by omega)]
      · rw [iter_ok h1.1 h1.2, iter_ok h2 (by omega), iter_ub (l := l.take n) (by rw [hlen]; omega)]
        simp only [Res.ok_bind]
        unfold stdFind
        rw [if_neg (by omega)]
        rfl
    · rw [iter_ok h1.1 h1.2, iter_ub (l := l) (i := t) (by omega)]
      simp only [Res.ok_bind, Res.ub_bind]
      by_cases h3 : start ≤ n
      · rw [iter_ok h1.1 (by rw [hlen]; omega), iter_ub (l := l.take n) (i := t) (by omega)]
        rfl
      · rw [iter_ub (l := l.take n) (i := start) (by rw [hlen]; omega)]
        rfl
  · rw [iter_ub h1, iter_ub (l := l.take n) (i := start) (by rw [hlen]; omega)]
    rfl

theorem index_negative [DecidableEq α] (l : List α) (z : Int) (hs : Lst.size l = z) (h0 : z < 0) (e : α) (start stop : Int) :
    Lst.index l e start stop = .ub .badRange := by
  unfold Lst.index
  rw [hs]
  have hst : (if stop > z then z else stop) < 0 := by split <;> omega
  generalize (if stop > z then z else stop) = t at *
  simp only
  by_cases h1 : 0 ≤ start ∧ start ≤ l.length
  · rw [iter_ok h1.1 h1.2, iter_ub (l := l) (i := t) (by omega)]
    rfl
  · rw [iter_ub h1]
    rfl

theorem shown_toNat {n : ℕ} (h : 0 ≤ shown n) : ((shown n).toNat : Int) = shown n ∧ (shown n).toNat ≤ n ∧ (shown n).toNat ≤ maxLen := by
  have h1 := shown_le n
  have h2 := shown_isInt n
  rw [isInt_iff] at h2
  generalize shown n = z at *
  unfold maxLen
  omega

/-- C28, lists of any size: `slice` takes the list for the first `size()` of its elements. If `size()` is negative no index is in range, and it is undefined if
`size()` is `INT_MIN`. -/
theorem C28_list_any_exact (k : ℕ) (l : List α) (start stop step : Int) :
    (0 ≤ shown l.length → Lst.slice k l start stop step = Lst.slice k (l.take (shown l.length).toNat) start stop step) ∧
    (shown l.length < 0 → shown l.length ≠ INT_MIN → step ≠ 0 → Lst.slice k l start stop step = .throw msgIndex) ∧
    (shown l.length = INT_MIN → step ≠ 0 → Lst.slice k l start stop step = .ub .overflow) := by
  refine ⟨fun h => ?_, fun h hm hz => ?_, fun h hz => slice_min k l ((Lst.size_shown l).trans h) start stop step hz⟩
  · obtain ⟨h1, h2, h3⟩ := shown_toNat h
    exact slice_take k l _ ((Lst.size_shown l).trans h1.symm) h2 h3 start stop step
  · refine slice_negative k l _ (Lst.size_shown l) h ?_ start stop step hz
    have h2 := shown_isInt l.length
    rw [isInt_iff] at h2
    generalize shown l.length = z at *
    unfold INT_MIN at *
    omega

/-- C40, lists of any size: so does `index`; it is undefined if `size()` is negative. `count` is cut to 32 bits. -/
theorem C40_list_any_exact [DecidableEq α] (l : List α) (e : α) (start stop : Int) :
    (0 ≤ shown l.length → Lst.index l e start stop = Lst.index (l.take (shown l.length).toNat) e start stop) ∧
    (shown l.length < 0 → Lst.index l e start stop = .ub .badRange) ∧
    Lst.count l e = shown (l.count e) := by
  refine ⟨fun h => ?_, fun h => index_negative l _ (Lst.size_shown l) h e start stop, ?_⟩
  · obtain ⟨h1, h2, h3⟩ := shown_toNat h
    exact index_take l _ ((Lst.size_shown l).trans h1.symm) h2 h3 e start stop
  · rw [shown_eq_wrap]
    rfl

/-- C34, lists of any size: repetition is by `size()` elements. It is undefined if `size() * n` overflows, and if `size()` is not the number of elements, which are
then written beyond the buffer, unless `n` is zero or the length of the buffer is refused. -/
theorem C34_list_any_exact [Inhabited α] (l : List α) (n : Int) :
    Lst.mul l n =
      if n < 0 then .throw "Error: Times to repeat can not be less than zero."
      else if ¬ IsInt (shown l.length * n) then .ub .overflow
      else if shown l.length * n = INT_MAX then .throw msgFull
      else if shown l.length * n < 0 then .throw "cannot create std::vector larger than max_size()"
      else if n = 0 then .ok []
      else if l.length ≤ maxLen then .ok (List.replicate n.toNat l).flatten
      else .ub .outOfBounds := by
  by_cases h0 : n < 0
  · rw [if_pos h0, Lst.mul, if_pos h0]
  rw [if_neg h0]
  have hs := Lst.size_shown l
  have hle := shown_le l.length
  have hsm := @shown_small l.length
  have hbig : ¬ l.length ≤ maxLen → shown l.length * n < INT_MAX → shown l.length * n < l.length := by
    intro h1 h2
    unfold maxLen at h1
    unfold INT_MAX at h2
    omega
  generalize shown l.length = z at *
  by_cases h1 : IsInt (z * n)
  · rw [if_neg (not_not.2 h1)]
    by_cases h2 : z * n = INT_MAX
    · rw [if_pos h2, Lst.mul, if_neg h0, hs, imul_ok h1, Res.ok_bind, checkFull_throw (by omega), Res.throw_bind]
    · rw [if_neg h2]
      have hlt : z * n < INT_MAX := by rw [isInt_iff] at h1; unfold INT_MAX at *; omega
      by_cases h3 : z * n < 0
      · rw [if_pos h3, Lst.mul, if_neg h0, hs, imul_ok h1, Res.ok_bind, checkFull_ok hlt, Res.ok_bind, if_pos h3]
      · rw [if_neg h3]
        by_cases h4 : n = 0
        · subst h4
          rw [if_pos rfl, Lst.mul, if_neg h0, hs, imul_ok h1, Res.ok_bind, checkFull_ok hlt, Res.ok_bind, if_neg h3]
          rw [Int.mul_zero]
          rfl
        · rw [if_neg h4]
          by_cases h5 : l.length ≤ maxLen
          · rw [if_pos h5]
            have := hsm h5
            subst this
            exact mul_run h5 (by omega) hlt
          · rw [if_neg h5, Lst.mul, if_neg h0, hs, imul_ok h1, Res.ok_bind, checkFull_ok hlt, Res.ok_bind, if_neg h3]
            have hb := hbig h5 hlt
            obtain ⟨t, ht⟩ : ∃ t, n.toNat = t + 1 := ⟨n.toNat - 1, by omega⟩
            rw [forRange, ht, Nat.sub_zero, forUp]
            have e1 : imul z ((0 : ℕ) : Int) = .ok 0 := by
              have : z * ((0 : ℕ) : Int) = 0 := by simp
              rw [imul_ok (by rw [this]; decide), this]
            rw [e1]
            simp only [Res.ok_bind]
            rw [iter_ok (Int.le_refl 0) (by omega)]
            simp only [Res.ok_bind]
            unfold stdCopy
            rw [if_neg (by rw [List.length_replicate]; omega)]
            rfl
  · rw [if_pos h1, Lst.mul, if_neg h0, hs]
    have : imul z n = .ub .overflow := ck_ub h1
    rw [this]
    rfl

/-- A list of `2^32 + 2` elements: repeated twice, it is written beyond a buffer of four elements. -/
theorem C34_list_huge_not [Inhabited α] (l : List α) (hl : l.length = 4294967298) : Lst.mul l 2 = .ub .outOfBounds := by
  have h2 : shown l.length = 2 := by rw [shown_eq_wrap]; unfold wrap32; omega
  have h3 : ¬ l.length ≤ maxLen := by unfold maxLen; omega
  rw [C34_list_any_exact, h2, if_neg h3]
  rfl

theorem LOp.anyRun_ok [DecidableEq α] {mem : Mem} {op : LOp α} {ops : List (LOp α)} {l l' : List α} {a : Option α} (h : op.anyCode mem l = (.ok a, l')) :
    LOp.anyRun mem (op :: ops) l = (.ok a :: (LOp.anyRun mem ops l').1, (LOp.anyRun mem ops l').2) := by
  rw [LOp.anyRun, h]

/-- `+=` adds up halves of sizes that are cut to 32 bits: to a list of `2^31` elements any list is appended, and its size is then taken for negative. -/
theorem C41_list_huge_not [DecidableEq α] (l m : List α) (hl : l.length = 2147483648) (hm : m.length ≤ maxLen) :
    LOp.run .lenient [.extendList m] l = ([.ok none], l ++ m) := by
  have h2 : shown l.length = -2147483648 := by rw [shown_eq_wrap]; unfold wrap32; omega
  have h3 : shown m.length = m.length := shown_small hm
  rw [C36_list_any_exact .lenient [.extendList m] l (by simp only [LOp.SoundRun, LOp.Sound, and_self])]
  have e : (LOp.extendList m).anyCode .lenient l = (.ok none, l ++ m) := by
    simp only [LOp.anyCode]
    rw [h2, h3, if_pos]
    have : (-2147483648 : Int).tdiv 2 = -1073741824 := rfl
    rw [this, Int.tdiv_eq_ediv_of_nonneg (by omega)]
    unfold maxLen at hm
    omega
  rw [LOp.anyRun_ok e]
  rfl

example : (List.replicate 2147483648 'x').length = 2147483648 ∧ (List.replicate 4294967298 'x').length = 4294967298 ∧ ['a', 'b'].length ≤ maxLen :=
  ⟨List.length_replicate, List.length_replicate, by unfold maxLen; simp⟩

/-- A history with a removal by reference, an exception and an `erase` backwards. -/
example : LOp.SoundRun .lenient [.append 1, .removeAll (.ref 0), .remove 7, .insert (-1) 9, .erase 2 1, .clear] [1, 2, 3] ∧
    LOp.anyRun .lenient [.append 1, .removeAll (.ref 0), .remove 7, .insert (-1) 9, .erase 2 1, .clear] [1, 2, 3] =
      ([.ok none, .ok none, .throw msgIndex, .ok none, .ub .badRange], [2, 3, 9, 1]) := by
  constructor
  · have e1 : (LOp.append 1).anyCode .lenient [1, 2, 3] = (.ok none, [1, 2, 3, 1]) := by decide +kernel
    simp only [LOp.SoundRun, e1]
    simp [LOp.Sound, IsInt, INT_MIN, INT_MAX]
  · decide +kernel

end Pyincpp
