import Verif.Props.List

/-! # What every history of list operations does, defects included (C36) -/

namespace Pyincpp

open Lst

variable {α : Type}

/-- `l /= l[p]` with the value `e` at position `p`: the elements equal to `e` go, until the `p+1`-st element that stays is written over `l[p]`; from then on
the elements equal to that one go. -/
def dropAliased [DecidableEq α] (e : α) : ℕ → List α → List α
  | _, [] => []
  | n, x :: xs => if x = e then dropAliased e n xs else
    match n with
    | 0 => x :: xs.filter (fun y => decide (y ≠ x))
    | n + 1 => x :: dropAliased e n xs

/-- What an operation does to a list of at most `INT_MAX` elements. Where it is not as in `LOp.abs`: `+=` rejects by the sum of the halves; `l += l` is undefined by
the letter of the standard; `l /= l[p]` see above; `>>= INT_MIN` and `erase` backwards are undefined, and so is every `erase` on a list of `INT_MAX` elements. -/
def LOp.code [DecidableEq α] (mem : Mem) (l : List α) : LOp α → Res (Option α) × List α
  | .extendList m => if l.length / 2 + m.length / 2 < 1073741823 then (.ok none, l ++ m) else (.throw msgFull, l)
  | .addSelf => if l.length / 2 + l.length / 2 < 1073741823 then (if mem = .strict then (.ub .badRange, l) else (.ok none, l ++ l)) else (.throw msgFull, l)
  | .removeAll (.ref p) => match l[p]? with
    | some e => (.ok none, dropAliased e p l)
    | none => (.ok none, l)
  | .rotR n => if n = INT_MIN ∧ 2 ≤ l.length then (.ub .overflow, l) else (.ok none, rotated l (-n))
  | .erase a b =>
    if l.length = maxLen then (.ub .overflow, l)
    else if ¬ (0 ≤ a ∧ a ≤ l.length ∧ 0 ≤ b ∧ b ≤ l.length) then (.throw msgIndex, l)
    else if b < a then (.ub .badRange, l)
    else (.ok none, l.take a.toNat ++ l.drop b.toNat)
  | op => match op.abs l with
    | .ok (r, l') => (.ok r, l')
    | .error m => (.throw m, l)

/-- A history of such operations; it ends with the first that is undefined. -/
def LOp.codeRun [DecidableEq α] (mem : Mem) : List (LOp α) → List α → List (Res (Option α)) × List α
  | [], l => ([], l)
  | op :: ops, l =>
    match op.code mem l with
    | (.ub u, l') => ([.ub u], l')
    | (r, l') => (r :: (LOp.codeRun mem ops l').1, (LOp.codeRun mem ops l').2)

/-- The arguments are `int`s, references are to elements of the list, and the unchecked `extend` does not make the list longer than `INT_MAX`. -/
def LOp.Legal (l : List α) : LOp α → Prop
  | .removeAll (.ref p) => p < l.length
  | .extend m => l.length + m.length ≤ maxLen
  | op => op.Typed

def LOp.LegalRun [DecidableEq α] (mem : Mem) : List (LOp α) → List α → Prop
  | [], _ => True
  | op :: ops, l => op.Legal l ∧ LOp.LegalRun mem ops (op.code mem l).2

theorem dropAliased_good [DecidableEq α] (e : α) : ∀ (l : List α) (n : ℕ), (l.filter (fun x => decide (x ≠ e))).length ≤ n →
    dropAliased e n l = l.filter (fun x => decide (x ≠ e)) := by
  intro l
  induction l with
  | nil => intro n _; cases n <;> rfl
  | cons x xs ih =>
    intro n h
    by_cases hx : x = e
    · subst hx
      have hf : (x :: xs).filter (fun y => decide (y ≠ x)) = xs.filter (fun y => decide (y ≠ x)) := by simp
      rw [hf] at h ⊢
      rw [dropAliased.eq_def]
      simp only [if_true]
      exact ih n h
    · rw [List.filter_cons_of_pos (by simpa using hx)] at h ⊢
      obtain ⟨n, rfl⟩ : ∃ m, n = m + 1 := ⟨n - 1, by simp at h; omega⟩
      rw [dropAliased]
      simp only [if_neg hx]
      rw [ih n (by simpa using h)]

theorem dropAliased_bad [DecidableEq α] (e w : α) (hw : w ≠ e) (b : List α) : ∀ (a : List α) (n : ℕ), (a.filter (fun x => decide (x ≠ e))).length = n →
    dropAliased e n (a ++ w :: b) = a.filter (fun x => decide (x ≠ e)) ++ w :: b.filter (fun x => decide (x ≠ w)) := by
  intro a
  induction a with
  | nil =>
    rintro n rfl
    simp only [List.filter_nil, List.length_nil, List.nil_append]
    rw [dropAliased]
    simp only [if_neg hw]
  | cons x xs ih =>
    intro n h
    by_cases hx : x = e
    · subst hx
      have hf : (x :: xs).filter (fun y => decide (y ≠ x)) = xs.filter (fun y => decide (y ≠ x)) := by simp
      rw [hf] at h ⊢
      rw [List.cons_append, dropAliased.eq_def]
      simp only [if_true]
      exact ih n h
    · rw [List.filter_cons_of_pos (by simpa using hx)] at h ⊢
      obtain ⟨n, rfl⟩ : ∃ m, n = m + 1 := ⟨n - 1, by simp at h; omega⟩
      rw [List.cons_append, dropAliased]
      simp only [if_neg hx]
      rw [ih n (by simpa using h), List.cons_append]

/-- The `n+1`-st element that stays, if there are so many. -/
theorem split_kept [DecidableEq α] (e : α) : ∀ (l : List α) (n : ℕ), n < (l.filter (fun x => decide (x ≠ e))).length →
    ∃ a w b, l = a ++ w :: b ∧ w ≠ e ∧ (a.filter (fun x => decide (x ≠ e))).length = n := by
  intro l
  induction l with
  | nil => intro n h; simp at h
  | cons x xs ih =>
    intro n h
    by_cases hx : x = e
    · subst hx
      have hf : (x :: xs).filter (fun y => decide (y ≠ x)) = xs.filter (fun y => decide (y ≠ x)) := by simp
      rw [hf] at h
      obtain ⟨a, w, b, rfl, h1, h2⟩ := ih n h
      exact ⟨x :: a, w, b, rfl, h1, by simpa using h2⟩
    · rw [List.filter_cons_of_pos (by simpa using hx)] at h
      cases n with
      | zero => exact ⟨[], x, xs, rfl, hx, rfl⟩
      | succ n =>
        obtain ⟨a, w, b, rfl, h1, h2⟩ := ih n (by simpa using h)
        exact ⟨x :: a, w, b, rfl, h1, by rw [List.filter_cons_of_pos (by simpa using hx), List.length_cons, h2]⟩

theorem dropAliased_length [DecidableEq α] (e : α) : ∀ (l : List α) (n : ℕ), (dropAliased e n l).length ≤ l.length := by
  intro l
  induction l with
  | nil => intro n; cases n <;> simp [dropAliased]
  | cons x xs ih =>
    intro n
    rw [dropAliased.eq_def]
    by_cases hx : x = e
    · simp only [if_pos hx, List.length_cons]
      have := ih n
      omega
    · simp only [if_neg hx]
      cases n with
      | zero => simp [List.length_filter_le]
      | succ n => simpa using ih n

theorem list_step_code [DecidableEq α] (mem : Mem) (op : LOp α) (l : List α) (hl : l.length ≤ maxLen) (h : op.Legal l) :
    op.step mem l = op.code mem l ∧ (op.code mem l).2.length ≤ maxLen := by
  have plain : ∀ o : LOp α, o.Typed → o.Fair l → o.step mem = o.step .lenient →
      o.step mem l = (match o.abs l with | .ok (r, l') => (.ok r, l') | .error m => (.throw m, l)) ∧
      (match o.abs l with | .ok (r, l') => ((.ok r : Res (Option α)), l') | .error m => (.throw m, l)).2.length ≤ maxLen := by
    intro o ht hf hm
    have := list_step o l hl ht hf
    rw [hm]
    cases ha : o.abs l with
    | ok x => rw [ha] at this; exact this
    | error m => rw [ha] at this; exact ⟨this, hl⟩
  cases op with
  | extendList m =>
    simp only [LOp.code, LOp.step]
    by_cases hs : l.length / 2 + m.length / 2 < 1073741823
    · rw [if_pos hs]
      exact ⟨Meth.run_ok (extendList_ok hl h hs), by simp; unfold maxLen; omega⟩
    · rw [if_neg hs]
      exact ⟨Meth.run_throw (extendList_full hl h (by omega)), hl⟩
  | addSelf =>
    simp only [LOp.code, LOp.step]
    by_cases hs : l.length / 2 + l.length / 2 < 1073741823
    · rw [if_pos hs]
      cases mem with
      | strict =>
        rw [if_pos rfl]
        refine ⟨Meth.run_ub ?_, hl⟩
        obtain ⟨e1, e2⟩ := half_full hl hl
        simp only [extendList, Meth.get_bind, Option.getD_none, size_eq hl, e1, e2, Meth.lift_ok_bind,
          checkFull_ok (a := ((l.length / 2 + l.length / 2 : Nat) : Int)) (b := 1073741823) (by omega), stdInsertEnd]
        rfl
      | lenient =>
        rw [if_neg (by simp)]
        exact ⟨Meth.run_ok (addSelf_ok hl hs), by simp; unfold maxLen; omega⟩
    · rw [if_neg hs]
      exact ⟨Meth.run_throw (addSelf_full hl (by omega)), hl⟩
  | removeAll a =>
    cases a with
    | val e => exact plain (.removeAll (.val e)) trivial trivial rfl
    | ref p =>
      have hp : l[p]? = some l[p] := List.getElem?_eq_getElem h
      simp only [LOp.code, LOp.step, hp]
      refine ⟨?_, (dropAliased_length _ _ _).trans hl⟩
      have key := C39_list_remove_all_self l p l[p] hp
      by_cases hg : (l.filter (fun x => decide (x ≠ l[p]))).length ≤ p
      · rw [dropAliased_good _ _ _ hg]
        exact Meth.run_ok (key.1 hg)
      · obtain ⟨a, w, b, he, hw, hn⟩ := split_kept l[p] l p (by omega)
        have h1 := key.2 a w b he hw hn
        have h2 := dropAliased_bad l[p] w hw b a p hn
        rw [← he] at h2
        rw [h2]
        exact Meth.run_ok h1
  | rotR n =>
    simp only [LOp.code, LOp.step]
    by_cases hm : n = INT_MIN ∧ 2 ≤ l.length
    · rw [if_pos hm]
      obtain ⟨rfl, h2⟩ := hm
      exact ⟨Meth.run_ub (rotR_min hl h2), hl⟩
    · rw [if_neg hm]
      refine ⟨Meth.run_ok (rotR_run hl h ?_), by rw [rotated_length]; exact hl⟩
      by_cases hn : n = INT_MIN
      · right
        by_contra hc
        exact hm ⟨hn, by omega⟩
      · exact Or.inl hn
  | erase a b =>
    simp only [LOp.code, LOp.step]
    by_cases h1 : l.length = maxLen
    · rw [if_pos h1]
      exact ⟨Meth.run_ub (erase_max h1), hl⟩
    · have hlt : l.length < maxLen := by omega
      rw [if_neg h1]
      by_cases h2 : 0 ≤ a ∧ a ≤ l.length ∧ 0 ≤ b ∧ b ≤ l.length
      · rw [if_neg (not_not.2 h2)]
        by_cases h3 : b < a
        · rw [if_pos h3]
          exact ⟨Meth.run_ub (erase_backwards hlt h2.2.2.1 h3 h2.2.1), hl⟩
        · rw [if_neg h3]
          exact ⟨Meth.run_ok (erase_ok hlt h2.1 (by omega) h2.2.2.2), by simp; omega⟩
      · rw [if_pos h2]
        exact ⟨Meth.run_throw (erase_throw hlt h2), hl⟩
  | extend m =>
    have := plain (.extend m) trivial h
    simp only [LOp.code, LOp.step, LOp.abs]
    refine ⟨Meth.run_ok extend_some, ?_⟩
    simpa [LOp.Legal] using h
  | insert i e => exact plain (.insert i e) h trivial rfl
  | remove i => exact plain (.remove i) h trivial rfl
  | append e => exact plain (.append e) h trivial rfl
  | removeFirst e => exact plain (.removeFirst e) h trivial rfl
  | rotL n => exact plain (.rotL n) h trivial rfl
  | reverse => exact plain .reverse h trivial rfl
  | assign i e => exact plain (.assign i e) h trivial rfl
  | clear => exact plain .clear h trivial rfl

/-- C36, exact semantics: every history does what `LOp.codeRun` says, in either memory mode: all returned elements, all exceptions, the first undefined behaviour and
the contents. -/
theorem C36_list_history_exact [DecidableEq α] (mem : Mem) (ops : List (LOp α)) (l : List α) (hl : l.length ≤ maxLen) (h : LOp.LegalRun mem ops l) :
    LOp.run mem ops l = LOp.codeRun mem ops l := by
  induction ops generalizing l with
  | nil => rfl
  | cons op ops ih =>
    obtain ⟨h1, h2⟩ := list_step_code mem op l hl h.1
    rw [LOp.run, LOp.codeRun, h1]
    have := ih (op.code mem l).2 h2 h.2
    have nofuel : (op.code mem l).1 ≠ .fuel := by
      have ab : ∀ o : LOp α, (match o.abs l with | .ok (r, l') => ((.ok r : Res (Option α)), l') | .error m => (.throw m, l)).1 ≠ .fuel := by
        intro o
        cases o.abs l <;> simp
      cases op with
      | removeAll a => cases a <;> simp only [LOp.code] <;> first | exact ab _ | (split <;> simp)
      | extendList m => simp only [LOp.code]; split <;> simp
      | addSelf => simp only [LOp.code]; split <;> [split; skip] <;> simp
      | rotR n => simp only [LOp.code]; split <;> simp
      | erase a b => simp only [LOp.code]; repeat' split
                     all_goals simp
      | insert i e => exact ab (.insert i e)
      | remove i => exact ab (.remove i)
      | append e => exact ab (.append e)
      | extend m => exact ab (.extend m)
      | removeFirst e => exact ab (.removeFirst e)
      | rotL n => exact ab (.rotL n)
      | reverse => exact ab .reverse
      | assign i e => exact ab (.assign i e)
      | clear => exact ab .clear
    cases hc : op.code mem l with
    | mk r l' =>
      rw [hc] at this nofuel
      cases r with
      | fuel => exact absurd rfl nofuel
      | ub u => rfl
      | ok x => simp only [this]
      | throw m => simp only [this]

/-- A removal by reference in the middle of a history, and an `erase` backwards at its end. -/
example : LOp.LegalRun .lenient [.append 1, .removeAll (.ref 0), .erase 2 1, .clear] [1, 2, 3] ∧
    LOp.codeRun .lenient [.append 1, .removeAll (.ref 0), .erase 2 1, .clear] [1, 2, 3] = ([.ok none, .ok none, .ub .badRange], [2, 3, 1]) := by
  constructor
  · simp [LOp.LegalRun, LOp.Legal, LOp.Typed, LOp.code, LOp.abs, maxLen, IsInt, INT_MIN, INT_MAX]
  · simp [LOp.codeRun, LOp.code, LOp.abs, maxLen, dropAliased]

end Pyincpp
