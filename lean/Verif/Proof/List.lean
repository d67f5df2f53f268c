import Verif.Spec.Seq
import Verif.Proof.Meth

/-! # Lemmas about the model of `List` -/

namespace Pyincpp
namespace Lst

variable {α : Type}

theorem size_eq {l : List α} (h : l.length ≤ maxLen) : size l = l.length := by
  unfold size; apply wrap32_eq; unfold IsInt INT_MIN INT_MAX; unfold maxLen at h; omega

theorem isInt_size (l : List α) : IsInt (size l) := wrap32_isInt _

theorem isInt_iff {x : Int} : IsInt x ↔ -2147483648 ≤ x ∧ x ≤ 2147483647 := Iff.rfl

theorem iter_ok {l : List α} {i : Int} (h : 0 ≤ i) (h' : i ≤ l.length) : iter l i = .ok i.toNat := by
  simp [iter, h, h']

theorem iter_ub {l : List α} {i : Int} (h : ¬ (0 ≤ i ∧ i ≤ l.length)) : iter l i = .ub .badRange := by
  simp only [iter, if_neg h]

theorem vat_ok {l : List α} {i : Int} (h : 0 ≤ i) (h' : i.toNat < l.length) : vat l i = .ok l[i.toNat] := by
  simp [vat, h, vget_ok h']

theorem ineg_ok {a : Int} (h : IsInt (-a)) : ineg a = .ok (-a) := ck_ok h
theorem iadd_ok {a b : Int} (h : IsInt (a + b)) : iadd a b = .ok (a + b) := ck_ok h
theorem isub_ok {a b : Int} (h : IsInt (a - b)) : isub a b = .ok (a - b) := ck_ok h
theorem imul_ok {a b : Int} (h : IsInt (a * b)) : imul a b = .ok (a * b) := ck_ok h

theorem checkBounds_ok {i a b : Int} (h : a ≤ i ∧ i < b) : checkBounds i a b = .ok () := by
  unfold checkBounds; rw [if_neg]; omega

theorem checkBounds_throw {i a b : Int} (h : ¬ (a ≤ i ∧ i < b)) : checkBounds i a b = .throw msgIndex := by
  unfold checkBounds msgIndex; rw [if_pos]; omega

theorem checkFull_ok {a b : Int} (h : a < b) : checkFull a b = .ok () := by
  unfold checkFull; rw [if_neg]; omega

theorem checkFull_throw {a b : Int} (h : b ≤ a) : checkFull a b = .throw msgFull := by
  unfold checkFull msgFull; rw [if_pos]; omega

theorem checkEmpty_ok {a : Int} (h : a ≠ 0) : checkEmpty a = .ok () := by
  unfold checkEmpty; rw [if_neg h]

theorem pyIndex_nonneg {n : Nat} {i : Int} (h : 0 ≤ i) (h' : i < n) : pyIndex n i = some i.toNat := by
  simp [pyIndex, h, h']

theorem pyIndex_neg {n : Nat} {i : Int} (h : -(n : Int) ≤ i) (h' : i < 0) : pyIndex n i = some (i + n).toNat := by
  unfold pyIndex; rw [if_neg (by omega), if_pos ⟨h, h'⟩]; congr 1; omega

theorem pyIndex_none {n : Nat} {i : Int} (h : ¬ (-(n : Int) ≤ i ∧ i < n)) : pyIndex n i = none := by
  unfold pyIndex; rw [if_neg (by omega), if_neg (by omega)]

theorem pyIndex_some {n : Nat} {i : Int} {p : Nat} (h : pyIndex n i = some p) :
    p < n ∧ -(n : Int) ≤ i ∧ i < n ∧ (p : Int) = if 0 ≤ i then i else i + n := by
  unfold pyIndex at h
  split at h
  · cases h; split <;> omega
  · split at h
    · cases h; split <;> omega
    · cases h

theorem pyIndex_eq_none {n : Nat} {i : Int} (h : pyIndex n i = none) : ¬ (-(n : Int) ≤ i ∧ i < n) := by
  unfold pyIndex at h
  split at h
  · cases h
  · split at h
    · cases h
    · omega

theorem refAt_some {l : List α} {i : Int} {p : Nat} (h : l.length ≤ maxLen) (hp : pyIndex l.length i = some p) :
    refAt l i = .ok (p : Int) := by
  obtain ⟨h1, h2, h3, h4⟩ := pyIndex_some hp
  unfold refAt; rw [size_eq h]; unfold maxLen at h
  rw [ineg_ok (by rw [isInt_iff]; omega), Res.ok_bind, checkBounds_ok ⟨h2, h3⟩, Res.ok_bind]
  split
  · rw [if_pos (by omega)] at h4; simp [h4]
  · rw [if_neg (by omega)] at h4; rw [iadd_ok (by rw [isInt_iff]; omega), h4]

theorem refAt_none {l : List α} {i : Int} (h : l.length ≤ maxLen) (hp : pyIndex l.length i = none) :
    refAt l i = .throw msgIndex := by
  have := pyIndex_eq_none hp
  unfold refAt; rw [size_eq h]; unfold maxLen at h
  rw [ineg_ok (by rw [isInt_iff]; omega), Res.ok_bind, checkBounds_throw this, Res.throw_bind]

theorem get_some {l : List α} {i : Int} {p : Nat} (h : l.length ≤ maxLen) (hp : pyIndex l.length i = some p) :
    ∃ x, l[p]? = some x ∧ get l i = .ok x := by
  have hlt := (pyIndex_some hp).1
  refine ⟨l[p], List.getElem?_eq_getElem hlt, ?_⟩
  unfold get; rw [refAt_some h hp, Res.ok_bind, vat_ok (by omega) (by simpa using hlt)]; simp

theorem get_none {l : List α} {i : Int} (h : l.length ≤ maxLen) (hp : pyIndex l.length i = none) :
    get l i = .throw msgIndex := by
  unfold get; rw [refAt_none h hp, Res.throw_bind]

theorem assign_some {l : List α} {i : Int} {p : Nat} {e : α} (h : l.length ≤ maxLen)
    (hp : pyIndex l.length i = some p) : assign i e l = (.ok (), l.set p e) := by
  have hlt := (pyIndex_some hp).1
  simp [assign, refAt_some h hp, vat_ok (l := l) (i := (p : Int)) (by omega) (by simpa using hlt)]

theorem assign_none {l : List α} {i : Int} {e : α} (h : l.length ≤ maxLen)
    (hp : pyIndex l.length i = none) : assign i e l = (.throw msgIndex, l) := by
  simp [assign, refAt_none h hp]

theorem insertIdx_eq (l : List α) (p : Nat) (e : α) (h : p ≤ l.length) :
    l.insertIdx p e = l.take p ++ e :: l.drop p := by
  induction l generalizing p with
  | nil => simp at h; subst h; rfl
  | cons x l ih =>
    cases p with
    | zero => rfl
    | succ p => simp at h; simp [ih p h]

theorem insert_full {l : List α} {i : Int} {e : α} (h : l.length = maxLen) : insert i e l = (.throw msgFull, l) := by
  have hs : size l = INT_MAX := by rw [size_eq (by omega), h]; unfold maxLen INT_MAX; omega
  simp [insert, hs, checkFull_throw (Int.le_refl INT_MAX)]

theorem insert_some {l : List α} {i : Int} {e : α} {p : Nat} (h : l.length < maxLen)
    (hp : pyInsertPoint l.length i = some p) : insert i e l = (.ok (), l.insertIdx p e) := by
  have hs : size l = l.length := size_eq (by omega)
  unfold maxLen at h
  have hp' : p ≤ l.length ∧ -(l.length : Int) ≤ i ∧ i < l.length + 1 ∧ (p : Int) = if 0 ≤ i then i else i + l.length := by
    unfold pyInsertPoint at hp
    split at hp
    · cases hp; split <;> omega
    · have := pyIndex_some hp; omega
  obtain ⟨h1, h2, h3, h4⟩ := hp'
  have e1 : ineg (size l) = .ok (-(l.length : Int)) := by rw [hs]; exact ineg_ok (by rw [isInt_iff]; omega)
  have e2 : iadd (size l) 1 = .ok ((l.length : Int) + 1) := by rw [hs]; exact iadd_ok (by rw [isInt_iff]; omega)
  have e3 : (if i ≥ 0 then (.ok i : Res Int) else iadd i (size l)) = .ok (p : Int) := by
    split
    · rw [if_pos (by omega)] at h4; rw [h4]
    · rw [if_neg (by omega)] at h4; rw [hs, iadd_ok (by rw [isInt_iff]; omega), h4]
  have e4 : checkFull (size l) INT_MAX = .ok () := checkFull_ok (by rw [hs]; unfold INT_MAX; omega)
  simp only [insert, Meth.get_bind, e1, e2, e3, e4, Meth.lift_ok_bind, checkBounds_ok ⟨h2, h3⟩,
    iter_ok (l := l) (i := (p : Int)) (by omega) (by omega), Int.toNat_natCast, Meth.set_run, insertIdx_eq l p e h1]

theorem insert_none {l : List α} {i : Int} {e : α} (h : l.length < maxLen)
    (hp : pyInsertPoint l.length i = none) : insert i e l = (.throw msgIndex, l) := by
  have hs : size l = l.length := size_eq (by omega)
  unfold maxLen at h
  have hb : ¬ (-(l.length : Int) ≤ i ∧ i < l.length + 1) := by
    unfold pyInsertPoint at hp
    split at hp
    · cases hp
    · have := pyIndex_eq_none hp; omega
  have e1 : ineg (size l) = .ok (-(l.length : Int)) := by rw [hs]; exact ineg_ok (by rw [isInt_iff]; omega)
  have e2 : iadd (size l) 1 = .ok ((l.length : Int) + 1) := by rw [hs]; exact iadd_ok (by rw [isInt_iff]; omega)
  have e4 : checkFull (size l) INT_MAX = .ok () := checkFull_ok (by rw [hs]; unfold INT_MAX; omega)
  simp only [insert, Meth.get_bind, e1, e2, e4, Meth.lift_ok_bind, checkBounds_throw hb, Meth.lift_throw_bind]

theorem remove_nil {i : Int} : remove i ([] : List α) = (.throw msgEmpty, []) := by
  have e1 : checkEmpty (size ([] : List α)) = .throw msgEmpty := by
    rw [size_eq (by simp)]; rfl
  simp only [remove, Meth.get_bind, e1, Meth.lift_throw_bind]

theorem remove_some {l : List α} {i : Int} {p : Nat} (h : l.length ≤ maxLen) (hp : pyIndex l.length i = some p) :
    ∃ x, l[p]? = some x ∧ remove i l = (.ok x, l.eraseIdx p) := by
  have hs : size l = l.length := size_eq h
  unfold maxLen at h
  obtain ⟨h1, h2, h3, h4⟩ := pyIndex_some hp
  have e0 : checkEmpty (size l) = .ok () := checkEmpty_ok (by rw [hs]; omega)
  have e1 : ineg (size l) = .ok (-(l.length : Int)) := by rw [hs]; exact ineg_ok (by rw [isInt_iff]; omega)
  have e3 : (if i ≥ 0 then (.ok i : Res Int) else iadd i (size l)) = .ok (p : Int) := by
    split
    · rw [if_pos (by omega)] at h4; rw [h4]
    · rw [if_neg (by omega)] at h4; rw [hs, iadd_ok (by rw [isInt_iff]; omega), h4]
  have e4 : checkBounds i (-(l.length : Int)) (size l) = .ok () := by rw [hs]; exact checkBounds_ok ⟨h2, h3⟩
  refine ⟨l[p], List.getElem?_eq_getElem h1, ?_⟩
  simp only [remove, Meth.get_bind, e0, e1, e3, e4, Meth.lift_ok_bind,
    vat_ok (l := l) (i := (p : Int)) (by omega) (by simpa using h1), Int.toNat_natCast, Meth.set_bind, Meth.pure_run]

theorem remove_none {l : List α} {i : Int} (h : l.length ≤ maxLen) (h0 : l ≠ []) (hp : pyIndex l.length i = none) :
    remove i l = (.throw msgIndex, l) := by
  have hs : size l = l.length := size_eq h
  have h0' : l.length ≠ 0 := by simpa using h0
  unfold maxLen at h
  have hb := pyIndex_eq_none hp
  have e0 : checkEmpty (size l) = .ok () := checkEmpty_ok (by rw [hs]; omega)
  have e1 : ineg (size l) = .ok (-(l.length : Int)) := by rw [hs]; exact ineg_ok (by rw [isInt_iff]; omega)
  have e4 : checkBounds i (-(l.length : Int)) (size l) = .throw msgIndex := by rw [hs]; exact checkBounds_throw hb
  simp only [remove, Meth.get_bind, e0, e1, e4, Meth.lift_ok_bind, Meth.lift_throw_bind]

theorem append_ok {l : List α} {e : α} (h : l.length < maxLen) : append e l = (.ok (), l ++ [e]) := by
  have hs : size l = l.length := size_eq (by omega)
  unfold maxLen at h
  simp only [append, Meth.get_bind, hs, checkFull_ok (a := (l.length : Int)) (b := INT_MAX) (by unfold INT_MAX; omega),
    Meth.lift_ok_bind, Meth.set_run]

theorem append_full {l : List α} {e : α} (h : l.length = maxLen) : append e l = (.throw msgFull, l) := by
  have hs : size l = INT_MAX := by rw [size_eq (by omega), h]; unfold maxLen INT_MAX; omega
  simp only [append, Meth.get_bind, hs, checkFull_throw (Int.le_refl INT_MAX), Meth.lift_throw_bind]

theorem half_full {s t : Nat} (hs : s ≤ maxLen) (ht : t ≤ maxLen) :
    iadd ((s : Int).tdiv 2) ((t : Int).tdiv 2) = .ok (((s / 2 + t / 2 : Nat) : Int)) ∧ INT_MAX.tdiv 2 = 1073741823 := by
  unfold maxLen at hs ht
  constructor
  · rw [iadd_ok]
    · congr 1
    · rw [isInt_iff]; rw [Int.tdiv_eq_ediv_of_nonneg (by omega), Int.tdiv_eq_ediv_of_nonneg (by omega)]; omega
  · rfl

theorem extendList_ok {mem : Mem} {l m : List α} (hl : l.length ≤ maxLen) (hm : m.length ≤ maxLen)
    (h : l.length / 2 + m.length / 2 < 1073741823) : extendList mem (some m) l = (.ok (), l ++ m) := by
  obtain ⟨e1, e2⟩ := half_full hl hm
  simp only [extendList, Meth.get_bind, Option.getD_some, size_eq hl, size_eq hm, e1, e2, Meth.lift_ok_bind,
    checkFull_ok (a := ((l.length / 2 + m.length / 2 : Nat) : Int)) (b := 1073741823) (by omega), stdInsertEnd,
    Option.isNone_some, Bool.false_eq_true, false_and, if_false, Meth.set_run]

theorem extendList_full {mem : Mem} {l m : List α} (hl : l.length ≤ maxLen) (hm : m.length ≤ maxLen)
    (h : 1073741823 ≤ l.length / 2 + m.length / 2) : extendList mem (some m) l = (.throw msgFull, l) := by
  obtain ⟨e1, e2⟩ := half_full hl hm
  simp only [extendList, Meth.get_bind, Option.getD_some, size_eq hl, size_eq hm, e1, e2, Meth.lift_ok_bind,
    checkFull_throw (a := ((l.length / 2 + m.length / 2 : Nat) : Int)) (b := 1073741823) (by omega),
    Meth.lift_throw_bind]

theorem addSelf_ok {l : List α} (hl : l.length ≤ maxLen)
    (h : l.length / 2 + l.length / 2 < 1073741823) : extendList .lenient none l = (.ok (), l ++ l) := by
  obtain ⟨e1, e2⟩ := half_full hl hl
  simp only [extendList, Meth.get_bind, Option.getD_none, size_eq hl, e1, e2, Meth.lift_ok_bind,
    checkFull_ok (a := ((l.length / 2 + l.length / 2 : Nat) : Int)) (b := 1073741823) (by omega), stdInsertEnd,
    reduceCtorEq, and_false, if_false, Meth.set_run]

theorem addSelf_full {mem : Mem} {l : List α} (hl : l.length ≤ maxLen)
    (h : 1073741823 ≤ l.length / 2 + l.length / 2) : extendList mem none l = (.throw msgFull, l) := by
  obtain ⟨e1, e2⟩ := half_full hl hl
  simp only [extendList, Meth.get_bind, Option.getD_none, size_eq hl, e1, e2, Meth.lift_ok_bind,
    checkFull_throw (a := ((l.length / 2 + l.length / 2 : Nat) : Int)) (b := 1073741823) (by omega),
    Meth.lift_throw_bind]

theorem extend_some {mem : Mem} {l m : List α} : extend mem (some m) l = (.ok (), l ++ m) := by
  simp only [extend, Meth.get_bind, stdInsertEnd, Option.isNone_some, Bool.false_eq_true, false_and, if_false,
    Option.getD_some, Meth.lift_ok_bind, Meth.set_run]

theorem stdFind_all [BEq α] (l : List α) (e : α) :
    stdFind l 0 l.length e = .ok (l.findIdx (fun x => x == e)) := by
  simp [stdFind]

theorem removeFirst_run [BEq α] [LawfulBEq α] {l : List α} {e : α} : removeFirst e l = (.ok (), l.erase e) := by
  simp only [removeFirst, find, Meth.get_bind, stdFind_all, Meth.lift_ok_bind]
  by_cases h : l.findIdx (fun x => x == e) = l.length
  · rw [if_neg (fun h' => h' h)]
    have : e ∉ l := by
      intro he
      have := List.findIdx_lt_length_of_exists (xs := l) (p := fun x => x == e) ⟨e, he, by simp⟩
      omega
    rw [List.erase_of_not_mem this]; simp
  · have hle := List.findIdx_le_length (xs := l) (p := fun x => x == e)
    rw [if_pos h]
    have hlt : l.findIdx (fun x => x == e) < l.length := by omega
    simp only [stdErase]
    rw [if_pos (by omega)]
    simp only [Meth.lift_ok_bind, Meth.set_run]
    rw [← List.eraseIdx_eq_take_drop_succ, List.erase_eq_eraseIdx]
    have hi : l.idxOf? e = some (l.findIdx (fun x => x == e)) := by
      rw [List.idxOf?, List.findIdx?_eq_some_iff_findIdx_eq]; exact ⟨hlt, rfl⟩
    rw [hi]

end Lst
end Pyincpp
