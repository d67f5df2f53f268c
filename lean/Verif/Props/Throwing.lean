import Verif.Model.Throwing
import Verif.Proof.ListLoops
import Verif.Props.NoEffect

/-! # C84: element comparisons and predicates that throw -/

namespace Pyincpp

open NoEff

variable {α : Type}

/-! ## Without exceptions: the functions of the other files -/

namespace Lst

theorem findT_ok (q : α → α → Bool) (e : α) : ∀ l : List α, findT (fun a b => .ok (q a b)) l e = .ok (l.findIdx (fun x => q x e))
  | [] => rfl
  | x :: xs => by
    rw [findT, Res.ok_bind, List.findIdx_cons]
    by_cases h : q x e = true
    · simp [h]
    · simp [h, findT_ok q e xs]

/-- Comparing up to the first exception. -/
theorem findT_run (eqv : α → α → Res Bool) (e : α) (q : α → Bool) : ∀ (a l : List α), (∀ y ∈ a, eqv y e = .ok (q y)) →
    findT eqv (a ++ l) e = if a.findIdx q < a.length then .ok (a.findIdx q) else
      (findT eqv l e >>= fun n => .ok (a.length + n))
  | [], l, _ => by
    simp only [List.nil_append, List.findIdx_nil, List.length_nil, Nat.lt_irrefl, if_false, Nat.zero_add]
    cases findT eqv l e <;> rfl
  | x :: xs, l, h => by
    rw [List.cons_append, findT, h x (by simp), Res.ok_bind, List.findIdx_cons]
    by_cases hx : q x = true
    · simp [hx]
    · have ih := findT_run eqv e q xs l (fun y hy => h y (by simp [hy]))
      simp only [hx, Bool.false_eq_true, if_false, cond_false, List.length_cons, Nat.add_lt_add_iff_right, ih]
      split
      · simp
      · cases findT eqv l e <;> simp
        omega

theorem vset_ok' {v : List α} {i : Nat} {x : α} (h : i < v.length) : vset v i x = .ok (v.set i x) := vset_ok h

/-- The loop of `filter`, from position `i` on, up to an exception or to the end: `k` elements were kept so far, the list is
`kept ++ old ++ a ++ l`. -/
theorem copyIfLoopT_run (p : α → Res Bool) (q : α → Bool) : ∀ (a l kept old : List α) (n : Nat), (∀ y ∈ a, p y = .ok (q y)) →
    copyIfLoopT p (a.length + n) (kept.length + old.length) kept.length (kept ++ old ++ a ++ l) =
      copyIfLoopT p n (kept.length + old.length + a.length) (kept.length + (a.filter q).length)
        (kept ++ a.filter q ++ ((old ++ a).drop (a.filter q).length ++ l))
  | [], l, kept, old, n, _ => by simp
  | x :: a, l, kept, old, n, h => by
    have hx : vget (kept ++ old ++ x :: a ++ l) (kept.length + old.length) = .ok x := by
      rw [vget]
      rw [show kept ++ old ++ x :: a ++ l = (kept ++ old) ++ (x :: a ++ l) by simp,
        List.getElem?_append_right (by simp)]
      simp
    rw [show (x :: a).length + n = (a.length + n) + 1 by simp; omega, copyIfLoopT, Meth.get_bind, hx, Meth.lift_ok_bind,
      h x (by simp), Meth.lift_ok_bind]
    by_cases hq : q x = true
    · rw [if_pos hq, vset_ok (by simp), Meth.lift_ok_bind, Meth.set_bind, List.filter_cons_of_pos hq]
      cases old with
      | nil =>
        have e : (kept ++ [] ++ x :: a ++ l).set kept.length x = (kept ++ [x]) ++ [] ++ a ++ l := by simp
        rw [e, show kept.length + ([] : List α).length + 1 = (kept ++ [x]).length + ([] : List α).length by simp,
          show kept.length + 1 = (kept ++ [x]).length by simp,
          copyIfLoopT_run p q a l (kept ++ [x]) [] n (fun y hy => h y (by simp [hy]))]
        simp only [List.length_append, List.length_cons, List.length_nil, List.nil_append, List.append_assoc,
          List.cons_append, List.drop_succ_cons]
        congr 1 <;> omega
      | cons o old =>
        have e : (kept ++ o :: old ++ x :: a ++ l).set kept.length x = (kept ++ [x]) ++ (old ++ [x]) ++ a ++ l := by simp
        rw [e, show kept.length + (o :: old).length + 1 = (kept ++ [x]).length + (old ++ [x]).length by simp; omega,
          show kept.length + 1 = (kept ++ [x]).length by simp,
          copyIfLoopT_run p q a l (kept ++ [x]) (old ++ [x]) n (fun y hy => h y (by simp [hy]))]
        simp only [List.length_append, List.length_cons, List.length_nil, List.nil_append, List.append_assoc,
          List.cons_append, List.drop_succ_cons]
        congr 1 <;> omega
    · rw [if_neg hq, List.filter_cons_of_neg hq]
      have := copyIfLoopT_run p q a l kept (old ++ [x]) n (fun y hy => h y (by simp [hy]))
      rw [show kept ++ old ++ x :: a ++ l = kept ++ (old ++ [x]) ++ a ++ l by simp,
        show kept.length + old.length + 1 = kept.length + (old ++ [x]).length by simp [Nat.add_assoc], this]
      simp only [List.length_append, List.length_cons, List.length_nil, List.append_assoc, List.cons_append, List.nil_append]
      congr 1
      omega

/-- The loop of `std::remove`: `kept` elements in place, then `old` (removed or moved from, not empty), then the rest. -/
theorem removeLoopT_run (eqv : α → α → Res Bool) (gone : α → α) (e : α) (q : α → Bool) :
    ∀ (a l kept old : List α) (n : Nat), old ≠ [] → (∀ y ∈ a, eqv y e = .ok (q y)) →
    removeLoopT eqv gone e (a.length + n) (kept.length + old.length) kept.length (kept ++ old ++ a ++ l) =
      removeLoopT eqv gone e n (kept.length + old.length + a.length) (kept.length + (a.filter (fun y => !(q y))).length)
        (kept ++ a.filter (fun y => !(q y)) ++ ((old ++ a.map (fun y => if q y then y else gone y)).drop
          (a.filter (fun y => !(q y))).length ++ l))
  | [], l, kept, old, n, _, _ => by simp
  | x :: a, l, kept, old, n, ho, h => by
    have hx : vget (kept ++ old ++ x :: a ++ l) (kept.length + old.length) = .ok x := by
      rw [vget]
      rw [show kept ++ old ++ x :: a ++ l = (kept ++ old) ++ (x :: a ++ l) by simp,
        List.getElem?_append_right (by simp)]
      simp
    rw [show (x :: a).length + n = (a.length + n) + 1 by simp; omega, removeLoopT, Meth.get_bind, hx, Meth.lift_ok_bind,
      h x (by simp), Meth.lift_ok_bind]
    obtain ⟨o, old, rfl⟩ := List.exists_cons_of_ne_nil ho
    by_cases hq : q x = true
    · rw [if_pos hq, List.filter_cons_of_neg (by simp [hq])]
      have := removeLoopT_run eqv gone e q a l kept (o :: old ++ [x]) n (by simp) (fun y hy => h y (by simp [hy]))
      rw [show kept ++ o :: old ++ x :: a ++ l = kept ++ (o :: old ++ [x]) ++ a ++ l by simp,
        show kept.length + (o :: old).length + 1 = kept.length + (o :: old ++ [x]).length by simp; omega, this]
      simp only [List.length_append, List.length_cons, List.length_nil, List.append_assoc, List.cons_append, List.nil_append,
        List.map_cons, hq, if_true]
      congr 1
      omega
    · rw [if_neg hq, vset_ok (by simp), Meth.lift_ok_bind, Meth.set_bind, List.filter_cons_of_pos (by simp [hq])]
      have e1 : (((kept ++ o :: old ++ x :: a ++ l).set kept.length x).set (kept.length + (o :: old).length) (gone x)) =
          (kept ++ [x]) ++ (old ++ [gone x]) ++ a ++ l := by
        rw [show kept ++ o :: old ++ x :: a ++ l = kept ++ (o :: (old ++ x :: (a ++ l))) by simp,
          List.set_append_right _ _ (Nat.le_refl _), List.set_append_right _ _ (by simp)]
        simp
      rw [e1, show kept.length + (o :: old).length + 1 = (kept ++ [x]).length + (old ++ [gone x]).length by simp; omega,
        show kept.length + 1 = (kept ++ [x]).length by simp,
        removeLoopT_run eqv gone e q a l (kept ++ [x]) (old ++ [gone x]) n (by simp) (fun y hy => h y (by simp [hy]))]
      simp only [List.length_append, List.length_cons, List.length_nil, List.nil_append, List.append_assoc,
        List.cons_append, List.drop_succ_cons, List.map_cons, hq, Bool.false_eq_true, if_false]
      congr 1 <;> omega

theorem uniquifyLoopT_ok [BEq α] : ∀ (l b : List α), uniquifyLoopT (fun a b => .ok (a == b)) l b = uniquifyLoop l b
  | [], _ => rfl
  | e :: es, b => by
    rw [uniquifyLoopT, uniquifyLoop, findT_ok, stdFind_all, Res.ok_bind, Res.ok_bind]
    exact uniquifyLoopT_ok es _

/-- C84, `filter`: if the predicate throws on `x`, the elements before it that passed are moved to the front, and everything
from that many places on is as before. -/
theorem C84_filter (p : α → Res Bool) (q : α → Bool) (a b : List α) (x : α) (m : String) (ha : ∀ y ∈ a, p y = .ok (q y))
    (hx : p x = .throw m) : filterT p (a ++ x :: b) = (.throw m, a.filter q ++ (a ++ x :: b).drop (a.filter q).length) := by
  have H := copyIfLoopT_run p q a (x :: b) [] [] (b.length + 1) ha
  simp only [List.length_nil, Nat.zero_add, List.nil_append, List.append_nil] at H
  have hg : vget (a.filter q ++ (a.drop (a.filter q).length ++ x :: b)) a.length = .ok x := by
    rw [vget]
    rw [← List.append_assoc, List.getElem?_append_right (by simp; have := List.length_filter_le q a; omega)]
    have : a.length - (a.filter q ++ a.drop (a.filter q).length).length = 0 := by
      have := List.length_filter_le q a
      simp only [List.length_append, List.length_drop]; omega
    rw [this]; rfl
  have H2 : copyIfLoopT p (a ++ x :: b).length 0 0 (a ++ x :: b) =
      (.throw m, a.filter q ++ (a.drop (a.filter q).length ++ x :: b)) := by
    rw [show (a ++ x :: b).length = a.length + (b.length + 1) by simp, H, copyIfLoopT, Meth.get_bind, hg, Meth.lift_ok_bind, hx]
    rfl
  rw [filterT, Meth.get_bind, bind_run, H2]
  simp only
  rw [List.drop_append_of_le_length (List.length_filter_le q a)]

/-- C84, `/=`: if `==` throws on `x`, the elements before it that differ are moved to the front; between them and `x` are elements
equal to `e`, and what moving has left. -/
theorem C84_remove_all (eqv : α → α → Res Bool) (gone : α → α) (e : α) (q : α → Bool) (a b : List α) (x : α) (m : String)
    (ha : ∀ y ∈ a, eqv y e = .ok (q y)) (hx : eqv x e = .throw m) :
    removeAllT eqv gone e (a ++ x :: b) = (.throw m, a.filter (fun y => !(q y)) ++
      (a.map (fun y => if q y then y else gone y)).drop (a.filter (fun y => !(q y))).length ++ x :: b) := by
  have hf := findT_run eqv e q a (x :: b) ha
  rw [findT, hx] at hf
  by_cases hp : a.findIdx q < a.length
  · rw [if_pos hp] at hf
    set p := a.findIdx q with hpdef
    have hnot : ∀ y ∈ a.take p, q y = false := by
      intro y hy
      obtain ⟨j, hj, rfl⟩ := List.getElem_of_mem hy
      rw [List.length_take] at hj
      have := List.not_of_lt_findIdx (p := q) (xs := a) (i := j) (by omega)
      rw [List.getElem_take]
      simpa using this
    have hyes : q a[p] = true := List.findIdx_getElem (w := hp)
    have hsplit : a = a.take p ++ [a[p]] ++ a.drop (p + 1) := by
      rw [List.append_assoc, List.singleton_append, ← List.drop_eq_getElem_cons hp, List.take_append_drop]
    have hk : a.filter (fun y => !(q y)) = a.take p ++ (a.drop (p + 1)).filter (fun y => !(q y)) := by
      conv_lhs => rw [hsplit]
      rw [List.filter_append, List.filter_append, List.filter_eq_self.2 (fun y hy => by simp [hnot y hy])]
      simp [hyes]
    have hlen : (a.take p).length = p := by rw [List.length_take]; omega
    have H := removeLoopT_run eqv gone e q (a.drop (p + 1)) (x :: b) (a.take p) [a[p]] (b.length + 1) (by simp)
      (fun y hy => ha y (List.mem_of_mem_drop hy))
    rw [← hsplit, hlen] at H
    have hdl : (a.drop (p + 1)).length = a.length - (p + 1) := by simp
    rw [hdl] at H
    simp only [List.length_singleton] at H
    set k := ((a.drop (p + 1)).filter (fun y => !(q y))) with hkdef
    have hkl : k.length ≤ a.length - (p + 1) := by rw [← hdl]; exact List.length_filter_le ..
    set mid := (([a[p]] ++ (a.drop (p + 1)).map (fun y => if q y then y else gone y)).drop k.length) with hmid
    have hml : mid.length = a.length - p - k.length := by
      rw [hmid]; simp; omega
    have hg : vget (a.take p ++ k ++ (mid ++ x :: b)) (p + 1 + (a.length - (p + 1))) = .ok x := by
      rw [vget]
      rw [← List.append_assoc, List.getElem?_append_right (by simp only [List.length_append, hlen, hml]; omega)]
      have : p + 1 + (a.length - (p + 1)) - (a.take p ++ k ++ mid).length = 0 := by
        simp only [List.length_append, hlen, hml]; omega
      rw [this]; rfl
    have H2 : removeLoopT eqv gone e ((a ++ x :: b).length - (p + 1)) (p + 1) p (a ++ x :: b) =
        (.throw m, a.take p ++ k ++ (mid ++ x :: b)) := by
      rw [show (a ++ x :: b).length - (p + 1) = a.length - (p + 1) + (b.length + 1) by simp; omega, H, removeLoopT, Meth.get_bind,
        hg, Meth.lift_ok_bind, hx]
      rfl
    have hmid2 : mid = (a.map (fun y => if q y then y else gone y)).drop (p + k.length) := by
      have hm : a.map (fun y => if q y then y else gone y) = (a.take p).map (fun y => if q y then y else gone y) ++
          ([a[p]] ++ (a.drop (p + 1)).map (fun y => if q y then y else gone y)) := by
        have := congrArg (List.map (fun y => if q y then y else gone y)) hsplit
        simpa only [List.map_append, List.map_cons, List.map_nil, hyes, if_true, List.append_assoc] using this
      rw [hm, List.drop_append, List.drop_eq_nil_of_le (by simp), List.length_map, hlen, Nat.add_sub_cancel_left]
      simp [hmid]
    rw [removeAllT, Meth.get_bind, hf, Meth.lift_ok_bind, if_neg (by simp; omega), bind_run, H2]
    simp only
    rw [hk, List.length_append, hlen, hmid2]
    simp
  · rw [if_neg hp] at hf
    have hnot : ∀ y ∈ a, q y = false := by
      intro y hy
      obtain ⟨j, hj, rfl⟩ := List.getElem_of_mem hy
      have := List.not_of_lt_findIdx (p := q) (xs := a) (i := j) (by omega)
      simpa using this
    have hk : a.filter (fun y => !(q y)) = a := List.filter_eq_self.2 (fun y hy => by simp [hnot y hy])
    rw [removeAllT, Meth.get_bind, hf]
    simp [hk, bind_run, Meth.lift]

/-- C84: nothing that should stay is lost by `/=`. -/
theorem C84_remove_all_keeps (eqv : α → α → Res Bool) (gone : α → α) (e : α) (q : α → Bool) (a b : List α) (x : α) (m : String)
    (ha : ∀ y ∈ a, eqv y e = .ok (q y)) (hx : eqv x e = .throw m) :
    (removeAllT eqv gone e (a ++ x :: b)).2.length = (a ++ x :: b).length ∧
      ∀ y ∈ a ++ x :: b, (y ∈ a → q y = false) → y ∈ (removeAllT eqv gone e (a ++ x :: b)).2 := by
  rw [C84_remove_all eqv gone e q a b x m ha hx]
  have := List.length_filter_le (fun y => !(q y)) a
  refine ⟨by simp only [List.length_append, List.length_drop, List.length_map, List.length_cons]; omega, ?_⟩
  intro y hy hk
  simp only [List.mem_append] at hy ⊢
  rcases hy with hy | hy
  · exact .inl (.inl (List.mem_filter.2 ⟨hy, by simp [hk hy]⟩))
  · exact .inr hy

/-- C84 for `List`, the rest: `-=` and `uniquify` change nothing when `==` throws. -/
theorem C84_list_unchanged_partial (eqv : α → α → Res Bool) (e : α) (l : List α) (m : String) :
    ((removeFirstT eqv e l).1 = .throw m → (removeFirstT eqv e l).2 = l) ∧
    ((uniquifyT eqv l).1 = .throw m → (uniquifyT eqv l).2 = l) := by
  refine ⟨?_, ?_⟩
  · suffices h : NoEffect (removeFirstT eqv e) from h l m
    refine get_bind fun l => lift_bind fun it => ?_
    split
    · exact lift_bind fun _ => set_noEffect _
    · exact pure_noEffect _
  · suffices h : NoEffect (uniquifyT eqv) from h l m
    exact get_bind fun l => lift_bind fun _ => set_noEffect _

/-- The property is false of the code for `filter` and `/=`: filtering [1, 2, 3] with a predicate that throws on 3 leaves
[2, 2, 3]; and `/=` on numbers that moving sets to zero leaves [2, 0, 4]. -/
theorem C84_not :
    filterT (fun x : Nat => if x = 3 then .throw "no" else .ok (x != 1)) [1, 2, 3] = (.throw "no", [2, 2, 3]) ∧
    removeAllT (fun x e : Nat => if x = 4 then .throw "no" else .ok (x == e)) (fun _ => 0) 1 [1, 2, 4] =
      (.throw "no", [2, 0, 4]) := by decide +kernel

/-- Without exceptions these are the functions of Model/List.lean. -/
theorem C84_list_agree [BEq α] (gone : α → α) (p : α → Bool) (e : α) (l : List α) :
    removeFirstT (fun a b => .ok (a == b)) e l = removeFirst e l ∧
    removeAllT (fun a b => .ok (a == b)) gone e l = removeAll (.val e) l ∧
    uniquifyT (fun a b => .ok (a == b)) l = uniquify l ∧
    filterT (fun x => .ok (p x)) l = filter .lenient p l := by
  refine ⟨?_, ?_, ?_, ?_⟩
  · simp only [removeFirstT, removeFirst, Meth.get_bind, findT_ok, find, stdFind_all]
  · rw [removeAll_val, removeAllT, Meth.get_bind, findT_ok, Meth.lift_ok_bind]
    set pos := l.findIdx (fun x => x == e) with hpos
    have hle : pos ≤ l.length := List.findIdx_le_length
    by_cases hp : pos = l.length
    · rw [if_pos hp, bind_run]
      show (Meth.get >>= _ : Meth (List α) Unit) _ = _
      rw [Meth.get_bind, hp, stdErase_tail (Nat.le_refl _), Meth.lift_ok_bind, Meth.set_run,
        List.take_length, List.filter_eq_self.2]
      intro a ha
      obtain ⟨j, hj, rfl⟩ := List.getElem_of_mem ha
      have := List.not_of_lt_findIdx (p := fun x => x == e) (xs := l) (i := j) (by omega)
      simpa using this
    · have hlt : pos < l.length := by omega
      have hsplit : l = l.take pos ++ [l[pos]] ++ l.drop (pos + 1) := by
        rw [List.append_assoc, List.singleton_append, ← List.drop_eq_getElem_cons hlt, List.take_append_drop]
      have hlen : (l.take pos).length = pos := by rw [List.length_take]; omega
      have H := removeLoopT_run (fun a b => .ok (a == b)) gone e (fun y => y == e) (l.drop (pos + 1)) [] (l.take pos) [l[pos]] 0 (by simp)
        (fun y hy => rfl)
      rw [List.append_nil, ← hsplit, hlen] at H
      simp only [List.length_drop, List.length_singleton, Nat.add_zero, List.append_nil, removeLoopT] at H
      rw [if_neg hp, bind_run, H]
      show (Meth.get >>= _ : Meth (List α) Unit) _ = _
      have := List.length_filter_le (fun y => !(y == e)) (l.drop (pos + 1))
      rw [List.length_drop] at this
      rw [Meth.get_bind, stdErase_tail (by simp; omega), Meth.lift_ok_bind, Meth.set_run, findIdx_take_filter l e hlt]
      congr 1
      rw [List.take_append_of_le_length (by simp [hlen]), List.take_of_length_le (by simp [hlen])]
  · simp only [uniquifyT, uniquify, Meth.get_bind, uniquifyLoopT_ok]
  · have H := copyIfLoopT_run (fun x => .ok (p x)) p l [] [] [] 0 (fun y hy => rfl)
    simp only [List.length_nil, Nat.zero_add, List.nil_append, List.append_nil, Nat.add_zero, copyIfLoopT] at H
    rw [filter_lenient, filterT, Meth.get_bind, bind_run, H]
    show (Meth.get >>= _ : Meth (List α) Unit) _ = _
    have := List.length_filter_le p l
    rw [Meth.get_bind, stdErase_tail (by simp), Meth.lift_ok_bind, Meth.set_run]
    simp

example : filterT (fun x : Nat => if x = 9 then .throw "no" else .ok (x % 2 == 0)) ([1, 4, 5, 6] ++ 9 :: [8]) =
    (.throw "no", [4, 6] ++ [5, 6, 9, 8]) := by decide +kernel
example : removeAllT (fun x e : Nat => if x = 9 then .throw "no" else .ok (x == e)) (fun _ => 0) 7 ([1, 7, 2, 3, 7] ++ 9 :: [8]) =
    (.throw "no", [1, 2, 3] ++ [0, 7] ++ 9 :: [8]) := by decide +kernel
example : uniquifyT (fun x y : Nat => if x = 9 then .throw "no" else .ok (x == y)) [1, 1, 9, 2] = (.throw "no", [1, 1, 9, 2]) := by
  decide +kernel

end Lst

/-! ## `Set` and `Dict` -/

namespace Tree

theorem compareAll_ok (q : α → α → Bool) : ∀ qs : List (α × α), compareAll (fun a b => .ok (q a b)) qs = .ok ()
  | [] => rfl
  | (a, b) :: qs => by rw [compareAll, Res.ok_bind]; exact compareAll_ok q qs

theorem said_ok (q : α → α → Bool) : said (fun a b => .ok (q a b)) = q := rfl

theorem insertT_run (lt : α → α → Res Bool) (ask : Ask α) (x : α) (s : List α) :
    insertT lt ask x s = (match compareAll lt (ask x s) with
      | .ok _ => (.ok (insert (said lt) x s).2, (insert (said lt) x s).1)
      | .throw m => (.throw m, s)
      | .ub u => (.ub u, s)
      | .fuel => (.fuel, s)) := by
  rw [insertT, Meth.get_bind, bind_run]
  cases compareAll lt (ask x s) <;> rfl

/-- If adding a range throws, a part of it has been added: those before the element at which a comparison threw. -/
theorem insertAllT_throw (lt : α → α → Res Bool) (ask : Ask α) (m : String) : ∀ (xs s : List α),
    (insertAllT lt ask xs s).1 = .throw m → ∃ a x b, xs = a ++ x :: b ∧
      (insertAllT lt ask xs s).2 = insertAll (said lt) a s ∧ compareAll lt (ask x (insertAll (said lt) a s)) = .throw m
  | [], s, h => by cases h
  | x :: xs, s, h => by
    rw [insertAllT, bind_run, insertT_run] at h ⊢
    cases hc : compareAll lt (ask x s) with
    | ok _ =>
      rw [hc] at h
      simp only at h ⊢
      obtain ⟨a, y, b, e1, e2, e3⟩ := insertAllT_throw lt ask m xs _ h
      refine ⟨x :: a, y, b, by rw [e1]; rfl, ?_, ?_⟩
      · rw [e2]; rfl
      · exact e3
    | throw m' =>
      rw [hc] at h
      cases h
      exact ⟨[], x, xs, rfl, rfl, hc⟩
    | ub u => rw [hc] at h; cases h
    | fuel => rw [hc] at h; cases h

theorem insertAllT_ok (q : α → α → Bool) (ask : Ask α) : ∀ (xs s : List α),
    insertAllT (fun a b => .ok (q a b)) ask xs s = (.ok (), insertAll q xs s)
  | [], _ => rfl
  | x :: xs, s => by
    rw [insertAllT, bind_run, insertT_run, compareAll_ok]
    exact insertAllT_ok q ask xs _

theorem walkInnerT_ok (q : α → α → Bool) (l r b : Bool) (a : α) (as : List α) (next : List α → List α)
    (nextT : List α → Res (List α)) (h : ∀ c, nextT c = .ok (next c)) : ∀ cs : List α,
    walkInnerT (fun a b => .ok (q a b)) l r b a as nextT cs = .ok (walkInner q l r b a as next cs)
  | [] => by cases l <;> rfl
  | c :: cs => by
    have ih := walkInnerT_ok q l r b a as next nextT h cs
    simp only [walkInnerT, walkInner, Res.ok_bind, h, ih, Res.pure_eq]
    split
    · cases l <;> rfl
    · split
      · cases r <;> rfl
      · cases b <;> rfl

theorem walkT_ok (q : α → α → Bool) (l r b : Bool) : ∀ as cs : List α,
    walkT (fun a b => .ok (q a b)) l r b as cs = .ok (walk q l r b as cs)
  | [], _ => by cases r <;> rfl
  | a :: as, cs => by
    rw [walkT, walk]
    exact walkInnerT_ok q l r b a as _ _ (walkT_ok q l r b as) cs

end Tree

namespace PSet

/-- C84 for `Set`: whichever comparisons the tree makes, all operations but `extend` change nothing when one of them throws. -/
theorem C84_set_unchanged (lt : α → α → Res Bool) (ask : Tree.Ask α) (s : List α) (m : String) :
    (∀ e, (addT lt ask e s).1 = .throw m → (addT lt ask e s).2 = s) ∧
    (∀ e, (removeT lt ask e s).1 = .throw m → (removeT lt ask e s).2 = s) ∧
    (∀ l r b t, (combineAssignT lt ask l r b t s).1 = .throw m → (combineAssignT lt ask l r b t s).2 = s) := by
  refine ⟨fun e => ?_, fun e => ?_, fun l r b t => ?_⟩
  · suffices h : NoEffect (addT lt ask e) from h s m
    exact get_bind fun s => lift_bind fun _ => get_bind fun s => lift_bind fun _ => set_pure _ _
  · suffices h : NoEffect (removeT lt ask e) from h s m
    exact get_bind fun s => lift_bind fun _ => set_pure _ _
  · suffices h : NoEffect (combineAssignT lt ask l r b t) from h s m
    exact get_bind fun s => lift_bind fun _ => set_noEffect _

/-- C84 for `Set::extend`: when a comparison throws, exactly the elements before the one it was made for have been added. -/
theorem C84_set_extend (lt : α → α → Res Bool) (ask : Tree.Ask α) (xs s : List α) (m : String)
    (h : (extendT lt ask xs s).1 = .throw m) : ∃ a x b, xs = a ++ x :: b ∧
      (extendT lt ask xs s).2 = (extend (Tree.said lt) a s).2 ∧
      Tree.compareAll lt (ask x (extend (Tree.said lt) a s).2) = .throw m :=
  Tree.insertAllT_throw lt ask m xs s h

/-- ... so the property is false of it: {1} extended by 2, 3 becomes {1, 2} when comparing with 3 throws. -/
theorem C84_set_extend_not :
    extendT (fun a b : Nat => if a = 3 ∨ b = 3 then .throw "no" else .ok (decide (a < b))) (fun x s => s.map (fun y => (y, x))) [2, 3] [1] =
      (.throw "no", [1, 2]) := by decide +kernel

/-- Without exceptions these are the functions of Model/Set.lean. -/
theorem C84_set_agree (q : α → α → Bool) (ask : Tree.Ask α) (e : α) (xs s : List α) (t : Option (List α)) :
    addT (fun a b => .ok (q a b)) ask e s = add q e s ∧
    removeT (fun a b => .ok (q a b)) ask e s = remove q e s ∧
    extendT (fun a b => .ok (q a b)) ask xs s = extend q xs s ∧
    combineAssignT (fun a b => .ok (q a b)) ask false false true t s = interAssign q t s ∧
    combineAssignT (fun a b => .ok (q a b)) ask true true true t s = unionAssign q t s ∧
    combineAssignT (fun a b => .ok (q a b)) ask true false false t s = diffAssign q t s ∧
    combineAssignT (fun a b => .ok (q a b)) ask true true false t s = symDiffAssign q t s := by
  have hc : ∀ l r b, combineAssignT (fun a b => .ok (q a b)) ask l r b t s =
      (.ok (), Tree.insertAll q (Tree.walk q l r b s (t.getD s)) []) := by
    intro l r b
    rw [combineAssignT, Meth.get_bind, combineT, Tree.walkT_ok, Res.ok_bind, Tree.insertAllT_ok]
    rfl
  refine ⟨?_, ?_, ?_, hc .., hc .., hc .., hc ..⟩
  · simp only [addT, add, Meth.get_bind]
    generalize checkFull (size s) INT_MAX = r
    cases r with
    | ok u => simp only [Meth.lift_ok_bind, Tree.insertT, Meth.get_bind, Tree.compareAll_ok, Tree.said_ok]
    | throw m => simp only [Meth.lift_throw_bind]
    | ub u => simp only [Meth.lift_ub_bind]
    | fuel => simp only [Meth.lift_fuel_bind]
  · simp only [removeT, remove, Meth.get_bind, Tree.compareAll_ok, Meth.lift_ok_bind, Tree.said_ok]
  · exact Tree.insertAllT_ok q ask xs s

example : addT (fun a b : Nat => if a = 3 then .throw "no" else .ok (decide (a < b))) (fun x s => s.map (fun y => (y, x))) 2 [1, 3] =
    (.throw "no", [1, 3]) := by decide +kernel
example : combineAssignT (fun a b : Nat => if a = 3 then .throw "no" else .ok (decide (a < b))) (fun x s => s.map (fun y => (y, x)))
    true true true (some [2, 3]) [1, 5] = (.throw "no", [1, 5]) := by decide +kernel

end PSet

namespace PDict

variable {K V : Type}

theorem insertT_run (lt : K → K → Res Bool) (ask : Ask K V) (k : K) (v : V) (d : List (K × V)) :
    insertT lt ask k v d = (match Tree.compareAll lt (ask k d) with
      | .ok _ => (.ok (Tree.insert (keyLt (Tree.said lt)) (k, v) d).2, (Tree.insert (keyLt (Tree.said lt)) (k, v) d).1)
      | .throw m => (.throw m, d)
      | .ub u => (.ub u, d)
      | .fuel => (.fuel, d)) := by
  rw [insertT, Meth.get_bind, bind_run]
  cases Tree.compareAll lt (ask k d) <;> rfl

/-- C84 for `Dict`: all operations but `extend` change nothing when a comparison of keys throws. -/
theorem C84_dict_unchanged (lt : K → K → Res Bool) (ask : Ask K V) (d : List (K × V)) (k : K) (v : V) (m : String) :
    ((addT lt ask k v d).1 = .throw m → (addT lt ask k v d).2 = d) ∧
    ((removeT lt ask k d).1 = .throw m → (removeT lt ask k d).2 = d) ∧
    ((assignT lt ask k v d).1 = .throw m → (assignT lt ask k v d).2 = d) := by
  refine ⟨?_, ?_, ?_⟩
  · suffices h : NoEffect (addT lt ask k v) from h d m
    exact get_bind fun s => lift_bind fun _ => get_bind fun s => lift_bind fun _ => set_pure _ _
  · suffices h : NoEffect (removeT lt ask k) from h d m
    exact get_bind fun s => lift_bind fun _ => get_bind fun s => set_pure _ _
  · suffices h : NoEffect (assignT lt ask k v) from h d m
    exact get_bind fun s => lift_bind fun _ => get_bind fun s => lift_bind fun _ => lift_bind fun _ => set_noEffect _

/-- C84 for `Dict::extend`. -/
theorem C84_dict_extend (lt : K → K → Res Bool) (ask : Ask K V) (m : String) : ∀ (xs d : List (K × V)),
    (extendT lt ask xs d).1 = .throw m → ∃ a p b, xs = a ++ p :: b ∧
      (extendT lt ask xs d).2 = (extend (Tree.said lt) a d).2 ∧
      Tree.compareAll lt (ask p.1 (extend (Tree.said lt) a d).2) = .throw m
  | [], d, h => by cases h
  | (k, v) :: xs, d, h => by
    rw [extendT, bind_run, insertT_run] at h ⊢
    cases hc : Tree.compareAll lt (ask k d) with
    | ok _ =>
      rw [hc] at h
      simp only at h ⊢
      obtain ⟨a, p, b, e1, e2, e3⟩ := C84_dict_extend lt ask m xs _ h
      refine ⟨(k, v) :: a, p, b, by rw [e1]; rfl, ?_, ?_⟩
      · rw [e2]; rfl
      · exact e3
    | throw m' =>
      rw [hc] at h
      cases h
      exact ⟨[], (k, v), xs, rfl, rfl, hc⟩
    | ub u => rw [hc] at h; cases h
    | fuel => rw [hc] at h; cases h

/-- Without exceptions these are the functions of Model/Dict.lean. -/
theorem C84_dict_agree (q : K → K → Bool) (ask : Ask K V) (k : K) (v : V) (xs d : List (K × V)) :
    addT (fun a b => .ok (q a b)) ask k v d = add q k v d ∧
    removeT (fun a b => .ok (q a b)) ask k d = remove q k d ∧
    assignT (fun a b => .ok (q a b)) ask k v d = assign q k v d ∧
    extendT (fun a b => .ok (q a b)) ask xs d = extend q xs d := by
  refine ⟨?_, ?_, ?_, ?_⟩
  · simp only [addT, add, Meth.get_bind]
    generalize checkFull (size d) INT_MAX = r
    cases r with
    | ok u => simp only [Meth.lift_ok_bind, insertT, Meth.get_bind, Tree.compareAll_ok, Tree.said_ok]
    | throw m => simp only [Meth.lift_throw_bind]
    | ub u => simp only [Meth.lift_ub_bind]
    | fuel => simp only [Meth.lift_fuel_bind]
  · simp only [removeT, Meth.get_bind, Tree.compareAll_ok, Meth.lift_ok_bind, Tree.said_ok]
  · simp only [assignT, Meth.get_bind, Tree.compareAll_ok, Meth.lift_ok_bind, Tree.said_ok]
  · show _ = (Res.ok (), Tree.insertAll (keyLt q) xs d)
    induction xs generalizing d with
    | nil => rfl
    | cons p xs ih =>
      obtain ⟨k, v⟩ := p
      rw [extendT, bind_run, insertT_run, Tree.compareAll_ok]
      exact ih _

example : extendT (fun a b : Nat => if a = 3 then .throw "no" else .ok (decide (a < b))) (fun k d => d.map (fun p => (p.1, k)))
    [(3, 0), (2, 7)] [(1, 5)] = (.throw "no", [(1, 5), (3, 0)]) := by decide +kernel
example : removeT (fun a b : Nat => if a = 3 then .throw "no" else .ok (decide (a < b))) (fun k d => d.map (fun p => (p.1, k)))
    7 [(1, 5), (3, 0)] = (.throw "no", [(1, 5), (3, 0)]) := by decide +kernel

end PDict
end Pyincpp
