import Verif.Proof.List
import Mathlib.Tactic.Linarith
import Mathlib.Tactic.Ring

/-! # Loops of the model of `List`: `std::remove`, `std::copy_if`, rotation, slices, repetition, `uniquify` -/

namespace Pyincpp
namespace Lst

variable {α : Type}

/-! ## copy_if and remove -/

theorem drop_cons {v : List α} {i : Nat} (h : i < v.length) : v.drop i = v[i] :: v.drop (i + 1) :=
  List.drop_eq_getElem_cons h

theorem take_set_succ {v : List α} {r : Nat} {x : α} (h : r < v.length) :
    (v.set r x).take (r + 1) = v.take r ++ [x] := by
  rw [List.take_add_one, List.take_set_of_le (Nat.le_refl r)]
  simp [h]

theorem copyIfLoop_spec (p : α → Bool) : ∀ (n i res : Nat) (v : List α), i + n = v.length → res ≤ i →
    ∃ v', copyIfLoop p n i res v = .ok (res + ((v.drop i).filter p).length, v') ∧ v'.length = v.length ∧
      v'.take (res + ((v.drop i).filter p).length) = v.take res ++ (v.drop i).filter p
  | 0, i, res, v, h, _ => by
    have : v.drop i = [] := by simp; omega
    simp [copyIfLoop, this]
  | n + 1, i, res, v, h, hr => by
    have hi : i < v.length := by omega
    rw [copyIfLoop, vget_ok hi, Res.ok_bind, drop_cons hi]
    by_cases hp : p v[i]
    · rw [if_pos hp, vset_ok (by omega), Res.ok_bind]
      obtain ⟨v', e1, e2, e3⟩ := copyIfLoop_spec p n (i + 1) (res + 1) (v.set res v[i]) (by simp; omega) (by omega)
      rw [List.drop_set_of_lt (by omega)] at e1 e3
      refine ⟨v', ?_, by simpa using e2, ?_⟩
      · rw [e1, List.filter_cons_of_pos hp]; simp; omega
      · rw [List.filter_cons_of_pos hp, List.length_cons,
          show res + (((v.drop (i + 1)).filter p).length + 1) = res + 1 + ((v.drop (i + 1)).filter p).length by omega,
          e3, take_set_succ (by omega)]
        simp
    · rw [if_neg hp, List.filter_cons_of_neg hp]
      exact copyIfLoop_spec p n (i + 1) res v (by omega) (by omega)

theorem stdRemoveLoop_val [BEq α] (e : α) : ∀ (n i res : Nat) (v : List α),
    stdRemoveLoop (.val e) n i res v = copyIfLoop (fun x => !(x == e)) n i res v
  | 0, _, _, _ => rfl
  | n + 1, i, res, v => by
    rw [stdRemoveLoop, copyIfLoop]
    cases hx : vget v i with
    | ok x =>
      simp only [Res.ok_bind, Arg.read]
      by_cases h : x == e
      · simp [h, stdRemoveLoop_val e n]
      · simp only [h, Bool.not_false, if_true, Bool.false_eq_true, if_false]
        cases vset v res x with
        | ok y => simp [stdRemoveLoop_val e n]
        | _ => rfl
    | _ => rfl

theorem findIdx_take_filter [BEq α] (l : List α) (e : α) (h : l.findIdx (fun x => x == e) < l.length) :
    l.filter (fun x => !(x == e)) = l.take (l.findIdx (fun x => x == e)) ++
      (l.drop (l.findIdx (fun x => x == e) + 1)).filter (fun x => !(x == e)) := by
  have hx : (l[l.findIdx (fun x => x == e)] == e) = true := List.findIdx_getElem (w := h)
  conv_lhs => rw [← List.take_append_drop (l.findIdx (fun x => x == e)) l, List.filter_append]
  congr 1
  · rw [List.filter_eq_self]
    intro a ha
    obtain ⟨j, hj, rfl⟩ := List.getElem_of_mem ha
    have hj' : j < l.findIdx (fun x => x == e) := by rw [List.length_take] at hj; omega
    have := List.not_of_lt_findIdx hj'
    simpa using this
  · rw [drop_cons h, List.filter_cons_of_neg (by simp [hx])]

theorem stdErase_tail {v : List α} {r : Nat} (h : r ≤ v.length) : stdErase v r v.length = .ok (v.take r) := by
  simp [stdErase, h]

theorem removeAll_val [BEq α] {l : List α} {e : α} :
    removeAll (.val e) l = (.ok (), l.filter (fun x => !(x == e))) := by
  by_cases hnil : l = []
  · subst hnil; simp [removeAll, stdRemove, stdErase]
  have hle := List.findIdx_le_length (xs := l) (p := fun x => x == e)
  simp only [removeAll, stdRemove, Meth.get_bind, List.isEmpty_iff, hnil, if_false, Arg.read, Res.ok_bind, stdFind_all]
  by_cases h : l.findIdx (fun x => x == e) = l.length
  · simp only [h, if_true, Res.pure_eq, Meth.lift_ok_bind, Meth.set_bind, stdErase_tail (Nat.le_refl _), List.take_length,
      Meth.set_run]
    rw [List.filter_eq_self.2]
    intro a ha
    obtain ⟨j, hj, rfl⟩ := List.getElem_of_mem ha
    have hj' : j < l.findIdx (fun x => x == e) := by omega
    have := List.not_of_lt_findIdx hj'
    simpa using this
  · have hlt : l.findIdx (fun x => x == e) < l.length := by omega
    obtain ⟨v', e1, e2, e3⟩ := copyIfLoop_spec (fun x => !(x == e)) (l.length - (l.findIdx (fun x => x == e) + 1))
      (l.findIdx (fun x => x == e) + 1) (l.findIdx (fun x => x == e)) l (by omega) (by omega)
    simp only [h, if_false, stdRemoveLoop_val, e1, Meth.lift_ok_bind, Meth.set_bind]
    have hlen := congrArg List.length e3
    rw [stdErase_tail, Meth.lift_ok_bind, Meth.set_run, e3, findIdx_take_filter l e hlt]
    rw [e2]
    have := List.length_filter_le (fun x => !(x == e)) (l.drop (l.findIdx (fun x => x == e) + 1))
    simp only [List.length_drop] at this
    omega

theorem filter_lenient {l : List α} {p : α → Bool} : filter .lenient p l = (.ok (), l.filter p) := by
  obtain ⟨v', e1, e2, e3⟩ := copyIfLoop_spec p l.length 0 0 l (by omega) (by omega)
  simp only [List.drop_zero, Nat.zero_add, List.take_zero, List.nil_append] at e1 e3
  simp only [filter, Meth.get_bind, reduceCtorEq, false_and, if_false, e1, Meth.lift_ok_bind, Meth.set_bind]
  rw [stdErase_tail (by rw [e2]; exact List.length_filter_le ..), Meth.lift_ok_bind, Meth.set_run, e3]

/-! ### `std::remove` with a reference into the range -/

/-- Once the referenced cell has been rewritten it stays `w`. -/
theorem stdRemoveLoop_ref_after [BEq α] (p : Nat) (w : α) : ∀ (n i res : Nat) (v : List α), i + n = v.length →
    p < res → res ≤ i → v[p]? = some w → stdRemoveLoop (.ref p) n i res v = stdRemoveLoop (.val w) n i res v
  | 0, _, _, _, _, _, _, _ => rfl
  | n + 1, i, res, v, h, hp, hr, hw => by
    have hi : i < v.length := by omega
    rw [stdRemoveLoop, stdRemoveLoop, vget_ok hi]
    simp only [Res.ok_bind, Arg.read, vget, hw]
    split
    · exact stdRemoveLoop_ref_after p w n (i + 1) res v (by omega) hp (by omega) hw
    · rw [vset_ok (by omega), Res.ok_bind, Res.ok_bind]
      exact stdRemoveLoop_ref_after p w n (i + 1) (res + 1) _ (by simp; omega) (by omega) (by omega)
        (by rw [List.getElem?_set_ne (by omega)]; exact hw)

/-- As long as fewer than `p + 1` elements are kept, the referenced cell is not rewritten. -/
theorem stdRemoveLoop_ref_before [BEq α] (p : Nat) (e : α) : ∀ (n i res : Nat) (v : List α), i + n = v.length →
    res ≤ i → v[p]? = some e → res + ((v.drop i).filter (fun x => !(x == e))).length ≤ p →
    stdRemoveLoop (.ref p) n i res v = stdRemoveLoop (.val e) n i res v
  | 0, _, _, _, _, _, _, _ => rfl
  | n + 1, i, res, v, h, hr, hw, hc => by
    have hi : i < v.length := by omega
    rw [drop_cons hi] at hc
    rw [stdRemoveLoop, stdRemoveLoop, vget_ok hi]
    simp only [Res.ok_bind, Arg.read, vget, hw]
    by_cases hx : v[i] == e
    · rw [List.filter_cons_of_neg (by simp [hx])] at hc
      simp only [hx, if_true]
      exact stdRemoveLoop_ref_before p e n (i + 1) res v (by omega) (by omega) hw hc
    · rw [List.filter_cons_of_pos (by simp [hx]), List.length_cons] at hc
      simp only [hx, Bool.false_eq_true, if_false]
      rw [vset_ok (by omega), Res.ok_bind, Res.ok_bind]
      exact stdRemoveLoop_ref_before p e n (i + 1) (res + 1) _ (by simp; omega) (by omega)
        (by rw [List.getElem?_set_ne (by omega)]; exact hw)
        (by rw [List.drop_set_of_lt (by omega)]; omega)

/-- The whole run when the cell is rewritten by `w`, the element after `a`. -/
theorem stdRemoveLoop_ref_split [BEq α] (p : Nat) (e w : α) (b : List α) (hwe : (w == e) = false) :
    ∀ (a : List α) (i res : Nat) (v : List α),
    res ≤ i → v[p]? = some e → v.drop i = a ++ w :: b → res + (a.filter (fun x => !(x == e))).length = p →
    ∃ r v', stdRemoveLoop (.ref p) (a.length + (b.length + 1)) i res v = .ok (r, v') ∧ v'.length = v.length ∧
      r ≤ v.length ∧
      v'.take r = v.take res ++ a.filter (fun x => !(x == e)) ++ w :: b.filter (fun x => !(x == w))
  | [], i, res, v, hr, hw, hd, hp => by
    have hi : i < v.length := by
      rcases Nat.lt_or_ge i v.length with h | h
      · exact h
      · rw [List.drop_eq_nil_of_le h] at hd; simp at hd
    have hlen : i + (b.length + 1) = v.length := by
      have := congrArg List.length hd; simp at this; omega
    simp only [List.filter_nil, List.length_nil, Nat.add_zero] at hp
    subst hp
    rw [drop_cons hi] at hd
    simp only [List.nil_append, List.cons.injEq] at hd
    simp only [List.length_nil, Nat.zero_add]
    rw [stdRemoveLoop, vget_ok hi]
    simp only [Res.ok_bind, Arg.read, vget, hw, hd.1, hwe, Bool.false_eq_true, if_false]
    rw [vset_ok (by omega), Res.ok_bind,
      stdRemoveLoop_ref_after res w _ _ _ _ (by simp; omega) (by omega) (by omega)
        (by rw [List.getElem?_set_self (by omega)]), stdRemoveLoop_val]
    obtain ⟨v', e1, e2, e3⟩ := copyIfLoop_spec (fun x => !(x == w)) b.length (i + 1) (res + 1) (v.set res w)
      (by simp; omega) (by omega)
    rw [List.drop_set_of_lt (by omega), hd.2] at e1 e3
    refine ⟨_, v', e1, by simpa using e2, ?_, ?_⟩
    · have := List.length_filter_le (fun x => !(x == w)) b; omega
    · rw [e3, take_set_succ (by omega)]; simp
  | x :: a, i, res, v, hr, hw, hd, hp => by
    have hi : i < v.length := by
      rcases Nat.lt_or_ge i v.length with h | h
      · exact h
      · rw [List.drop_eq_nil_of_le h] at hd; simp at hd
    have hlen : i + (a.length + 1 + (b.length + 1)) = v.length := by
      have := congrArg List.length hd; simp at this; omega
    rw [drop_cons hi] at hd
    simp only [List.cons_append, List.cons.injEq] at hd
    rw [List.length_cons, show a.length + 1 + (b.length + 1) = (a.length + (b.length + 1)) + 1 by omega,
      stdRemoveLoop, vget_ok hi]
    simp only [Res.ok_bind, Arg.read, vget, hw, hd.1]
    by_cases hx : x == e
    · rw [List.filter_cons_of_neg (by simp [hx])] at hp ⊢
      simp only [hx, if_true]
      exact stdRemoveLoop_ref_split p e w b hwe a (i + 1) res v (by omega) hw hd.2 hp
    · rw [List.filter_cons_of_pos (by simp [hx])] at hp ⊢
      rw [List.length_cons] at hp
      simp only [hx, Bool.false_eq_true, if_false]
      rw [vset_ok (by omega), Res.ok_bind]
      obtain ⟨r, v', e1, e2, e4, e3⟩ := stdRemoveLoop_ref_split p e w b hwe a (i + 1) (res + 1) (v.set res x)
        (by omega) (by rw [List.getElem?_set_ne (by omega)]; exact hw)
        (by rw [List.drop_set_of_lt (by omega)]; exact hd.2) (by omega)
      refine ⟨r, v', e1, by simpa using e2, by simpa using e4, ?_⟩
      rw [e3, take_set_succ (by omega)]; simp

theorem filter_take_findIdx [BEq α] (l : List α) (e : α) :
    (l.take (l.findIdx (fun x => x == e))).filter (fun x => !(x == e)) = l.take (l.findIdx (fun x => x == e)) := by
  rw [List.filter_eq_self]
  intro a ha
  obtain ⟨j, hj, rfl⟩ := List.getElem_of_mem ha
  have hj' : j < l.findIdx (fun x => x == e) := by rw [List.length_take] at hj; omega
  have := List.not_of_lt_findIdx hj'
  simpa using this

/-- `l /= l[p]` when at most `p` elements differ from `l[p]`: as with an independent argument. -/
theorem removeAll_ref_good [BEq α] [LawfulBEq α] {l : List α} {p : Nat} {e : α} (hp : l[p]? = some e)
    (hc : (l.filter (fun x => !(x == e))).length ≤ p) :
    removeAll (.ref p) l = (.ok (), l.filter (fun x => !(x == e))) := by
  rw [← removeAll_val]
  have hnil : l ≠ [] := by rintro rfl; simp at hp
  have hlt : l.findIdx (fun x => x == e) < l.length :=
    List.findIdx_lt_length_of_exists ⟨e, List.mem_of_getElem? hp, by simp⟩
  rw [findIdx_take_filter l e hlt, List.length_append, List.length_take] at hc
  simp only [removeAll, stdRemove, Meth.get_bind, List.isEmpty_iff, hnil, if_false, Arg.read, Res.ok_bind, stdFind_all,
    vget, hp]
  rw [if_neg (by omega), stdRemoveLoop_ref_before p e _ _ _ _ (by omega) (by omega) hp (by omega), if_neg (by omega)]

/-- `l /= l[p]` in the remaining case: from the element after `w` on, the elements equal to `w` are removed instead of
those equal to `e`. -/
theorem removeAll_ref_bad [BEq α] [LawfulBEq α] {a b : List α} {p : Nat} {e w : α} (hp : (a ++ w :: b)[p]? = some e)
    (hw : w ≠ e) (hc : (a.filter (fun x => !(x == e))).length = p) :
    removeAll (.ref p) (a ++ w :: b) =
      (.ok (), a.filter (fun x => !(x == e)) ++ w :: b.filter (fun x => !(x == w))) := by
  have hwe : (w == e) = false := by simpa using hw
  set q := (a ++ w :: b).findIdx (fun x => x == e) with hq
  have hqp : q ≤ p := by
    rw [List.getElem?_eq_some_iff] at hp
    obtain ⟨h1, h2⟩ := hp
    by_contra hlt
    have := List.not_of_lt_findIdx (xs := a ++ w :: b) (p := fun x => x == e) (i := p) (by omega)
    simp [h2] at this
  have hpa : p ≤ a.length := by rw [← hc]; exact List.length_filter_le ..
  have hqa : q < a.length := by
    rcases Nat.lt_or_ge q a.length with h | h
    · exact h
    · exfalso
      have hpq : p = a.length := by omega
      rw [hpq, List.getElem?_append_right (Nat.le_refl _)] at hp
      simp at hp
      exact hw hp
  have hqe : (a[q] == e) = true := by
    have := List.findIdx_getElem (xs := a ++ w :: b) (p := fun x => x == e) (w := by rw [← hq]; simp; omega)
    simp only [← hq, List.getElem_append_left hqa] at this
    exact this
  have htake : a.take q = (a.take q).filter (fun x => !(x == e)) := by
    have := filter_take_findIdx (a ++ w :: b) e
    rw [← hq, List.take_append_of_le_length (by omega)] at this
    exact this.symm
  have hfilter : a.filter (fun x => !(x == e)) = a.take q ++ (a.drop (q + 1)).filter (fun x => !(x == e)) := by
    conv_lhs => rw [← List.take_append_drop q a, List.filter_append, ← htake, drop_cons hqa,
      List.filter_cons_of_neg (by simp [hqe])]
  obtain ⟨r, v', e1, e2, e4, e3⟩ := stdRemoveLoop_ref_split p e w b hwe (a.drop (q + 1)) (q + 1) q (a ++ w :: b)
    (by omega) hp (by rw [List.drop_append_of_le_length (by omega)])
    (by
      rw [← hc, hfilter, List.length_append, List.length_take]; omega)
  have hnil : a ++ w :: b ≠ [] := by simp
  simp only [removeAll, stdRemove, Meth.get_bind, List.isEmpty_iff, hnil, if_false, Arg.read, Res.ok_bind, stdFind_all,
    vget, hp, ← hq]
  rw [if_neg (by simp; omega)]
  rw [show (a ++ w :: b).length - (q + 1) = (a.drop (q + 1)).length + (b.length + 1) by simp; omega, e1,
    Meth.lift_ok_bind, Meth.set_bind, stdErase_tail (show r ≤ v'.length by omega), Meth.lift_ok_bind, Meth.set_run, e3, hfilter,
    List.take_append_of_le_length (by omega)]

/-! ## Rotation -/

theorem tmod_fix {n s : Int} (hs : 0 < s) : (if n.tmod s < 0 then n.tmod s + s else n.tmod s) = n % s := by
  have h1 := Int.emod_nonneg n (by omega : s ≠ 0)
  have h2 := Int.emod_lt_of_pos n hs
  rw [Int.tmod_eq_emod]
  split <;> split at * <;> omega

theorem imod_ok {n s : Int} (hn : IsInt n) (hs : 2 ≤ s) : imod n s = .ok (n.tmod s) := by
  unfold imod
  rw [if_neg (by omega), if_pos]
  have h1 : (n.tdiv s).natAbs ≤ n.natAbs := by
    rw [Int.natAbs_tdiv]; exact Nat.div_le_self _ _
  have h2 : (n.tdiv s).natAbs ≤ n.natAbs / 2 := by
    rw [Int.natAbs_tdiv]; exact Nat.div_le_div_left (by omega) (by omega)
  rw [isInt_iff] at *; omega

theorem rotated_short {l : List α} {n : Int} (h : l.length ≤ 1) : rotated l n = l := by
  match l, h with
  | [], _ => simp [rotated]
  | [x], _ => simp [rotated]

theorem rotL_run {l : List α} {n : Int} (h : l.length ≤ maxLen) (hn : IsInt n) :
    rotL n l = (.ok (), rotated l n) := by
  have hs : size l = l.length := size_eq h
  unfold rotL
  rw [Meth.get_bind, hs]
  by_cases h0 : (l.length : Int) ≤ 1 ∨ n = 0
  · rw [if_pos h0, Meth.pure_run]
    rcases h0 with h0 | h0
    · rw [rotated_short (by omega)]
    · subst h0; simp [rotated]
  · rw [if_neg h0]
    have h2 : (2 : Int) ≤ l.length := by omega
    have e1 := imod_ok hn h2
    have hm1 := Int.emod_nonneg n (by omega : (l.length : Int) ≠ 0)
    have hm2 := Int.emod_lt_of_pos n (by omega : (0 : Int) < l.length)
    have hfix := tmod_fix (n := n) (by omega : (0 : Int) < l.length)
    have e2 : (if n.tmod l.length < 0 then iadd (n.tmod l.length) l.length else (.ok (n.tmod l.length) : Res Int)) =
        .ok (n % l.length) := by
      split
      · rename_i hlt
        rw [if_pos hlt] at hfix
        rw [iadd_ok (by rw [isInt_iff]; unfold maxLen at h; omega), hfix]
      · rename_i hlt
        rw [if_neg hlt] at hfix
        rw [hfix]
    rw [e1, Meth.lift_ok_bind, e2, Meth.lift_ok_bind, iter_ok (by omega) (by omega), Meth.lift_ok_bind, Meth.set_run]
    rw [stdRotate, rotated, List.rotate_eq_drop_append_take (by omega)]

theorem rotated_congr {l : List α} {m n : Int} (h : m % (l.length : Int) = n % (l.length : Int)) :
    rotated l m = rotated l n := by
  unfold rotated; rw [h]

theorem rotR_run {l : List α} {n : Int} (h : l.length ≤ maxLen) (hn : IsInt n) (hmin : n ≠ INT_MIN ∨ l.length ≤ 1) :
    rotR n l = (.ok (), rotated l (-n)) := by
  have hs : size l = l.length := size_eq h
  rw [isInt_iff] at hn; unfold INT_MIN at hmin
  unfold rotR
  rw [Meth.get_bind, hs]
  by_cases h0 : (l.length : Int) ≤ 1 ∨ n = 0
  · rw [if_pos h0, Meth.pure_run]
    rcases h0 with h0 | h0
    · rw [rotated_short (by omega)]
    · subst h0; simp [rotated]
  · rw [if_neg h0]
    by_cases hneg : n < 0
    · have hi : IsInt (-n) := by rw [isInt_iff]; omega
      rw [if_pos hneg, ineg_ok hi, Meth.lift_ok_bind, rotL_run h hi]
    · unfold maxLen at h
      have hi : IsInt ((l.length : Int) - n) := by rw [isInt_iff]; omega
      rw [if_neg hneg, isub_ok hi, Meth.lift_ok_bind, rotL_run (by unfold maxLen; omega) hi]
      have hc : rotated l ((l.length : Int) - n) = rotated l (-n) := by
        apply rotated_congr
        rw [show (l.length : Int) - n = -n + l.length * 1 by ring, Int.add_mul_emod_self_left]
      rw [hc]

theorem rotR_min {l : List α} (h : l.length ≤ maxLen) (h2 : 2 ≤ l.length) :
    rotR INT_MIN l = (.ub .overflow, l) := by
  have hs : size l = l.length := size_eq h
  unfold rotR
  rw [Meth.get_bind, hs, if_neg (by unfold INT_MIN; omega), if_pos (by unfold INT_MIN; omega)]
  have : ineg INT_MIN = .ub .overflow := ck_ub (by rw [isInt_iff]; unfold INT_MIN; omega)
  rw [this, Meth.lift_ub_bind]

/-! ## erase -/

theorem erase_ok {l : List α} {a b : Int} (h : l.length < maxLen) (ha : 0 ≤ a) (hab : a ≤ b) (hb : b ≤ l.length) :
    erase a b l = (.ok (), l.take a.toNat ++ l.drop b.toNat) := by
  have hs : size l = l.length := size_eq (by omega)
  unfold maxLen at h
  have e2 : iadd (size l) 1 = .ok ((l.length : Int) + 1) := by rw [hs]; exact iadd_ok (by rw [isInt_iff]; omega)
  simp only [erase, Meth.get_bind, e2, Meth.lift_ok_bind, checkBounds_ok (i := a) (a := 0) (b := (l.length : Int) + 1) (by omega),
    checkBounds_ok (i := b) (a := 0) (b := (l.length : Int) + 1) (by omega), iter_ok (l := l) ha (by omega),
    iter_ok (l := l) (i := b) (by omega) hb, stdErase]
  rw [if_pos (by omega), Meth.lift_ok_bind, Meth.set_run]

theorem erase_throw {l : List α} {a b : Int} (h : l.length < maxLen)
    (hr : ¬ (0 ≤ a ∧ a ≤ l.length ∧ 0 ≤ b ∧ b ≤ l.length)) : erase a b l = (.throw msgIndex, l) := by
  have hs : size l = l.length := size_eq (by omega)
  unfold maxLen at h
  have e2 : iadd (size l) 1 = .ok ((l.length : Int) + 1) := by rw [hs]; exact iadd_ok (by rw [isInt_iff]; omega)
  simp only [erase, Meth.get_bind, e2, Meth.lift_ok_bind]
  by_cases ha : 0 ≤ a ∧ a < (l.length : Int) + 1
  · rw [checkBounds_ok ha, Meth.lift_ok_bind, checkBounds_throw (by omega), Meth.lift_throw_bind]
  · rw [checkBounds_throw ha, Meth.lift_throw_bind]

theorem erase_backwards {l : List α} {a b : Int} (h : l.length < maxLen) (hb : 0 ≤ b) (hab : b < a) (ha : a ≤ l.length) :
    erase a b l = (.ub .badRange, l) := by
  have hs : size l = l.length := size_eq (by omega)
  unfold maxLen at h
  have e2 : iadd (size l) 1 = .ok ((l.length : Int) + 1) := by rw [hs]; exact iadd_ok (by rw [isInt_iff]; omega)
  simp only [erase, Meth.get_bind, e2, Meth.lift_ok_bind, checkBounds_ok (i := a) (a := 0) (b := (l.length : Int) + 1) (by omega),
    checkBounds_ok (i := b) (a := 0) (b := (l.length : Int) + 1) (by omega), iter_ok (l := l) (i := a) (by omega) ha,
    iter_ok (l := l) (i := b) hb (by omega), stdErase]
  rw [if_neg (by omega), Meth.lift_ub_bind]

theorem erase_max {l : List α} {a b : Int} (h : l.length = maxLen) : erase a b l = (.ub .overflow, l) := by
  have hs : size l = INT_MAX := by rw [size_eq (by omega), h]; unfold maxLen INT_MAX; omega
  have e2 : iadd (size l) 1 = .ub .overflow := by rw [hs]; exact ck_ub (by rw [isInt_iff]; unfold INT_MAX; omega)
  simp only [erase, Meth.get_bind, e2, Meth.lift_ub_bind]

end Lst
end Pyincpp
