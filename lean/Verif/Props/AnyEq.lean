import Verif.Props.List
import Verif.Props.Compare
import Verif.Model.Dict
import Verif.Props.ComplexEqual

/-! # Lists whose elements have any `==` (C96)

`index`, `find`, `contains`, `count`, `-=`, `/=`, `uniquify` and `==` of lists call `==` of the elements. Nothing obliges that function to be an
equivalence: a `double` may be NaN, which differs from itself, and `==` of `Complex` allows a small difference, so that it is not transitive. Here `==` is any
function. -/

namespace Pyincpp

open Lst

variable {α : Type}

/-- For the examples: an `==` that allows a difference of one. -/
abbrev near : BEq Int := ⟨fun a b => decide ((a - b).natAbs ≤ 1)⟩

/-! ## Searching -/

/-- C96, `index`: the first position of the range whose element `x` has `x == e`. -/
theorem C96_index [BEq α] (l : List α) (e : α) (start stop : Int) (hl : l.length ≤ maxLen) (h1 : 0 ≤ start) (h2 : start ≤ min stop l.length) :
    (Lst.index l e start stop = .ok (-1) ∧ ∀ (i : Nat) (x : α), start ≤ i → (i : Int) < stop → l[i]? = some x → (x == e) = false) ∨
    ∃ (p : Nat) (x : α), Lst.index l e start stop = .ok p ∧ start ≤ p ∧ (p : Int) < stop ∧ l[p]? = some x ∧ (x == e) = true ∧
      ∀ (i : Nat) (y : α), start ≤ i → i < p → l[i]? = some y → (y == e) = false := by
  obtain ⟨b, hb⟩ : ∃ b : Nat, (b : Int) = if stop > l.length then (l.length : Int) else stop :=
    ⟨(if stop > l.length then (l.length : Int) else stop).toNat, by split <;> omega⟩
  obtain ⟨a, rfl⟩ : ∃ a : Nat, start = a := ⟨start.toNat, by omega⟩
  have hbl : b ≤ l.length ∧ (b : Int) ≤ stop ∧ a ≤ b := by split at hb <;> omega
  unfold Lst.index
  rw [size_eq hl, ← hb, iter_ok (by omega) (by omega), Res.ok_bind, iter_ok (by omega) (by omega), Res.ok_bind]
  simp only [Int.toNat_natCast, stdFind]
  rw [if_pos ⟨hbl.2.2, hbl.1⟩, Res.ok_bind]
  set q := ((l.drop a).take (b - a)).findIdx (fun x => x == e) with hq
  have hlen : ((l.drop a).take (b - a)).length = b - a := by simp; omega
  have hqle : q ≤ b - a := by rw [← hlen]; exact List.findIdx_le_length
  have hat : ∀ j, j < b - a → ((l.drop a).take (b - a))[j]? = l[a + j]? := by
    intro j hj; rw [List.getElem?_take_of_lt hj, List.getElem?_drop]
  have hbefore : ∀ (i : Nat) (x : α), a ≤ i → i < a + q → l[i]? = some x → (x == e) = false := by
    intro i x h1 h2 h3
    have h4 : i - a < q := by omega
    have := List.not_of_lt_findIdx (xs := (l.drop a).take (b - a)) (p := fun x => x == e) h4
    have h5 := hat (i - a) (by omega)
    rw [show a + (i - a) = i by omega, h3, List.getElem?_eq_getElem (by omega)] at h5
    rw [Option.some.inj h5] at this
    simpa using this
  by_cases h : a + q = b
  · refine Or.inl ⟨by rw [if_pos h]; rfl, fun i x hi1 hi2 hx => ?_⟩
    have hib : i < l.length := (List.getElem?_eq_some_iff.1 hx).1
    exact hbefore i x (by omega) (by split at hb <;> omega) hx
  · have hqlt : q < ((l.drop a).take (b - a)).length := by omega
    have h6 := List.findIdx_getElem (xs := (l.drop a).take (b - a)) (p := fun x => x == e) (w := by rw [← hq]; exact hqlt)
    simp only [← hq] at h6
    refine Or.inr ⟨a + q, ((l.drop a).take (b - a))[q], ?_, by omega, by omega, ?_, h6, fun i y h1 h2 => hbefore i y (by omega) h2⟩
    · rw [if_neg h, wrap32_eq (by rw [isInt_iff]; unfold maxLen at hl; omega)]; rfl
    · rw [← hat q (by omega), List.getElem?_eq_getElem hqlt]

example : @Lst.index Int near [7, 4, 2, 1, 3] 2 3 5 = .ok 3 ∧ @Lst.index Int near [7, 4, 2, 1, 3] 9 0 4 = .ok (-1) := by decide +kernel

/-- C96, `contains`: whether the range has an `x` with `x == e`. -/
theorem C96_contains [BEq α] (l : List α) (e : α) (start stop : Int) (hl : l.length ≤ maxLen) (h1 : 0 ≤ start) (h2 : start ≤ min stop l.length) :
    ∃ b, Lst.contains l e start stop = .ok b ∧
      (b = true ↔ ∃ (i : Nat) (x : α), start ≤ i ∧ (i : Int) < stop ∧ l[i]? = some x ∧ (x == e) = true) := by
  unfold Lst.contains
  rcases C96_index l e start stop hl h1 h2 with ⟨h, hn⟩ | ⟨p, x, h, ha, hb, hx, he, -⟩
  · rw [h]
    refine ⟨false, rfl, iff_of_false (by simp) ?_⟩
    rintro ⟨i, x, ha, hb, hx, he⟩
    rw [hn i x ha hb hx] at he
    exact Bool.noConfusion he
  · rw [h]
    refine ⟨true, ?_, iff_of_true rfl ⟨p, x, ha, hb, hx, he⟩⟩
    show Res.ok ((p : Int) != -1) = .ok true
    congr 1

example : @Lst.contains Int near [7, 4] 5 0 2 = .ok true ∧ @Lst.contains Int near [7, 4] 5 0 1 = .ok false := by decide +kernel

/-- C96, `find` and `count`: the first position, `length` if there is none, and the number of positions. -/
theorem C96_find_count [BEq α] (l : List α) (e : α) :
    (∃ p, Lst.find l e = .ok p ∧ p ≤ l.length ∧ (∀ x, l[p]? = some x → (x == e) = true) ∧
      ∀ (i : Nat) (x : α), i < p → l[i]? = some x → (x == e) = false) ∧
    (l.length ≤ maxLen → Lst.count l e = ((l.filter (fun x => x == e)).length : Int)) := by
  refine ⟨⟨_, stdFind_all l e, List.findIdx_le_length, fun x hx => ?_, fun i x hi hx => ?_⟩, fun hl => ?_⟩
  · obtain ⟨h, rfl⟩ := List.getElem?_eq_some_iff.1 hx
    exact List.findIdx_getElem (p := fun x => x == e) (w := h)
  · obtain ⟨h, rfl⟩ := List.getElem?_eq_some_iff.1 hx
    have := List.not_of_lt_findIdx (p := fun x => x == e) hi
    simpa using this
  · unfold Lst.count
    have h2 : l.countP (fun x => x == e) ≤ l.length := List.countP_le_length
    rw [List.countP_eq_length_filter] at h2 ⊢
    exact wrap32_eq (by rw [isInt_iff]; unfold maxLen at hl; omega)

example : @Lst.find Int near [7, 4, 2, 1] 1 = .ok 2 ∧ @Lst.count Int near [7, 4, 2, 1] 1 = 2 := by decide +kernel

/-! ## Removing -/

/-- C96, `-=`: the first `x` with `x == e` goes; without one nothing happens. -/
theorem C96_remove_first [BEq α] (l : List α) (e : α) :
    ((∀ x ∈ l, (x == e) = false) → removeFirst e l = (.ok (), l)) ∧
    (∀ a x b, l = a ++ x :: b → (x == e) = true → (∀ y ∈ a, (y == e) = false) → removeFirst e l = (.ok (), a ++ b)) := by
  constructor
  · intro h
    have hn : l.findIdx (fun x => x == e) = l.length := by
      rw [List.findIdx_eq_length]; exact h
    simp only [removeFirst, Lst.find, Meth.get_bind, stdFind_all, Meth.lift_ok_bind, hn, ne_eq, not_true_eq_false, if_false, Meth.pure_run]
  · rintro a x b rfl hx ha
    have hn : (a ++ x :: b).findIdx (fun x => x == e) = a.length := by
      rw [List.findIdx_append, List.findIdx_eq_length.2 ha, if_neg (by omega)]
      simp [List.findIdx_cons, hx]
    simp only [removeFirst, Lst.find, Meth.get_bind, stdFind_all, Meth.lift_ok_bind, hn]
    rw [if_pos (by simp), stdErase, if_pos ⟨by omega, by simp⟩, Meth.lift_ok_bind, Meth.set_run]
    simp

example : @removeFirst Int near 3 [7, 4, 2, 1] = (.ok (), [7, 2, 1]) := by decide +kernel

/-- C96, `/=` of a value outside the list: every `x` with `x == e` goes. -/
theorem C96_remove_all [BEq α] (l : List α) (e : α) :
    removeAll (.val e) l = (.ok (), l.filter (fun x => !(x == e))) ∧ Lst.divide l e = .ok (l.filter (fun x => !(x == e))) := by
  refine ⟨removeAll_val, ?_⟩
  simp [Lst.divide, Lst.onCopy, removeAll_val]

example : @removeAll Int near (.val 3) [7, 4, 2, 1] = (.ok (), [7, 1]) := by decide +kernel

/-- C96, `/=` of an element of the list, `l /= l[p]`, in full. It is as with an independent value if at most `p` elements stay, or if the first `p + 1` elements
all stay. Otherwise position `p` gets the `p + 1`-st element that stays, `w`, and from there on the elements `x` with `x == w` go. One of the three cases applies. -/
theorem C96_remove_all_self [BEq α] (l : List α) (p : Nat) (e : α) (hp : l[p]? = some e) :
    ((l.filter (fun x => !(x == e))).length ≤ p → removeAll (.ref p) l = (.ok (), l.filter (fun x => !(x == e)))) ∧
    ((∀ x ∈ l.take (p + 1), (x == e) = false) → removeAll (.ref p) l = (.ok (), l.filter (fun x => !(x == e)))) ∧
    (∀ a w b, l = a ++ w :: b → (w == e) = false → (a.filter (fun x => !(x == e))).length = p → p < a.length →
      removeAll (.ref p) l = (.ok (), a.filter (fun x => !(x == e)) ++ w :: b.filter (fun x => !(x == w)))) ∧
    ((l.filter (fun x => !(x == e))).length ≤ p ∨ (∀ x ∈ l.take (p + 1), (x == e) = false) ∨
      ∃ a w b, l = a ++ w :: b ∧ (w == e) = false ∧ (a.filter (fun x => !(x == e))).length = p ∧ p < a.length) := by
  have hnil : l ≠ [] := by rintro rfl; simp at hp
  have hpl : p < l.length := (List.getElem?_eq_some_iff.1 hp).1
  refine ⟨fun hc => ?_, fun hc => ?_, ?_, ?_⟩
  · rw [← removeAll_val]
    simp only [removeAll, stdRemove, Meth.get_bind, List.isEmpty_iff, hnil, if_false, Arg.read, Res.ok_bind, stdFind_all, vget, hp]
    by_cases hq : l.findIdx (fun x => x == e) = l.length
    · rw [if_pos hq, if_pos hq]
    · have hlt : l.findIdx (fun x => x == e) < l.length := lt_of_le_of_ne List.findIdx_le_length hq
      rw [findIdx_take_filter l e hlt, List.length_append, List.length_take] at hc
      rw [if_neg hq, stdRemoveLoop_ref_before p e _ _ _ _ (by omega) (by omega) hp (by omega), if_neg hq]
  · rw [← removeAll_val]
    simp only [removeAll, stdRemove, Meth.get_bind, List.isEmpty_iff, hnil, if_false, Arg.read, Res.ok_bind, stdFind_all, vget, hp]
    by_cases hq : l.findIdx (fun x => x == e) = l.length
    · rw [if_pos hq, if_pos hq]
    · have hlt : l.findIdx (fun x => x == e) < l.length := lt_of_le_of_ne List.findIdx_le_length hq
      have hgt : p < l.findIdx (fun x => x == e) := by
        by_contra hle
        have h1 := List.findIdx_getElem (p := fun x => x == e) (w := hlt)
        have h2 := hc l[l.findIdx (fun x => x == e)] (by
          rw [List.mem_take_iff_getElem]
          exact ⟨_, by omega, rfl⟩)
        rw [h1] at h2
        exact Bool.noConfusion h2
      rw [if_neg hq, stdRemoveLoop_ref_after p e _ _ _ _ (by omega) hgt (by omega) hp, if_neg hq]
  · rintro a w b rfl hwe hc hpa
    set q := (a ++ w :: b).findIdx (fun x => x == e) with hq
    have hqa : q < a.length := by
      obtain ⟨x, hx, hxe⟩ : ∃ x ∈ a, (x == e) = true := by
        by_contra hno
        have : a.filter (fun x => !(x == e)) = a := by
          rw [List.filter_eq_self]
          intro x hx
          by_contra h
          exact hno ⟨x, hx, by simpa using h⟩
        rw [this] at hc
        omega
      rw [hq, List.findIdx_append]
      have := List.findIdx_lt_length_of_exists (xs := a) (p := fun x => x == e) ⟨x, hx, hxe⟩
      rw [if_pos this]
      exact this
    have hqe : (a[q] == e) = true := by
      have := List.findIdx_getElem (xs := a ++ w :: b) (p := fun x => x == e) (w := by rw [← hq]; simp; omega)
      simp only [← hq, List.getElem_append_left hqa] at this
      exact this
    have htake : a.take q = (a.take q).filter (fun x => !(x == e)) := by
      have := filter_take_findIdx (a ++ w :: b) e
      rw [← hq, List.take_append_of_le_length (by omega)] at this
      exact this.symm
    have hfilter : a.filter (fun x => !(x == e)) = a.take q ++ (a.drop (q + 1)).filter (fun x => !(x == e)) := by
      conv_lhs => rw [← List.take_append_drop q a, List.filter_append, ← htake, drop_cons hqa,
        List.filter_cons_of_neg (by simp [hqe])]
    obtain ⟨r, v', e1, e2, e4, e3⟩ := stdRemoveLoop_ref_split p e w b hwe (a.drop (q + 1)) (q + 1) q (a ++ w :: b)
      (by omega) hp (by rw [List.drop_append_of_le_length (by omega)])
      (by
        rw [← hc, hfilter, List.length_append, List.length_take]; omega)
    simp only [removeAll, stdRemove, Meth.get_bind, List.isEmpty_iff, hnil, if_false, Arg.read, Res.ok_bind, stdFind_all,
      vget, hp, ← hq]
    rw [if_neg (by simp; omega)]
    rw [show (a ++ w :: b).length - (q + 1) = (a.drop (q + 1)).length + (b.length + 1) by simp; omega, e1,
      Meth.lift_ok_bind, Meth.set_bind, stdErase_tail (show r ≤ v'.length by omega), Meth.lift_ok_bind, Meth.set_run, e3, hfilter,
      List.take_append_of_le_length (by omega)]
  · rcases Nat.lt_or_ge p (l.filter (fun x => !(x == e))).length with h | h
    swap
    · exact Or.inl h
    have key : ∀ (m : List α) (n : Nat), n < (m.filter (fun x => !(x == e))).length →
        ∃ a w b, m = a ++ w :: b ∧ (w == e) = false ∧ (a.filter (fun x => !(x == e))).length = n := by
      intro m
      induction m with
      | nil => intro n hn; simp at hn
      | cons x m ih =>
        intro n hn
        by_cases hx : x == e
        · rw [List.filter_cons_of_neg (by simp [hx])] at hn
          obtain ⟨a, w, b, rfl, h1, h2⟩ := ih n hn
          exact ⟨x :: a, w, b, rfl, h1, by rw [List.filter_cons_of_neg (by simp [hx])]; exact h2⟩
        · rw [List.filter_cons_of_pos (by simp [hx]), List.length_cons] at hn
          cases n with
          | zero => exact ⟨[], x, m, rfl, by simpa using hx, rfl⟩
          | succ n =>
            obtain ⟨a, w, b, rfl, h1, h2⟩ := ih n (by omega)
            exact ⟨x :: a, w, b, rfl, h1, by rw [List.filter_cons_of_pos (by simp [hx]), List.length_cons, h2]⟩
    obtain ⟨a, w, b, rfl, h1, h2⟩ := key l p h
    rcases Nat.lt_or_ge p a.length with h3 | h3
    · exact Or.inr (Or.inr ⟨a, w, b, rfl, h1, h2, h3⟩)
    · have h4 : (a.filter (fun x => !(x == e))).length = a.length := le_antisymm (List.length_filter_le ..) (by omega)
      rw [List.length_filter_eq_length_iff] at h4
      refine Or.inr (Or.inl fun x hx => ?_)
      have h5 : p = a.length := by
        have := List.length_filter_le (fun x => !(x == e)) a
        omega
      rw [h5, List.take_append, List.take_of_length_le (by omega)] at hx
      simp only [Nat.add_sub_cancel_left, List.take_succ_cons, List.take_zero, List.mem_append, List.mem_singleton] at hx
      rcases hx with hx | rfl
      · simpa using h4 x hx
      · exact h1

example : @removeAll Int near (.ref 0) [2, 4, 3, 5, 1, 9] = (.ok (), [4, 1, 9]) ∧ @removeAll Int ⟨fun a b => decide (a + b = 6)⟩ (.ref 0) [2, 3, 4, 4, 2] = (.ok (), [2, 3, 2]) ∧
    @removeAll Int near (.ref 3) [2, 3, 1, 2] = (.ok (), []) := by decide +kernel

/-! ## `uniquify` -/

/-- The elements at the positions that `keep` marks. -/
def marked (keep : Nat → Bool) (l : List α) : List α := (l.zipIdx.filter (fun x => keep x.2)).map Prod.fst

theorem marked_append (keep : Nat → Bool) (l : List α) (e : α) :
    marked keep (l ++ [e]) = marked keep l ++ if keep l.length then [e] else [] := by
  simp only [marked, List.zipIdx_append, List.filter_append, List.map_append]
  congr 1
  by_cases h : keep l.length <;> simp [h]

theorem mem_marked (keep : Nat → Bool) (l : List α) (x : α) : x ∈ marked keep l ↔ ∃ i, keep i = true ∧ l[i]? = some x := by
  simp only [marked, List.mem_map, List.mem_filter, Prod.exists, exists_and_right, exists_eq_right, List.mem_zipIdx_iff_getElem?]
  exact ⟨fun ⟨i, h, k⟩ => ⟨i, k, h⟩, fun ⟨i, k, h⟩ => ⟨i, h, k⟩⟩

theorem marked_congr {k k' : Nat → Bool} {l : List α} (h : ∀ i, i < l.length → k i = k' i) : marked k l = marked k' l := by
  unfold marked
  congr 1
  apply List.filter_congr
  rintro ⟨x, i⟩ hx
  rw [List.mem_zipIdx_iff_getElem?] at hx
  exact h i (List.getElem?_eq_some_iff.1 hx).1

theorem marked_sublist (keep : Nat → Bool) (l : List α) : (marked keep l).Sublist l := by
  have := (List.filter_sublist (l := l.zipIdx) (p := fun x => keep x.2)).map Prod.fst
  rwa [List.zipIdx_map_fst] at this

theorem uniquifyLoop_snoc [BEq α] (l : List α) (e : α) : ∀ buf r, uniquifyLoop l buf = .ok r →
    uniquifyLoop (l ++ [e]) buf = .ok (if r.findIdx (fun x => x == e) = r.length then r ++ [e] else r) := by
  induction l with
  | nil =>
    intro buf r h
    simp only [uniquifyLoop] at h
    cases h
    simp only [List.nil_append, uniquifyLoop, stdFind_all, Res.ok_bind]
  | cons x l ih =>
    intro buf r h
    simp only [uniquifyLoop, stdFind_all, Res.ok_bind, List.cons_append] at h ⊢
    exact ih _ _ h

/-- C96, `uniquify`: an element stays exactly if no element `x` that stays before it has `x == e`. -/
theorem C96_uniquify [BEq α] (l : List α) : ∃ keep : Nat → Bool, uniquify l = (.ok (), marked keep l) ∧
    ∀ i e, l[i]? = some e → (keep i = true ↔ ∀ j x, j < i → keep j = true → l[j]? = some x → (x == e) = false) := by
  suffices h : ∃ keep : Nat → Bool, uniquifyLoop l [] = .ok (marked keep l) ∧
      ∀ i e, l[i]? = some e → (keep i = true ↔ ∀ j x, j < i → keep j = true → l[j]? = some x → (x == e) = false) by
    obtain ⟨keep, h1, h2⟩ := h
    refine ⟨keep, ?_, h2⟩
    simp only [uniquify, Meth.get_bind, h1, Meth.lift_ok_bind, Meth.set_run]
  induction l using List.reverseRecOn with
  | nil => exact ⟨fun _ => false, rfl, by simp⟩
  | append_singleton l e ih =>
    obtain ⟨keep, h1, h2⟩ := ih
    let b := decide ((marked keep l).findIdx (fun x => x == e) = (marked keep l).length)
    have hb : b = true ↔ ∀ x ∈ marked keep l, (x == e) = false := by
      simp only [b, decide_eq_true_eq, List.findIdx_eq_length]
    have hlt : ∀ i, i < l.length → (if i = l.length then b else keep i) = keep i := fun i hi => if_neg (by omega)
    have hm : marked (fun i => if i = l.length then b else keep i) l = marked keep l := marked_congr hlt
    refine ⟨fun i => if i = l.length then b else keep i, ?_, ?_⟩
    · rw [uniquifyLoop_snoc l e _ _ h1, marked_append, hm]
      congr 1
      simp only [if_true, b, decide_eq_true_eq]
      split <;> simp
    · intro i e' hi
      rcases Nat.lt_or_ge i l.length with hil | hil
      · rw [List.getElem?_append_left hil] at hi
        simp only [hlt i hil]
        rw [h2 i e' hi]
        constructor
        · intro h j x hj hk hx
          rw [List.getElem?_append_left (by omega)] at hx
          rw [hlt j (by omega)] at hk
          exact h j x hj hk hx
        · intro h j x hj hk hx
          exact h j x hj (by rw [hlt j (by omega)]; exact hk) (by rw [List.getElem?_append_left (by omega)]; exact hx)
      · have hi' : i = l.length := by
          have := (List.getElem?_eq_some_iff.1 hi).1
          simp at this
          omega
        subst hi'
        rw [List.getElem?_append_right (le_refl _)] at hi
        simp at hi
        subst hi
        simp only [if_true]
        rw [hb]
        constructor
        · intro h j x hj hk hx
          rw [List.getElem?_append_left hj] at hx
          rw [hlt j hj] at hk
          exact h x ((mem_marked keep l x).2 ⟨j, hk, hx⟩)
        · intro h x hx
          obtain ⟨j, hk, hj⟩ := (mem_marked keep l x).1 hx
          have hjl := (List.getElem?_eq_some_iff.1 hj).1
          exact h j x hjl (by rw [hlt j hjl]; exact hk) (by rw [List.getElem?_append_left hjl]; exact hj)

/-- C96, `uniquify`: the result is part of the list, in order; none of it is `==` a later one; and for each element that went an `x` that stayed has `x == e`. -/
theorem C96_uniquify_result [BEq α] (l : List α) : ∃ r, uniquify l = (.ok (), r) ∧ r.Sublist l ∧ r.Pairwise (fun x y => (x == y) = false) ∧
    ∀ e ∈ l, e ∈ r ∨ ∃ x ∈ r, (x == e) = true := by
  obtain ⟨keep, h1, h2⟩ := C96_uniquify l
  refine ⟨_, h1, marked_sublist keep l, ?_, ?_⟩
  · unfold marked
    rw [List.pairwise_map, List.pairwise_filter]
    rw [List.pairwise_iff_getElem]
    intro i j hi hj hij
    simp only [List.length_zipIdx] at hi hj
    simp only [List.getElem_zipIdx, Nat.zero_add]
    intro ki kj
    exact (h2 j l[j] (List.getElem?_eq_getElem hj)).1 kj i l[i] hij ki (List.getElem?_eq_getElem hi)
  · intro e he
    obtain ⟨i, hi, rfl⟩ := List.getElem_of_mem he
    by_cases hk : keep i = true
    · exact Or.inl ((mem_marked keep l _).2 ⟨i, hk, List.getElem?_eq_getElem hi⟩)
    · right
      have := mt (h2 i l[i] (List.getElem?_eq_getElem hi)).2 hk
      push Not at this
      obtain ⟨j, x, -, kj, hx, hxe⟩ := this
      exact ⟨x, (mem_marked keep l x).2 ⟨j, kj, hx⟩, by simpa using hxe⟩

example : @uniquify Int near [1, 2, 3, 4, 0, 7, 5] = (.ok (), [1, 3, 7, 5]) ∧ @uniquify Int near [2, 1, 3, 4] = (.ok (), [2, 4]) := by decide +kernel

/-! ## Equality of lists and deques -/

theorem eqLoop_iff (eq : α → α → Bool) : ∀ l m : List α, l.length = m.length →
    (Cmp.eqLoop eq l m = true ↔ ∀ (i : Nat) (a b : α), l[i]? = some a → m[i]? = some b → eq a b = true)
  | [], m, _ => by simp [Cmp.eqLoop]
  | a :: l, [], h => by simp at h
  | a :: l, b :: m, h => by
    have ih := eqLoop_iff eq l m (by simpa using h)
    unfold Cmp.eqLoop
    by_cases hab : eq a b = true
    · rw [hab]
      simp only [Bool.not_true, Bool.false_eq_true, if_false]
      rw [ih]
      constructor
      · intro hh i x y hx hy
        cases i with
        | zero => simp at hx hy; subst hx; subst hy; exact hab
        | succ i => exact hh i x y (by simpa using hx) (by simpa using hy)
      · intro hh i x y hx hy
        exact hh (i + 1) x y (by simpa using hx) (by simpa using hy)
    · simp only [hab]
      refine iff_of_false (by simp) fun hh => hab (hh 0 a b rfl rfl)

/-- C96, `==` of lists and of deques: the lengths are equal and so are the elements at each position. -/
theorem C96_equal (eq : α → α → Bool) (l m : List α) : Cmp.seqEq eq l m = true ↔
    l.length = m.length ∧ ∀ (i : Nat) (a b : α), l[i]? = some a → m[i]? = some b → eq a b = true := by
  unfold Cmp.seqEq
  rw [Bool.and_eq_true, beq_iff_eq]
  exact and_congr_right fun h => eqLoop_iff eq l m h

example : Cmp.seqEq near.beq [1, 5] [2, 4] = true ∧ Cmp.seqEq near.beq [1, 5] [2, 7] = false := by decide +kernel

theorem list_beq_seqEq [BEq α] : ∀ l m : List α, (l == m) = Cmp.seqEq (fun a b => a == b) l m
  | [], [] => rfl
  | [], b :: m => rfl
  | a :: l, [] => rfl
  | a :: l, b :: m => by
    have ih := list_beq_seqEq l m
    rw [List.cons_beq_cons, ih]
    unfold Cmp.seqEq
    rw [Cmp.eqLoop]
    by_cases hab : (a == b) = true <;> simp [hab]

/-- C96, `==` of sets and of dictionaries: the same, going through the elements in order; pairs are equal if the keys and the values are. -/
theorem C96_equal_tree {K V : Type} [BEq K] [BEq V] (s t : List K) (d e : List (K × V)) :
    (PSet.eq s t = true ↔ s.length = t.length ∧ ∀ (i : Nat) (a b : K), s[i]? = some a → t[i]? = some b → (a == b) = true) ∧
    (PDict.eq d e = true ↔ d.length = e.length ∧ ∀ (i : Nat) (a b : K × V), d[i]? = some a → e[i]? = some b →
      (a.1 == b.1) = true ∧ (a.2 == b.2) = true) := by
  constructor
  · rw [PSet.eq, list_beq_seqEq, C96_equal]
  · rw [PDict.eq, list_beq_seqEq, C96_equal]
    have h : ∀ a b : K × V, (a == b) = true ↔ (a.1 == b.1) = true ∧ (a.2 == b.2) = true := fun a b => Bool.and_eq_true _ _ ▸ Iff.rfl
    simp only [h]

example : @PDict.eq Int Int near near [(1, 5), (4, 6)] [(2, 4), (4, 7)] = true ∧ @PSet.eq Int near [1, 4] [1, 6] = false := by decide +kernel

/-! ## NaN -/

section NaN

/-- `==` of `double`. -/
local instance : BEq Dbl := ⟨Dbl.eq⟩

theorem beq_nan (x : Dbl) : (x == Dbl.nan) = false := by
  show Dbl.eq x Dbl.nan = false
  cases x <;> rfl

theorem nan_beq (x : Dbl) : (Dbl.nan == x) = false := by
  show Dbl.eq Dbl.nan x = false
  cases x <;> rfl

theorem dbl_beq (x y : Dbl) : (x == y) = true ↔ x = y ∧ x ≠ Dbl.nan := by
  show Dbl.eq x y = true ↔ _
  cases x <;> cases y <;> simp [Dbl.eq]

/-- C96, a NaN is never found, counted or removed, also by the element itself. -/
theorem C96_nan_found (l : List Dbl) :
    Lst.find l Dbl.nan = .ok l.length ∧ Lst.count l Dbl.nan = 0 ∧ removeFirst Dbl.nan l = (.ok (), l) ∧
    removeAll (.val Dbl.nan) l = (.ok (), l) ∧ (∀ p : Nat, l[p]? = some Dbl.nan → removeAll (.ref p) l = (.ok (), l)) ∧
    (l.length ≤ maxLen → Lst.index l Dbl.nan = .ok (-1) ∧ Lst.contains l Dbl.nan = .ok false) := by
  have hf : l.filter (fun x => !(x == Dbl.nan)) = l := by
    rw [List.filter_eq_self]
    intro x _
    rw [beq_nan]; rfl
  refine ⟨?_, ?_, (C96_remove_first l _).1 fun x _ => beq_nan x, ?_, fun p hp => ?_, fun hl => ?_⟩
  · rw [Lst.find, stdFind_all, List.findIdx_eq_length.2 fun x _ => beq_nan x]
  · simp only [Lst.count, beq_nan]
    rw [List.countP_eq_zero.2 (by simp)]
    rfl
  · rw [(C96_remove_all l _).1, hf]
  · rw [(C96_remove_all_self l p _ hp).2.1 fun x _ => beq_nan x, hf]
  · have h2 : (0 : Int) ≤ min INT_MAX l.length := by unfold INT_MAX; omega
    have hi : Lst.index l Dbl.nan = .ok (-1) := by
      rcases C96_index l Dbl.nan 0 INT_MAX hl (le_refl _) h2 with ⟨h, -⟩ | ⟨p, x, -, -, -, -, h, -⟩
      · exact h
      · rw [beq_nan] at h; exact Bool.noConfusion h
    refine ⟨hi, ?_⟩
    unfold Lst.contains
    rw [hi]
    rfl

/-- C96, `uniquify` keeps every NaN, and one of each other value. -/
theorem C96_nan_uniquify (l : List Dbl) : ∃ r, uniquify l = (.ok (), r) ∧ r.Sublist l ∧
    r.filter (fun x => decide (x = Dbl.nan)) = l.filter (fun x => decide (x = Dbl.nan)) ∧
    (r.filter (fun x => decide (x ≠ Dbl.nan))).Nodup ∧ (∀ x, x ∈ r ↔ x ∈ l) := by
  obtain ⟨keep, h1, h2⟩ := C96_uniquify l
  obtain ⟨r, h3, h4, h5, h6⟩ := C96_uniquify_result l
  have hr : r = marked keep l := by
    rw [h1] at h3
    exact (Prod.ext_iff.1 h3).2.symm
  refine ⟨r, h3, h4, ?_, ?_, ?_⟩
  · rw [hr]
    unfold marked
    rw [List.filter_map]
    conv_rhs => rw [← List.zipIdx_map_fst 0 l, List.filter_map]
    congr 1
    rw [List.filter_filter]
    apply List.filter_congr
    rintro ⟨x, i⟩ hx
    rw [List.mem_zipIdx_iff_getElem?] at hx
    by_cases hn : x = Dbl.nan
    · subst hn
      have : keep i = true := (h2 i _ hx).2 fun j y _ _ _ => beq_nan y
      simp [this]
    · simp [hn]
  · have := List.Pairwise.filter (fun x => decide (x ≠ Dbl.nan)) h5
    apply List.Pairwise.imp_of_mem _ this
    intro a b ha hb hab h
    subst h
    have ha := List.mem_filter.1 ha
    rw [(dbl_beq a a).2 ⟨rfl, by simpa using ha.2⟩] at hab
    exact Bool.noConfusion hab
  · intro x
    refine ⟨fun h => h4.subset h, fun h => ?_⟩
    rcases h6 x h with h | ⟨y, hy, hyx⟩
    · exact h
    · rw [← ((dbl_beq y x).1 hyx).1]; exact hy

/-- C96, a list of `double`s is equal to itself exactly if it has no NaN, and to another exactly if moreover they are the same. -/
theorem C96_nan_equal (l m : List Dbl) : Cmp.seqEq Dbl.eq l m = true ↔ l = m ∧ Dbl.nan ∉ l := by
  rw [C96_equal]
  constructor
  · rintro ⟨h1, h2⟩
    constructor
    · apply List.ext_getElem h1
      intro i hi hj
      exact ((dbl_beq _ _).1 (h2 i _ _ (List.getElem?_eq_getElem hi) (List.getElem?_eq_getElem hj))).1
    · intro h
      obtain ⟨i, hi, he⟩ := List.getElem_of_mem h
      have := (dbl_beq _ _).1 (h2 i _ m[i] (List.getElem?_eq_getElem hi) (List.getElem?_eq_getElem (by omega)))
      exact this.2 he
  · rintro ⟨rfl, h⟩
    refine ⟨rfl, fun i a b ha hb => ?_⟩
    rw [ha] at hb
    cases hb
    exact (dbl_beq a a).2 ⟨rfl, fun hn => h (hn ▸ List.mem_of_getElem? ha)⟩

/-- A `double` on the line of the numbers with the two infinities; NaN has no place there. -/
def Dbl.place : Dbl → WithBot (WithTop ℚ)
  | .nan => ⊥
  | .inf true => ⊥
  | .inf false => ((⊤ : WithTop ℚ) : WithBot (WithTop ℚ))
  | .fin q => ((q : WithTop ℚ) : WithBot (WithTop ℚ))

/-- Without NaN, `<` compares the places. -/
theorem Dbl.lt_place {a b : Dbl} (ha : a ≠ .nan) (hb : b ≠ .nan) : Dbl.lt a b = true ↔ a.place < b.place := by
  cases a with
  | nan => exact absurd rfl ha
  | inf s => cases b with
    | nan => exact absurd rfl hb
    | inf t => cases s <;> cases t <;> simp [Dbl.lt, Dbl.place]
    | fin q => cases s <;> simp [Dbl.lt, Dbl.place, WithBot.bot_lt_coe]
  | fin p => cases b with
    | nan => exact absurd rfl hb
    | inf t =>
      cases t
      · exact iff_of_true rfl (WithBot.coe_lt_coe.2 (WithTop.coe_lt_top p))
      · simp [Dbl.lt, Dbl.place]
    | fin q => simp [Dbl.lt, Dbl.place]

/-- C96, `<` on the `double`s of a collection is a strict weak order exactly if there is no NaN among them or no two different numbers: beside them a NaN would
be equivalent to both. Otherwise `sort` may not be called, nor may they be together in a `Set` or among the keys of a `Dict`. -/
theorem C96_nan_order (p : Dbl → Prop) :
    StrictWeak (fun a b : {x : Dbl // p x} => Dbl.lt a.1 b.1) ↔ ¬ (p .nan ∧ ∃ a b, p a ∧ p b ∧ Dbl.lt a b = true) := by
  constructor
  · rintro h ⟨hn, a, b, ha, hb, hab⟩
    have h1 : ∀ x, Dbl.lt x .nan = false := fun x => by cases x <;> rfl
    have h2 : ∀ x, Dbl.lt .nan x = false := fun x => by cases x <;> rfl
    have := (h.incomp ⟨a, ha⟩ ⟨.nan, hn⟩ ⟨b, hb⟩ (h1 a) (h2 a) (h2 b) (h1 b)).1
    simp only at this
    rw [hab] at this
    exact Bool.noConfusion this
  · intro h
    by_cases hn : p .nan
    · have hh : ∀ a b, p a → p b → Dbl.lt a b = false := by
        intro a b ha hb
        by_contra hl
        exact h ⟨hn, a, b, ha, hb, by simpa using hl⟩
      exact ⟨fun a => hh _ _ a.2 a.2, fun a b c h1 => absurd h1 (by simp [hh _ _ a.2 b.2]),
        fun a b c _ _ _ _ => ⟨hh _ _ a.2 c.2, hh _ _ c.2 a.2⟩⟩
    · have hne : ∀ a : {x : Dbl // p x}, a.1 ≠ .nan := fun a ha => hn (ha ▸ a.2)
      have e : ∀ a b : {x : Dbl // p x}, Dbl.lt a.1 b.1 = decide (a.1.place < b.1.place) := by
        intro a b
        rw [Bool.eq_iff_iff, decide_eq_true_eq]
        exact Dbl.lt_place (hne a) (hne b)
      refine ⟨fun a => ?_, fun a b c h1 h2 => ?_, fun a b c h1 h2 h3 h4 => ?_⟩
      · rw [e]; simp
      · rw [e, decide_eq_true_eq] at *
        exact h1.trans h2
      · rw [e, decide_eq_false_iff_not, not_lt] at h1 h2 h3 h4
        rw [e, e, decide_eq_false_iff_not, decide_eq_false_iff_not, not_lt, not_lt]
        exact ⟨h3.trans h1, h2.trans h4⟩

example : ¬ StrictWeak (fun a b : {x : Dbl // x = x} => Dbl.lt a.1 b.1) ∧ StrictWeak (fun a b : {x : Dbl // x ≠ .nan} => Dbl.lt a.1 b.1) :=
  ⟨fun h => (C96_nan_order (fun x => x = x)).1 h ⟨rfl, .fin 0, .fin 1, rfl, rfl, by simp [Dbl.lt]⟩,
    (C96_nan_order (fun x => x ≠ .nan)).2 fun h => h.1 rfl⟩

example : (uniquify [.nan, .fin 1, .nan, .fin 1, .fin 2]).2 = [Dbl.nan, .fin 1, .nan, .fin 2] := by decide +kernel

end NaN

/-! ## `Complex` -/

section Complex

local instance : BEq (Cx Dbl) := ⟨Cx.eq Arith.double⟩

/-- The complex numbers 0, `3/4` of `2^-52` and `6/4` of `2^-52`. -/
def tick (k : Nat) : Cx Dbl := ⟨.fin (k * 3 / 2 ^ 54), .fin 0⟩

theorem tick_beq (i j : Nat) : (tick i == tick j) = true ↔ |((i : ℚ) - j)| * (3 / 2 ^ 54) < 1 / 2 ^ 52 - 1 / 2 ^ 106 := by
  show Cx.eq Arith.double (tick i) (tick j) = true ↔ _
  rw [C57_equal_exact]
  have e : ∀ i j : Nat, |(i : ℚ) * 3 / 2 ^ 54 - j * 3 / 2 ^ 54| = |((i : ℚ) - j)| * (3 / 2 ^ 54) := by
    intro i j
    rw [show (i : ℚ) * 3 / 2 ^ 54 - j * 3 / 2 ^ 54 = (i - j) * (3 / 2 ^ 54) by ring, abs_mul]
    congr 1
    exact abs_of_nonneg (by positivity)
  constructor
  · rintro ⟨a, b, c, d, h1, h2, h3, -⟩
    simp only [tick, Cx.mk.injEq, Dbl.fin.injEq] at h1 h2
    rw [← h1.1, ← h2.1, e] at h3
    exact h3
  · intro h
    refine ⟨_, _, _, _, rfl, rfl, ?_, by norm_num⟩
    rw [e]
    exact h

/-- C96, `uniquify` of complex numbers depends on the order: of 0, ε, 2ε with `0 == ε` and `ε == 2ε` but not `0 == 2ε` it keeps two, or one if ε comes first. -/
theorem C96_complex_uniquify_not :
    (uniquify [tick 0, tick 1, tick 2]).2 = [tick 0, tick 2] ∧ (uniquify [tick 1, tick 0, tick 2]).2 = [tick 1] ∧
    (tick 0 == tick 1) = true ∧ (tick 1 == tick 2) = true ∧ (tick 0 == tick 2) = false := by
  have h01 : (tick 0 == tick 1) = true := (tick_beq 0 1).2 (by norm_num)
  have h10 : (tick 1 == tick 0) = true := (tick_beq 1 0).2 (by norm_num)
  have h12 : (tick 1 == tick 2) = true := (tick_beq 1 2).2 (by norm_num)
  have h02 : (tick 0 == tick 2) = false := by
    rw [Bool.eq_false_iff]
    intro h
    have := (tick_beq 0 2).1 h
    norm_num at this
  refine ⟨?_, ?_, h01, h12, h02⟩
  · simp [uniquify, uniquifyLoop, stdFind, Meth.get_bind, Meth.lift_ok_bind, Meth.set_run, h01, h02]
  · simp [uniquify, uniquifyLoop, stdFind, Meth.get_bind, Meth.lift_ok_bind, Meth.set_run, h10, h12]

/-- C96, a complex number that is not finite is never found; the others are those within `2^-52 - 2^-106` in each component. -/
theorem C96_complex_count (l : List (Cx Dbl)) (e : Cx Dbl) (hl : l.length ≤ maxLen) :
    (Lst.count l e ≠ 0 ↔ ∃ z ∈ l, ∃ a b c d : ℚ, z = ⟨.fin a, .fin b⟩ ∧ e = ⟨.fin c, .fin d⟩ ∧
      |a - c| < 1 / 2 ^ 52 - 1 / 2 ^ 106 ∧ |b - d| < 1 / 2 ^ 52 - 1 / 2 ^ 106) := by
  rw [(C96_find_count l e).2 hl]
  constructor
  · intro h
    obtain ⟨z, hz⟩ := List.exists_mem_of_length_pos (l := l.filter (fun x => x == e)) (by omega)
    rw [List.mem_filter] at hz
    exact ⟨z, hz.1, (C57_equal_exact z e).1 hz.2⟩
  · rintro ⟨z, hz, h⟩
    have : z ∈ l.filter (fun x => x == e) := List.mem_filter.2 ⟨hz, (C57_equal_exact z e).2 h⟩
    have := List.length_pos_of_mem this
    omega

end Complex

end Pyincpp
