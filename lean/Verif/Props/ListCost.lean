import Verif.Model.ListCost
import Verif.Props.List
import Mathlib.Data.List.Dedup
import Mathlib.Data.Finset.Card
import Mathlib.Data.Finset.Dedup
import Mathlib.Tactic.Ring
import Mathlib.Tactic.Linarith

/-! # C112: what the functions of `List` cost -/

namespace Pyincpp
namespace Lst

variable {α : Type}

theorem findC_pos [BEq α] (e : α) (l : List α) : (findC e l).1 = l.findIdx (fun x => x == e) := by
  induction l with
  | nil => rfl
  | cons x t ih =>
    rw [findC, List.findIdx_cons]
    cases x == e <;> simp [ih]

theorem shiftC_list [BEq α] (e : α) (l : List α) : (shiftC e l).1 = l.filter (fun x => !(x == e)) := by
  induction l with
  | nil => rfl
  | cons x t ih =>
    rw [shiftC]
    cases h : x == e <;> simp [h, ih]

theorem uniquifyC_list [BEq α] (l : List α) : ∀ b, uniquifyLoop l b = .ok (uniquifyC l b).1 := by
  induction l with
  | nil => intro b; rfl
  | cons e es ih =>
    intro b
    simp only [uniquifyLoop, uniquifyC, stdFind_all, Res.ok_bind, ih, findC_pos]

theorem filter_at_find [BEq α] (e : α) (l : List α) :
    l.take (l.findIdx (fun x => x == e)) ++ (l.drop (l.findIdx (fun x => x == e) + 1)).filter (fun x => !(x == e)) = l.filter (fun x => !(x == e)) := by
  induction l with
  | nil => rfl
  | cons x t ih =>
    rw [List.findIdx_cons]
    cases h : x == e
    · simp only [h, cond_false, List.take_succ_cons, List.drop_succ_cons, List.filter_cons, Bool.not_false, if_true, List.cons_append, ih]
    · simp [h]

/-- C112: the counted functions are those of the model. -/
theorem C112_same [BEq α] (e : α) (l : List α) :
    find l e = .ok (findC e l).1 ∧ count l e = wrap32 (countC e l).1 ∧ removeFirst e l = (.ok (), (removeFirstC e l).1) ∧
    removeAll (.val e) l = (.ok (), (removeAllC e l).1) ∧ uniquify l = (.ok (), (uniquifyC l []).1) ∧
    (l.length < maxLen → ∀ grow c, append e l = (.ok (), (appendC grow e (l, c)).2.1) ∧ insert 0 e l = (.ok (), (prependC grow e (l, c)).2.1)) := by
  refine ⟨?_, ?_, ?_, ?_, ?_, fun hl grow c => ⟨append_ok hl, ?_⟩⟩
  · rw [find, stdFind_all, findC_pos]
  · have : (countC e l).1 = l.countP (fun x => x == e) := by
      induction l with
      | nil => rfl
      | cons x t ih => rw [countC, List.countP_cons, ih]
    rw [this]
    rfl
  · have hle := List.findIdx_le_length (xs := l) (p := fun x => x == e)
    simp only [removeFirst, removeFirstC, find, stdFind_all, findC_pos, Meth.get_bind, Meth.lift_ok_bind]
    by_cases h : l.findIdx (fun x => x == e) = l.length
    · rw [if_neg (not_not.2 h), if_neg (not_not.2 h)]; rfl
    · rw [if_pos h, if_pos h, stdErase, if_pos ⟨by omega, by omega⟩, Meth.lift_ok_bind, Meth.set_run]
  · rw [removeAll_val, removeAllC, findC_pos, shiftC_list, filter_at_find]
  · simp only [uniquify, Meth.get_bind, uniquifyC_list, Meth.lift_ok_bind, Meth.set_run]
  · rw [insert_some (p := 0) hl (by
      unfold pyInsertPoint pyIndex
      by_cases h : (0 : ℤ) = l.length
      · rw [if_pos h]; congr 1; omega
      · rw [if_neg h, if_pos ⟨le_rfl, by omega⟩]; rfl)]
    simp [prependC]

/-- C112, `find`: one call of `==` for every element up to the one that is found. -/
theorem C112_find [DecidableEq α] (e : α) (l : List α) : (findC e l).2 = if e ∈ l then l.idxOf e + 1 else l.length := by
  induction l with
  | nil => rfl
  | cons x t ih =>
    rw [findC]
    by_cases h : x = e
    · subst h; simp
    · have h' : e ≠ x := fun he => h he.symm
      rw [if_neg (by simpa using h), ih, List.idxOf_cons_ne _ h]
      by_cases hm : e ∈ t <;> simp [hm, h']

theorem findC_calls [BEq α] (e : α) (l : List α) : (findC e l).2 = min l.length ((findC e l).1 + 1) := by
  induction l with
  | nil => rfl
  | cons x t ih =>
    rw [findC]
    split
    · simp
    · simp only [ih, List.length_cons]
      omega

/-- C112, `count`: one call per element, whatever `==` is. -/
theorem C112_count [BEq α] (e : α) (l : List α) : (countC e l).2 = l.length := by
  induction l with
  | nil => rfl
  | cons x t ih => rw [countC, ih]; rfl

/-- C112, `-=`: calls of `==` and elements moved are together one per element, whatever `==` is. -/
theorem C112_remove_first [BEq α] (e : α) (l : List α) : (removeFirstC e l).2.1 + (removeFirstC e l).2.2 = l.length := by
  have h := findC_calls e l
  have hp : (findC e l).1 ≤ l.length := by rw [findC_pos]; exact List.findIdx_le_length
  unfold removeFirstC
  simp only
  split <;> simp only <;> omega

theorem shiftC_calls [BEq α] (e : α) (l : List α) : (shiftC e l).2.1 = l.length ∧ (shiftC e l).2.2 = (l.filter (fun x => !(x == e))).length := by
  induction l with
  | nil => exact ⟨rfl, rfl⟩
  | cons x t ih =>
    rw [shiftC]
    cases h : x == e <;> simp [h, ih.1, ih.2]

/-- C112, `/=`: one call of `==` per element; moved are the elements left behind the first one that goes. -/
theorem C112_remove_all [BEq α] (e : α) (l : List α) : (removeAllC e l).2.1 = l.length ∧
    (removeAllC e l).2.2 = ((l.drop (l.findIdx (fun x => x == e))).filter (fun x => !(x == e))).length := by
  have h := findC_calls e l
  have hp : (findC e l).1 ≤ l.length := by rw [findC_pos]; exact List.findIdx_le_length
  obtain ⟨s1, s2⟩ := shiftC_calls e (l.drop ((findC e l).1 + 1))
  unfold removeAllC
  simp only
  rw [s1, s2, List.length_drop]
  refine ⟨by omega, ?_⟩
  rw [← findC_pos]
  rcases Nat.lt_or_ge (findC e l).1 l.length with hlt | hge
  · rw [List.drop_eq_getElem_cons hlt]
    have : (l[(findC e l).1] == e) = true := by
      have := List.findIdx_getElem (p := fun x => x == e) (xs := l) (w := by rw [← findC_pos]; exact hlt)
      simpa only [findC_pos] using this
    rw [List.filter_cons_of_neg (by simp [this])]
  · rw [List.drop_eq_nil_of_le (by omega), List.drop_eq_nil_of_le (by omega)]

/-- The loop of `uniquify`, with a buffer of different elements. -/
theorem uniquifyC_calls [DecidableEq α] (l : List α) : ∀ b : List α, b.Nodup →
    (uniquifyC l b).1.Nodup ∧ (∀ x, x ∈ (uniquifyC l b).1 ↔ x ∈ b ∨ x ∈ l) ∧ b.length ≤ (uniquifyC l b).1.length ∧
    (uniquifyC l b).1.length ≤ b.length + l.length ∧
    ((uniquifyC l b).1.length * ((uniquifyC l b).1.length - 1) + 2 * (l.length + b.length - (uniquifyC l b).1.length) ≤
      b.length * (b.length - 1) + 2 * (uniquifyC l b).2) ∧
    (b.length * (b.length - 1) + 2 * (uniquifyC l b).2 ≤ (uniquifyC l b).1.length * ((uniquifyC l b).1.length - 1) +
      2 * ((l.length + b.length - (uniquifyC l b).1.length) * (uniquifyC l b).1.length)) := by
  induction l with
  | nil => intro b hb; simp [uniquifyC, hb]
  | cons e es ih =>
    intro b hb
    rw [uniquifyC]
    simp only
    by_cases hm : e ∈ b
    · have hp : (findC e b).1 = b.idxOf e := by
        rw [findC_pos]; rfl
      have hlt := List.idxOf_lt_length_of_mem hm
      rw [if_neg (by rw [hp]; omega)]
      obtain ⟨h1, h2, h3, h4, h5, h6⟩ := ih b hb
      have hc : (findC e b).2 = b.idxOf e + 1 := by rw [C112_find, if_pos hm]
      generalize hr : uniquifyC es b = r at *
      refine ⟨h1, fun x => ?_, h3, ?_, ?_, ?_⟩
      · rw [h2 x, List.mem_cons]
        constructor
        · tauto
        · rintro (h | rfl | h)
          · exact .inl h
          · exact .inl hm
          · exact .inr h
      · rw [List.length_cons]; omega
      · rw [List.length_cons, hc, show es.length + 1 + b.length - r.1.length = es.length + b.length - r.1.length + 1 by omega]
        omega
      · rw [List.length_cons, hc, show es.length + 1 + b.length - r.1.length = es.length + b.length - r.1.length + 1 by omega, Nat.add_mul, Nat.one_mul]
        omega
    · have hp : (findC e b).1 = b.length := by
        rw [findC_pos, List.findIdx_eq_length]
        intro x hx
        have : x ≠ e := by rintro rfl; exact hm hx
        simpa using this
      have hb' : (b ++ [e]).Nodup := by
        rw [List.nodup_append]
        refine ⟨hb, List.nodup_singleton e, ?_⟩
        rintro x hx y hy rfl
        rw [List.mem_singleton] at hy
        exact hm (hy ▸ hx)
      rw [if_pos hp]
      obtain ⟨h1, h2, h3, h4, h5, h6⟩ := ih (b ++ [e]) hb'
      have hc : (findC e b).2 = b.length := by rw [C112_find, if_neg hm]
      generalize hr : uniquifyC es (b ++ [e]) = r at *
      rw [List.length_append, List.length_singleton] at h3 h4 h5 h6
      have hsq : (b.length + 1) * (b.length + 1 - 1) = b.length * (b.length - 1) + 2 * b.length := by
        rw [Nat.add_sub_cancel]
        cases b.length with
        | zero => rfl
        | succ n => rw [Nat.add_sub_cancel]; ring
      rw [hsq, show es.length + (b.length + 1) - r.1.length = es.length + 1 + b.length - r.1.length by omega] at h5 h6
      refine ⟨h1, fun x => ?_, by omega, by rw [List.length_cons]; omega, ?_, ?_⟩
      · rw [h2 x, List.mem_append, List.mem_singleton, List.mem_cons]
        tauto
      · rw [List.length_cons, hc]
        omega
      · rw [List.length_cons, hc]
        omega

/-- C112, `uniquify`, for a list of `n` elements of which `d` are different: `d (d - 1) / 2` calls of `==` for these, and for each of the
others at least one and at most `d`. Missing: `C112_uniquify_not`. -/
theorem C112_uniquify_partial [DecidableEq α] (l : List α) :
    l.toFinset.card * (l.toFinset.card - 1) + 2 * (l.length - l.toFinset.card) ≤ 2 * (uniquifyC l []).2 ∧
    2 * (uniquifyC l []).2 ≤ l.toFinset.card * (l.toFinset.card - 1) + 2 * ((l.length - l.toFinset.card) * l.toFinset.card) := by
  obtain ⟨h1, h2, -, -, h5, h6⟩ := uniquifyC_calls l [] List.nodup_nil
  have hd : (uniquifyC l []).1.length = l.toFinset.card := by
    rw [← List.toFinset_card_of_nodup h1]
    congr 1
    ext x
    simp [h2 x]
  rw [hd] at h5 h6
  simp only [List.length_nil, Nat.zero_mul, Nat.zero_add, Nat.add_zero] at h5 h6
  exact ⟨h5, h6⟩

/-- C112: a list of different elements needs `n (n - 1) / 2` calls. -/
theorem C112_uniquify_different [DecidableEq α] (l : List α) (h : l.Nodup) : 2 * (uniquifyC l []).2 = l.length * (l.length - 1) := by
  obtain ⟨h1, h2⟩ := C112_uniquify_partial l
  rw [List.toFinset_card_of_nodup h, Nat.sub_self] at h1 h2
  omega

/-- C112 fails of `uniquify`: no constant number of calls per element suffices. -/
theorem C112_uniquify_not : ¬ ∃ c : ℕ, ∀ l : List ℤ, (uniquifyC l []).2 ≤ c * l.length := by
  rintro ⟨c, hc⟩
  have := hc ((List.range (2 * c + 2)).map Int.ofNat)
  have hn : ((List.range (2 * c + 2)).map Int.ofNat).Nodup := List.nodup_range.map (fun a b h => Int.ofNat.inj h)
  have h2 := C112_uniquify_different _ hn
  rw [List.length_map, List.length_range] at this h2
  rw [show 2 * c + 2 - 1 = 2 * c + 1 by omega] at h2
  nlinarith

/-- C112, appending to an empty list, if a vector that grows at least doubles: at most three elements are written per append. -/
theorem C112_append_partial (grow : ℕ → ℕ → ℕ) (hg : ∀ c n, n ≤ grow c n ∧ 2 * c ≤ grow c n) (es : List α) :
    (allC (appendC grow) es ([], 0)).1 ≤ 3 * es.length ∧ (allC (appendC grow) es ([], 0)).2.1 = es := by
  have key : ∀ (es : List α) (s : List α × ℕ), s.1.length ≤ s.2 →
      (allC (appendC grow) es s).1 ≤ 3 * es.length + (2 * s.1.length - s.2) ∧ (allC (appendC grow) es s).2.1 = s.1 ++ es := by
    intro es
    induction es with
    | nil => intro s _; simp [allC]
    | cons e es ih =>
      intro s hs
      obtain ⟨g1, g2⟩ := hg s.2 (s.1.length + 1)
      have hlen : (appendC grow e s).2.1.length = s.1.length + 1 := by simp [appendC]
      obtain ⟨h1, h2⟩ := ih (appendC grow e s).2 (by
        rw [hlen]
        simp only [appendC]
        split <;> omega)
      rw [hlen] at h1
      rw [allC]
      simp only [List.length_cons]
      refine ⟨?_, by rw [h2]; simp [appendC]⟩
      simp only [appendC, insertWrites] at h1 ⊢
      by_cases hc : s.1.length + 1 ≤ s.2
      · simp only [if_pos hc] at h1 ⊢
        omega
      · simp only [if_neg hc] at h1 ⊢
        omega
  simpa using key es ([], 0) (Nat.le_refl _)

/-- C112 fails of inserting in front, exactly: the `n`-th insertion into an empty list writes `n` elements, whatever the capacity. -/
theorem C112_prepend_exact (grow : ℕ → ℕ → ℕ) (es : List α) (s : List α × ℕ) :
    2 * (allC (prependC grow) es s).1 = es.length * (es.length + 1) + 2 * (es.length * s.1.length) ∧
    (allC (prependC grow) es s).2.1 = es.reverse ++ s.1 := by
  induction es generalizing s with
  | nil => simp [allC]
  | cons e es ih =>
    obtain ⟨h1, h2⟩ := ih (prependC grow e s).2
    rw [allC]
    simp only
    have hlen : (prependC grow e s).2.1.length = s.1.length + 1 := by simp [prependC]
    have hw : (prependC grow e s).1 = s.1.length + 1 := by
      simp only [prependC, insertWrites]
      split <;> omega
    rw [hlen] at h1
    refine ⟨?_, by rw [h2]; simp [prependC]⟩
    rw [hw, Nat.mul_add, h1, List.length_cons]
    ring

/-- C112 fails of inserting in front: no constant number of elements written per insertion suffices. -/
theorem C112_prepend_not (grow : ℕ → ℕ → ℕ) : ¬ ∃ c : ℕ, ∀ es : List ℤ, (allC (prependC grow) es ([], 0)).1 ≤ c * es.length := by
  rintro ⟨c, hc⟩
  have h1 := hc (List.replicate (2 * c + 1) 0)
  have h2 := (C112_prepend_exact grow (List.replicate (2 * c + 1) (0 : ℤ)) ([], 0)).1
  rw [List.length_replicate] at h1 h2
  simp only [List.length_nil, Nat.mul_zero, Nat.add_zero] at h2
  nlinarith

/-- Doubling, and the calls of `uniquify` on `[1, 2, 1, 3, 1]`. -/
example : (∀ c n : ℕ, n ≤ max (2 * c) n ∧ 2 * c ≤ max (2 * c) n) ∧ (uniquifyC [1, 2, 1, 3, (1 : ℤ)] []).2 = 5 ∧
    (removeAllC 1 [1, 2, 1, 3, (1 : ℤ)]).2 = (5, 2) ∧ (removeFirstC 2 [1, 2, 1, 3, (1 : ℤ)]).2 = (2, 3) :=
  ⟨fun c n => ⟨by omega, by omega⟩, by decide +kernel, by decide +kernel, by decide +kernel⟩

end Lst
end Pyincpp
