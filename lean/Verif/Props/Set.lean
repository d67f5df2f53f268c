import Verif.Proof.Tree
import Verif.Props.List

/-! # Properties of `Set` (C41, C43, C44, C45)

A set is any list that is `Increasing` in the comparator; every constructor and operation keeps that. `Has s x` says that an element
equivalent to `x` is in `s`; for a linearly ordered type that is `x ∈ s`. -/

namespace Pyincpp
open Lst

variable {α : Type} {lt : α → α → Bool}

/-! ## C43 -/

theorem insertAll_walk (W : StrictWeak lt) (l r b : Bool) (s t : List α) (hs : Increasing lt s) (ht : Increasing lt t) :
    Tree.insertAll lt (Tree.walk lt l r b s t) [] = Tree.walk lt l r b s t := by
  have := Tree.insertAll_increasing W (Tree.walk lt l r b s t) [] (by simpa using (Tree.walk_spec W l r b s t hs ht).2)
  simpa using this

theorem walk_has (W : StrictWeak lt) (l r b : Bool) (s t : List α) (hs : Increasing lt s) (ht : Increasing lt t) (x : α) :
    Has lt (Tree.walk lt l r b s t) x ↔
      (l = true ∧ Has lt s x ∧ ¬ Has lt t x) ∨ (r = true ∧ Has lt t x ∧ ¬ Has lt s x) ∨ (b = true ∧ Has lt s x ∧ Has lt t x) := by
  have m := (Tree.walk_spec W l r b s t hs ht).1
  constructor
  · rintro ⟨y, hy, e⟩
    rcases (m y).1 hy with ⟨h, h', h''⟩ | ⟨h, h', h''⟩ | ⟨h, h', h''⟩
    · exact .inl ⟨h, ⟨y, h', e⟩, fun k => h'' ((Has.congr W e).1 k)⟩
    · exact .inr (.inl ⟨h, ⟨y, h', e⟩, fun k => h'' ((Has.congr W e).1 k)⟩)
    · exact .inr (.inr ⟨h, ⟨y, h', e⟩, (Has.congr W e).2 h''⟩)
  · rintro (⟨h, ⟨y, hy, e⟩, h''⟩ | ⟨h, ⟨y, hy, e⟩, h''⟩ | ⟨h, ⟨y, hy, e⟩, h''⟩)
    · exact ⟨y, (m y).2 (.inl ⟨h, hy, fun k => h'' ((Has.congr W e).2 k)⟩), e⟩
    · exact ⟨y, (m y).2 (.inr (.inl ⟨h, hy, fun k => h'' ((Has.congr W e).2 k)⟩)), e⟩
    · exact ⟨y, (m y).2 (.inr (.inr ⟨h, hy, (Has.congr W e).1 h''⟩)), e⟩

/-- C43: `a & b`. The elements are taken from `a`. -/
theorem C43_inter (W : StrictWeak lt) (s t : List α) (hs : Increasing lt s) (ht : Increasing lt t) :
    Increasing lt (PSet.inter lt s t) ∧ (∀ x, Has lt (PSet.inter lt s t) x ↔ Has lt s x ∧ Has lt t x) ∧
    (∀ x ∈ PSet.inter lt s t, x ∈ s) ∧ PSet.interAssign lt (some t) s = (.ok (), PSet.inter lt s t) := by
  unfold PSet.inter Tree.setIntersection
  rw [insertAll_walk W _ _ _ s t hs ht]
  have k := Tree.walk_spec W false false true s t hs ht
  refine ⟨k.2, fun x => ?_, fun x hx => ?_, ?_⟩
  · rw [walk_has W _ _ _ s t hs ht]; simp
  · have := (k.1 x).1 hx; unfold Tree.Kept at this; simp at this; exact this.1
  · unfold PSet.interAssign PSet.inter Tree.setIntersection
    simp [insertAll_walk W _ _ _ s t hs ht]

/-- C43: `a | b`. An element in both is taken from `a`. -/
theorem C43_union (W : StrictWeak lt) (s t : List α) (hs : Increasing lt s) (ht : Increasing lt t) :
    Increasing lt (PSet.union lt s t) ∧ (∀ x, Has lt (PSet.union lt s t) x ↔ Has lt s x ∨ Has lt t x) ∧
    (∀ x, x ∈ PSet.union lt s t ↔ x ∈ s ∨ (x ∈ t ∧ ¬ Has lt s x)) ∧
    PSet.unionAssign lt (some t) s = (.ok (), PSet.union lt s t) := by
  unfold PSet.union Tree.setUnion
  rw [insertAll_walk W _ _ _ s t hs ht]
  have k := Tree.walk_spec W true true true s t hs ht
  refine ⟨k.2, fun x => ?_, fun x => ?_, ?_⟩
  · rw [walk_has W _ _ _ s t hs ht]; simp only [true_and]; tauto
  · rw [k.1 x]; unfold Tree.Kept; simp only [true_and]; tauto
  · unfold PSet.unionAssign PSet.union Tree.setUnion
    simp [insertAll_walk W _ _ _ s t hs ht]

/-- C43: `a - b`. -/
theorem C43_diff (W : StrictWeak lt) (s t : List α) (hs : Increasing lt s) (ht : Increasing lt t) :
    Increasing lt (PSet.diff lt s t) ∧ (∀ x, Has lt (PSet.diff lt s t) x ↔ Has lt s x ∧ ¬ Has lt t x) ∧
    (∀ x ∈ PSet.diff lt s t, x ∈ s) ∧ PSet.diffAssign lt (some t) s = (.ok (), PSet.diff lt s t) := by
  unfold PSet.diff Tree.setDifference
  rw [insertAll_walk W _ _ _ s t hs ht]
  have k := Tree.walk_spec W true false false s t hs ht
  refine ⟨k.2, fun x => ?_, fun x hx => ?_, ?_⟩
  · rw [walk_has W _ _ _ s t hs ht]; simp
  · have := (k.1 x).1 hx; unfold Tree.Kept at this; simp at this; exact this.1
  · unfold PSet.diffAssign PSet.diff Tree.setDifference
    simp [insertAll_walk W _ _ _ s t hs ht]

/-- C43: `a ^ b`. -/
theorem C43_symDiff (W : StrictWeak lt) (s t : List α) (hs : Increasing lt s) (ht : Increasing lt t) :
    Increasing lt (PSet.symDiff lt s t) ∧
    (∀ x, Has lt (PSet.symDiff lt s t) x ↔ (Has lt s x ∧ ¬ Has lt t x) ∨ (Has lt t x ∧ ¬ Has lt s x)) ∧
    (∀ x ∈ PSet.symDiff lt s t, x ∈ s ∨ x ∈ t) ∧ PSet.symDiffAssign lt (some t) s = (.ok (), PSet.symDiff lt s t) := by
  unfold PSet.symDiff Tree.setSymmetricDifference
  rw [insertAll_walk W _ _ _ s t hs ht]
  have k := Tree.walk_spec W true true false s t hs ht
  refine ⟨k.2, fun x => ?_, fun x hx => ?_, ?_⟩
  · rw [walk_has W _ _ _ s t hs ht]; simp
  · have := (k.1 x).1 hx; unfold Tree.Kept at this; simp at this; tauto
  · unfold PSet.symDiffAssign PSet.symDiff Tree.setSymmetricDifference
    simp [insertAll_walk W _ _ _ s t hs ht]

/-- C43: a set with itself as the operand of a compound form (`s &= s`, `s |= s`, `s -= s`, `s ^= s`). -/
theorem C43_self (W : StrictWeak lt) (s : List α) (hs : Increasing lt s) :
    (PSet.interAssign lt none s).1 = .ok () ∧ (∀ x, Has lt (PSet.interAssign lt none s).2 x ↔ Has lt s x) ∧
    (PSet.unionAssign lt none s).1 = .ok () ∧ (∀ x, Has lt (PSet.unionAssign lt none s).2 x ↔ Has lt s x) ∧
    PSet.diffAssign lt none s = (.ok (), []) ∧ PSet.symDiffAssign lt none s = (.ok (), []) := by
  have hnil : ∀ l : List α, (∀ x, ¬ Has lt l x) → l = [] := by
    intro l h
    cases l with
    | nil => rfl
    | cons y ys => exact absurd (has_cons.2 (.inl (W.eqv_refl y))) (h y)
  have e1 : PSet.interAssign lt none s = (.ok (), PSet.inter lt s s) := (C43_inter W s s hs hs).2.2.2
  have e2 : PSet.unionAssign lt none s = (.ok (), PSet.union lt s s) := (C43_union W s s hs hs).2.2.2
  have e3 : PSet.diffAssign lt none s = (.ok (), PSet.diff lt s s) := (C43_diff W s s hs hs).2.2.2
  have e4 : PSet.symDiffAssign lt none s = (.ok (), PSet.symDiff lt s s) := (C43_symDiff W s s hs hs).2.2.2
  rw [e1, e2, e3, e4]
  refine ⟨rfl, fun x => ?_, rfl, fun x => ?_, ?_, ?_⟩
  · rw [(C43_inter W s s hs hs).2.1]; simp
  · rw [(C43_union W s s hs hs).2.1]; simp
  · rw [hnil (PSet.diff lt s s) (fun x => by rw [(C43_diff W s s hs hs).2.1]; simp)]
  · rw [hnil (PSet.symDiff lt s s) (fun x => by rw [(C43_symDiff W s s hs hs).2.1]; simp)]

/-- A comparator that is coarser than equality: the tens digit. -/
example : StrictWeak (fun a b : Nat => decide (a / 10 < b / 10)) ∧
    Increasing (fun a b : Nat => decide (a / 10 < b / 10)) [5, 12, 31] ∧
    PSet.inter (fun a b : Nat => decide (a / 10 < b / 10)) [5, 12, 31] [15, 39, 40] = [12, 31] ∧
    PSet.union (fun a b : Nat => decide (a / 10 < b / 10)) [5, 12, 31] [15, 39, 40] = [5, 12, 31, 40] ∧
    PSet.diff (fun a b : Nat => decide (a / 10 < b / 10)) [5, 12, 31] [15, 39, 40] = [5] ∧
    PSet.symDiff (fun a b : Nat => decide (a / 10 < b / 10)) [5, 12, 31] [15, 39, 40] = [5, 40] := by
  refine ⟨⟨fun a => by simp, fun a b c => by simp; omega, fun a b c => by simp; omega⟩, by simp [Increasing], ?_, ?_, ?_, ?_⟩ <;>
    decide +kernel

/-! ## C44 -/

/-- C44: `<=` and `>=`. -/
theorem C44_subset (W : StrictWeak lt) (s t : List α) (hs : Increasing lt s) (ht : Increasing lt t) :
    (PSet.le lt s t = true ↔ ∀ x, Has lt s x → Has lt t x) ∧ (PSet.ge lt s t = true ↔ ∀ x, Has lt t x → Has lt s x) := by
  have key : ∀ s t : List α, Increasing lt s → Increasing lt t → (PSet.le lt s t = true ↔ ∀ x, Has lt s x → Has lt t x) := by
    intro s t hs ht
    unfold PSet.le
    rw [Tree.includes_iff W t s ht hs]
    constructor
    · rintro h x ⟨y, hy, e⟩; exact (Has.congr W e).2 (h y hy)
    · intro h x hx; exact h x (Has.mem W hx)
  exact ⟨key s t hs ht, key t s ht hs⟩

/-- C44: `==`, when equivalent elements are equal. -/
theorem C44_equal [BEq α] [LawfulBEq α] (W : StrictWeak lt) (hE : ∀ a b, Eqv lt a b → a = b) (s t : List α)
    (hs : Increasing lt s) (ht : Increasing lt t) : PSet.eq s t = true ↔ ∀ x, Has lt s x ↔ Has lt t x := by
  unfold PSet.eq
  rw [beq_iff_eq]
  constructor
  · rintro rfl x; rfl
  · intro h
    have hmem : ∀ (l : List α) x, Has lt l x ↔ x ∈ l := fun l x =>
      ⟨fun ⟨y, hy, e⟩ => by rw [hE x y e]; exact hy, fun hx => Has.mem W hx⟩
    have nd : ∀ l : List α, Increasing lt l → l.Nodup := fun l hl =>
      List.Pairwise.imp (fun {a b} h e => by subst e; rw [W.irrefl] at h; cases h) hl
    have hp : s.Perm t := (List.perm_ext_iff_of_nodup (nd s hs) (nd t ht)).2 (fun x => by rw [← hmem, ← hmem]; exact h x)
    exact hp.eq_of_pairwise (fun a b _ _ h1 h2 => absurd h1 (by rw [W.asymm h2]; decide)) hs ht

/-- C44: `<` and `>` are the proper subset and superset, for sets of at most `INT_MAX` elements. -/
theorem C44_proper_partial (W : StrictWeak lt) (s t : List α) (hs : Increasing lt s) (ht : Increasing lt t)
    (ls : s.length ≤ maxLen) (lt' : t.length ≤ maxLen) :
    (PSet.lss lt s t = true ↔ (∀ x, Has lt s x → Has lt t x) ∧ ¬ ∀ x, Has lt s x ↔ Has lt t x) ∧
    (PSet.gtr lt s t = true ↔ (∀ x, Has lt t x → Has lt s x) ∧ ¬ ∀ x, Has lt s x ↔ Has lt t x) := by
  have key : ∀ s t : List α, Increasing lt s → Increasing lt t → s.length ≤ maxLen → t.length ≤ maxLen →
      (PSet.lss lt s t = true ↔ (∀ x, Has lt s x → Has lt t x) ∧ ¬ ∀ x, Has lt s x ↔ Has lt t x) := by
    intro s t hs ht ls lt'
    unfold PSet.lss PSet.size
    have e1 : wrap32 (s.length : Int) = s.length := size_eq ls
    have e2 : wrap32 (t.length : Int) = t.length := size_eq lt'
    rw [e1, e2, Bool.and_eq_true, bne_iff_ne, (C44_subset W s t hs ht).1]
    constructor
    · rintro ⟨hne, hsub⟩
      refine ⟨hsub, fun hall => hne ?_⟩
      have i1 := Tree.includes_length _ _ ((C44_subset W s t hs ht).1.2 hsub)
      have i2 := Tree.includes_length _ _ ((C44_subset W t s ht hs).1.2 (fun x => (hall x).2))
      omega
    · rintro ⟨hsub, hne⟩
      refine ⟨fun hlen => hne (fun x => ⟨hsub x, ?_⟩), hsub⟩
      have := Tree.includes_swap _ _ ((C44_subset W s t hs ht).1.2 hsub) (by omega)
      exact (C44_subset W t s ht hs).1.1 this x
  exact ⟨key s t hs ht ls lt', by
    unfold PSet.gtr; rw [key t s ht hs lt' ls]
    exact and_congr_right (fun _ => not_congr (forall_congr' (fun x => Iff.comm)))⟩

example : Increasing ltOf [1, 3] ∧ Increasing ltOf [1, 2, 3] ∧ PSet.lss ltOf [1, 3] [1, 2, 3] = true ∧
    PSet.le ltOf [1, 3] [1, 3] = true ∧ PSet.lss ltOf [1, 3] [1, 3] = false ∧ PSet.le ltOf [1, 4] [1, 2, 3] = false ∧
    PSet.gtr ltOf [1, 2, 3] [1, 3] = true := by
  refine ⟨by simp [increasing_ltOf], by simp [increasing_ltOf], ?_⟩
  decide +kernel

/-- C44 is false of the code beyond that: `size()` is cut to 32 bits, so the empty set is not "less" than a set of `2^32`
elements (which `extend` and `|` build without a check). -/
theorem C44_proper_not : ∃ s t : List Nat, Increasing ltOf s ∧ Increasing ltOf t ∧
    (∀ x, Has ltOf s x → Has ltOf t x) ∧ (¬ ∀ x, Has ltOf s x ↔ Has ltOf t x) ∧ PSet.lss ltOf s t = false := by
  refine ⟨[], List.range 4294967296, by simp [Increasing], increasing_ltOf.2 List.pairwise_lt_range, ?_, ?_, ?_⟩
  · intro x h; exact absurd h has_nil
  · intro h
    have := (h 0).2 (has_ltOf.2 (by simp))
    exact has_nil this
  · have : PSet.size (List.range 4294967296) = 0 := by unfold PSet.size; rw [List.length_range]; decide
    unfold PSet.lss
    rw [this]; rfl

/-! ## C45 -/

section linear
variable {α : Type} [LinearOrder α]

omit [LinearOrder α] in
theorem PSet.size_ok {s : List α} (h : s.length ≤ maxLen) : PSet.size s = s.length := by
  have : wrap32 (s.length : Int) = s.length := size_eq h
  exact this

omit [LinearOrder α] in
theorem PSet.checkEmpty_nil : checkEmpty (PSet.size ([] : List α)) = .throw msgEmpty := by
  rw [PSet.size_ok (by simp)]; rfl

theorem PSet.min_run (s : List α) (hs : Increasing ltOf s) (hl : s.length ≤ maxLen) :
    PSet.min s = if h : s.toFinset.Nonempty then .ok (s.toFinset.min' h) else .throw msgEmpty := by
  cases s with
  | nil => simp [PSet.min, PSet.checkEmpty_nil]
  | cons x xs =>
    have hne : (x :: xs).toFinset.Nonempty := ⟨x, by simp⟩
    rw [dif_pos hne]
    have hx : (x :: xs).toFinset.min' hne = x := by
      apply le_antisymm
      · exact Finset.min'_le _ _ (by simp)
      · refine Finset.le_min' _ _ _ (fun y hy => ?_)
        rw [List.mem_toFinset, List.mem_cons] at hy
        rcases hy with rfl | hy
        · exact le_refl _
        · exact le_of_lt ((List.pairwise_cons.1 (increasing_ltOf.1 hs)).1 y hy)
    rw [hx]
    simp [PSet.min, PSet.size_ok hl, checkEmpty_ok (a := (xs.length : Int) + 1) (by omega), PSet.stdBegin, vget]

theorem PSet.max_run (s : List α) (hs : Increasing ltOf s) (hl : s.length ≤ maxLen) :
    PSet.max s = if h : s.toFinset.Nonempty then .ok (s.toFinset.max' h) else .throw msgEmpty := by
  by_cases h0 : s = []
  · subst h0; simp [PSet.max, PSet.checkEmpty_nil]
  · have hpos : 0 < s.length := List.length_pos_iff.2 h0
    have hmem : s.getLast h0 ∈ s := List.getLast_mem h0
    have hne : s.toFinset.Nonempty := ⟨_, List.mem_toFinset.2 hmem⟩
    rw [dif_pos hne]
    have hx : s.toFinset.max' hne = s.getLast h0 := by
      apply le_antisymm
      · refine Finset.max'_le _ _ _ (fun y hy => ?_)
        rw [List.mem_toFinset] at hy
        obtain ⟨i, hi, rfl⟩ := List.mem_iff_getElem.1 hy
        rw [List.getLast_eq_getElem]
        rcases Nat.lt_or_ge i (s.length - 1) with h | h
        · exact le_of_lt (List.pairwise_iff_getElem.1 (increasing_ltOf.1 hs) i (s.length - 1) hi (by omega) h)
        · have : i = s.length - 1 := by omega
          subst this; exact le_refl _
      · exact Finset.le_max' _ _ (List.mem_toFinset.2 hmem)
    rw [hx]
    have e : PSet.stdRbegin s = .ok (s.getLast h0) := by
      unfold PSet.stdRbegin
      rw [if_neg (by omega)]
      have hj : ((s.length : Nat) - 1 : Nat) < s.length := by omega
      have := vget_ok (v := s) (i := s.length - 1) (by omega)
      simpa [List.getLast_eq_getElem] using this
    simp [PSet.max, PSet.size_ok hl, checkEmpty_ok (a := (s.length : Int)) (by omega), e]

theorem PSet.pop_run (s : List α) (hs : Increasing ltOf s) (hl : s.length ≤ maxLen) :
    if h : s.toFinset.Nonempty then PSet.pop s = (.ok (s.toFinset.min' h), s.drop 1) ∧
        (s.drop 1).toFinset = s.toFinset.erase (s.toFinset.min' h)
    else PSet.pop s = (.throw msgEmpty, s) := by
  have hm := PSet.min_run s hs hl
  cases s with
  | nil => simp only [List.toFinset_nil, Finset.not_nonempty_empty, dite_false, PSet.pop, Meth.get_bind, PSet.checkEmpty_nil, Meth.lift_throw_bind]
  | cons x xs =>
    have hne : (x :: xs).toFinset.Nonempty := ⟨x, by simp⟩
    rw [dif_pos hne] at hm ⊢
    have hce : checkEmpty (PSet.size (x :: xs)) = .ok () := by
      rw [PSet.size_ok hl]; exact checkEmpty_ok (by simp; omega)
    have hb : PSet.stdBegin (x :: xs) = .ok x := by simp [PSet.stdBegin, vget]
    unfold PSet.min at hm
    simp only [hce, Res.ok_bind, hb] at hm
    have hx : x = (x :: xs).toFinset.min' hne := by injection hm
    refine ⟨?_, ?_⟩
    · rw [← hx]
      simp only [PSet.pop, Meth.get_bind, hce, Meth.lift_ok_bind, hb, Meth.set_bind, Meth.pure_run]
    · rw [← hx]
      ext y
      have hn : x ∉ xs := (List.nodup_cons.1 hs.nodup).1
      simp only [List.drop_succ_cons, List.drop_zero, List.mem_toFinset, Finset.mem_erase, List.mem_cons]
      constructor
      · intro hy; exact ⟨fun e => hn (e ▸ hy), .inr hy⟩
      · rintro ⟨h1, h2 | h2⟩
        · exact absurd h2 h1
        · exact h2

/-- One operation against the abstract set. -/
theorem set_step (op : SOp α) (s : List α) (hs : Increasing ltOf s) (hl : s.length ≤ maxLen) (hf : op.Fair s.toFinset) :
    match op.abs s.toFinset with
    | .ok (r, f) => ∃ s', op.step ltOf s = (.ok r, s') ∧ Increasing ltOf s' ∧ s'.length ≤ maxLen ∧ s'.toFinset = f
    | .error m => op.step ltOf s = (.throw m, s) := by
  have W : StrictWeak (ltOf : α → α → Bool) := ltOf_strictWeak
  cases op with
  | add e =>
    simp only [SOp.abs, SOp.step, hs.card]
    obtain ⟨m, i2, i3, i4⟩ := Tree.insert_mem W e s hs
    by_cases h : s.length = maxLen
    · rw [if_pos h]
      have hz : PSet.size s = INT_MAX := by rw [PSet.size_ok hl, h]; unfold maxLen INT_MAX; omega
      exact Meth.run_throw (by simp only [PSet.add, Meth.get_bind, hz, checkFull_throw (Int.le_refl INT_MAX), Meth.lift_throw_bind])
    · rw [if_neg h]
      have hz : checkFull (PSet.size s) INT_MAX = .ok () := by
        rw [PSet.size_ok hl]; exact checkFull_ok (by unfold INT_MAX; unfold maxLen at *; omega)
      have hb : (Tree.insert ltOf e s).2 = decide (e ∉ s.toFinset) := by
        rw [Bool.eq_iff_iff, i2, has_ltOf]; simp
      refine ⟨(Tree.insert ltOf e s).1, ?_, i3, ?_, ?_⟩
      · rw [← hb]
        exact Meth.run_ok (by simp only [PSet.add, Meth.get_bind, hz, Meth.lift_ok_bind, Meth.set_bind, Meth.pure_run])
      · rw [i4]; split <;> omega
      · ext y
        rw [List.mem_toFinset, m, has_ltOf, Finset.mem_insert, List.mem_toFinset]
        constructor
        · rintro (h | ⟨h, -⟩)
          · exact .inr h
          · exact .inl h
        · rintro (rfl | h)
          · by_cases hy : y ∈ s
            · exact .inl hy
            · exact .inr ⟨rfl, hy⟩
          · exact .inl h
  | remove e =>
    simp only [SOp.abs, SOp.step]
    obtain ⟨m, i2, i3, i4⟩ := Tree.erase_mem W e s hs
    have hb : ((Tree.erase ltOf e s).2 == 1) = decide (e ∈ s.toFinset) := by
      rw [i2, Bool.eq_iff_iff]
      simp only [has_ltOf, decide_eq_true_eq, List.mem_toFinset]
      split <;> simp_all
    refine ⟨(Tree.erase ltOf e s).1, ?_, i3, by omega, ?_⟩
    · rw [← hb]
      exact Meth.run_ok (by simp only [PSet.remove, Meth.get_bind, Meth.set_bind, Meth.pure_run])
    · ext y
      rw [List.mem_toFinset, m, eqv_ltOf, Finset.mem_erase, List.mem_toFinset]
      exact ⟨fun h => ⟨fun e => h.2 e.symm, h.1⟩, fun h => ⟨h.2, fun e => h.1 e.symm⟩⟩
  | pop =>
    simp only [SOp.abs, SOp.step]
    have hp := PSet.pop_run s hs hl
    by_cases h : s.toFinset.Nonempty
    · rw [dif_pos h] at hp ⊢
      exact ⟨s.drop 1, Meth.run_ok hp.1, List.Pairwise.drop hs, by rw [List.length_drop]; omega, hp.2⟩
    · rw [dif_neg h] at hp ⊢
      exact Meth.run_throw hp
  | min =>
    simp only [SOp.abs, SOp.step, Meth.get_bind, PSet.min_run s hs hl]
    by_cases h : s.toFinset.Nonempty
    · rw [dif_pos h, dif_pos h]
      exact ⟨s, rfl, hs, hl, rfl⟩
    · rw [dif_neg h, dif_neg h]; rfl
  | max =>
    simp only [SOp.abs, SOp.step, Meth.get_bind, PSet.max_run s hs hl]
    by_cases h : s.toFinset.Nonempty
    · rw [dif_pos h, dif_pos h]
      exact ⟨s, rfl, hs, hl, rfl⟩
    · rw [dif_neg h, dif_neg h]; rfl
  | contains e =>
    simp only [SOp.abs, SOp.step]
    have hb : PSet.contains ltOf s e = decide (e ∈ s.toFinset) := by
      unfold PSet.contains PSet.find
      rw [Bool.eq_iff_iff, bne_iff_ne, ne_eq, Tree.find_none W e s hs, has_ltOf]; simp
    rw [← hb]
    exact ⟨s, rfl, hs, hl, rfl⟩
  | size =>
    simp only [SOp.abs, SOp.step, hs.card, ← PSet.size_ok hl]
    exact ⟨s, rfl, hs, hl, rfl⟩
  | extend xs =>
    simp only [SOp.abs, SOp.step]
    obtain ⟨i1, i2, -, -⟩ := Tree.insertAll_spec W xs s hs
    have hx : (Tree.insertAll ltOf xs s).toFinset = s.toFinset ∪ xs.toFinset := by
      ext y
      have := i2 y
      simp only [has_ltOf] at this
      simp [this]
    refine ⟨Tree.insertAll ltOf xs s, rfl, i1, ?_, hx⟩
    rw [← i1.card, hx]; exact hf
  | clear =>
    simp only [SOp.abs, SOp.step]
    exact ⟨[], rfl, List.Pairwise.nil, by simp, by simp⟩
  | inter t =>
    simp only [SOp.abs, SOp.step]
    have ht : Increasing ltOf (t.getD s) := by
      cases t with
      | none => exact hs
      | some t => exact hf t rfl
    obtain ⟨i1, i2, -, -⟩ := C43_inter W s (t.getD s) hs ht
    have e : t.elim s.toFinset List.toFinset = (t.getD s).toFinset := by cases t <;> rfl
    have hx : (PSet.inter ltOf s (t.getD s)).toFinset = s.toFinset ∩ (t.getD s).toFinset := by
      ext y
      have := i2 y
      simp only [has_ltOf] at this
      simp [this]
    refine ⟨PSet.inter ltOf s (t.getD s), rfl, i1, ?_, by rw [e]; exact hx⟩
    rw [← i1.card, hx]
    exact (Finset.card_le_card Finset.inter_subset_left).trans (by rw [hs.card]; exact hl)
  | union t =>
    simp only [SOp.abs, SOp.step]
    have ht : Increasing ltOf (t.getD s) := by
      cases t with
      | none => exact hs
      | some t => exact hf.1 t rfl
    obtain ⟨i1, i2, -, -⟩ := C43_union W s (t.getD s) hs ht
    have e : t.elim s.toFinset List.toFinset = (t.getD s).toFinset := by cases t <;> rfl
    have hx : (PSet.union ltOf s (t.getD s)).toFinset = s.toFinset ∪ (t.getD s).toFinset := by
      ext y
      have := i2 y
      simp only [has_ltOf] at this
      simp [this]
    refine ⟨PSet.union ltOf s (t.getD s), rfl, i1, ?_, by rw [e]; exact hx⟩
    rw [← i1.card, hx, ← e]
    exact hf.2
  | diff t =>
    simp only [SOp.abs, SOp.step]
    have ht : Increasing ltOf (t.getD s) := by
      cases t with
      | none => exact hs
      | some t => exact hf t rfl
    obtain ⟨i1, i2, -, -⟩ := C43_diff W s (t.getD s) hs ht
    have e : t.elim s.toFinset List.toFinset = (t.getD s).toFinset := by cases t <;> rfl
    have hx : (PSet.diff ltOf s (t.getD s)).toFinset = s.toFinset \ (t.getD s).toFinset := by
      ext y
      have := i2 y
      simp only [has_ltOf] at this
      simp [this]
    refine ⟨PSet.diff ltOf s (t.getD s), rfl, i1, ?_, by rw [e]; exact hx⟩
    rw [← i1.card, hx]
    exact (Finset.card_le_card Finset.sdiff_subset).trans (by rw [hs.card]; exact hl)
  | symDiff t =>
    simp only [SOp.abs, SOp.step]
    have ht : Increasing ltOf (t.getD s) := by
      cases t with
      | none => exact hs
      | some t => exact hf.1 t rfl
    obtain ⟨i1, i2, -, -⟩ := C43_symDiff W s (t.getD s) hs ht
    have e : t.elim s.toFinset List.toFinset = (t.getD s).toFinset := by cases t <;> rfl
    have hx : (PSet.symDiff ltOf s (t.getD s)).toFinset = symmDiff s.toFinset (t.getD s).toFinset := by
      ext y
      have := i2 y
      simp only [has_ltOf] at this
      simp [this, Finset.mem_symmDiff]
    refine ⟨PSet.symDiff ltOf s (t.getD s), rfl, i1, ?_, by rw [e]; exact hx⟩
    rw [← i1.card, hx, ← e]
    exact hf.2

/-- C45, for every history of fair operations from every set (`Fair` excludes growth beyond `INT_MAX` through `extend`, `|=` and
`^=`, which do not check it: the defect below). Every result and exception is the one of the abstract set, and the elements held
are the abstract set, in increasing order. -/
theorem C45_set_history_partial (ops : List (SOp α)) (s : List α) (hs : Increasing ltOf s) (hl : s.length ≤ maxLen)
    (hf : SOp.FairRun s.toFinset ops) :
    (SOp.run ltOf ops s).1 = (SOp.absRun s.toFinset ops).1.map seen ∧
    Increasing ltOf (SOp.run ltOf ops s).2 ∧ (∀ x, x ∈ (SOp.run ltOf ops s).2 ↔ x ∈ (SOp.absRun s.toFinset ops).2) := by
  induction ops generalizing s with
  | nil => simp [SOp.run, SOp.absRun, hs]
  | cons op ops ih =>
    obtain ⟨hfair, hrest⟩ := hf
    have hstep := set_step op s hs hl hfair
    cases habs : op.abs s.toFinset with
    | ok x =>
      obtain ⟨r, f⟩ := x
      simp only [habs] at hstep hrest
      obtain ⟨s', e, h1, h2, h3⟩ := hstep
      obtain ⟨k1, k2, k3⟩ := ih s' h1 h2 (by rw [h3]; exact hrest)
      rw [h3] at k1 k3
      simp only [SOp.run, SOp.absRun, habs, e, List.map_cons, seen]
      exact ⟨by rw [k1], k2, k3⟩
    | error m =>
      simp only [habs] at hstep hrest
      obtain ⟨k1, k2, k3⟩ := ih s hs hl hrest
      simp only [SOp.run, SOp.absRun, habs, hstep, List.map_cons, seen]
      exact ⟨by rw [k1], k2, k3⟩

/-- The constructors give sets. -/
theorem C45_set_construct (xs : List α) : Increasing ltOf (PSet.ofRange ltOf xs) ∧
    ∀ x, x ∈ PSet.ofRange ltOf xs ↔ x ∈ xs := by
  obtain ⟨i1, i2, -, -⟩ := Tree.insertAll_spec (ltOf_strictWeak (α := α)) xs [] List.Pairwise.nil
  refine ⟨i1, fun x => ?_⟩
  have := i2 x
  simpa [has_ltOf, PSet.ofRange] using this

example : Increasing ltOf [1, 2] ∧ SOp.FairRun [1, 2].toFinset [.add 0, .union (some [5, 7]), .remove 1, .pop, .symDiff none] ∧
    SOp.run ltOf [.add 0, .union (some [5, 7]), .remove 1, .pop, .max, .symDiff none, .min] [1, 2] =
      ([.ok (.bool true), .ok .unit, .ok (.bool true), .ok (.elem 0), .ok (.elem 7), .ok .unit, .throw msgEmpty], []) := by
  refine ⟨by simp [increasing_ltOf], ?_, by decide +kernel⟩
  simp [SOp.FairRun, SOp.Fair, SOp.abs, maxLen, increasing_ltOf]
  split <;> simp

/-! ## C41 -/

/-- C41 for `Set::add`: on a full set it throws and changes nothing, otherwise the size stays in range. -/
theorem C41_set_add (s : List α) (hs : Increasing ltOf s) (hl : s.length ≤ maxLen) (e : α) :
    0 ≤ PSet.size s ∧
    ((s.length < maxLen ∧ (∃ b, (PSet.add ltOf e s).1 = .ok b) ∧ (PSet.add ltOf e s).2.length ≤ maxLen ∧
        0 ≤ PSet.size (PSet.add ltOf e s).2) ∨
     (s.length = maxLen ∧ PSet.add ltOf e s = (.throw "Error: The container has reached the maximum size.", s))) := by
  refine ⟨by rw [PSet.size_ok hl]; omega, ?_⟩
  by_cases h : s.length = maxLen
  · right
    have hz : PSet.size s = INT_MAX := by rw [PSet.size_ok hl, h]; unfold maxLen INT_MAX; omega
    exact ⟨h, by simp only [PSet.add, Meth.get_bind, hz, checkFull_throw (Int.le_refl INT_MAX), Meth.lift_throw_bind, msgFull]⟩
  · left
    have hz : checkFull (PSet.size s) INT_MAX = .ok () := by
      rw [PSet.size_ok hl]; exact checkFull_ok (by unfold INT_MAX; unfold maxLen at *; omega)
    have e' : PSet.add ltOf e s = (.ok (Tree.insert ltOf e s).2, (Tree.insert ltOf e s).1) := by
      simp only [PSet.add, Meth.get_bind, hz, Meth.lift_ok_bind, Meth.set_bind, Meth.pure_run]
    have hlen : (Tree.insert ltOf e s).1.length ≤ maxLen := by
      rw [(Tree.insert_mem ltOf_strictWeak e s hs).2.2.2]; split <;> omega
    rw [e']
    exact ⟨by omega, ⟨_, rfl⟩, hlen, by rw [PSet.size_ok hlen]; omega⟩

/-- C41 and C45 are false of the code for `extend` and `|=`: they do not check the size, and `size()` becomes negative. -/
theorem C41_set_extend_not (s : List α) (hs : Increasing ltOf s) (hl : s.length = maxLen) (e : α) (he : e ∉ s) :
    PSet.size (PSet.extend ltOf [e] s).2 = -2147483648 ∧ PSet.size (PSet.unionAssign ltOf (some [e]) s).2 = -2147483648 := by
  have W : StrictWeak (ltOf : α → α → Bool) := ltOf_strictWeak
  have hu := C43_union W s [e] hs (by simp [Increasing])
  have e1 : (PSet.extend ltOf [e] s).2 = (Tree.insert ltOf e s).1 := by
    simp [PSet.extend, Tree.insertAll]
  obtain ⟨m, i2, i3, i4⟩ := Tree.insert_mem W e s hs
  have e2 : PSet.union ltOf s [e] = (Tree.insert ltOf e s).1 := by
    apply hu.1.ext i3
    intro x
    rw [hu.2.2.1, m]
    simp only [has_ltOf, List.mem_singleton]
    constructor
    · rintro (h | ⟨rfl, h⟩)
      · exact .inl h
      · exact .inr ⟨rfl, h⟩
    · rintro (h | ⟨rfl, h⟩)
      · exact .inl h
      · exact .inr ⟨rfl, h⟩
  have hlen : (Tree.insert ltOf e s).1.length = 2147483648 := by
    have : (Tree.insert ltOf e s).2 = true := by rw [i2, has_ltOf]; exact he
    rw [i4, this, if_pos rfl, hl]; unfold maxLen; omega
  rw [e1, hu.2.2.2, e2]
  have : PSet.size (Tree.insert ltOf e s).1 = -2147483648 := by
    unfold PSet.size; rw [hlen]; decide
  exact ⟨this, this⟩

/-- Such sets exist. -/
example : Increasing ltOf (List.range maxLen) ∧ (List.range maxLen).length = maxLen ∧ maxLen ∉ List.range maxLen :=
  ⟨increasing_ltOf.2 List.pairwise_lt_range, List.length_range, by simp⟩

end linear

end Pyincpp
