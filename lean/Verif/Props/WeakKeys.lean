import Verif.Spec.Weak
import Verif.Props.AnySize
import Verif.Props.Nested
import Verif.Props.AnyEq
import Verif.Props.SignedZero

/-! # Sets and dictionaries whose elements may be equivalent without being the same (C97)

`std::set` and `std::map` need a comparator that is a strict weak order; elements that are not less than each other are taken for the same, although a program may be
able to tell them apart: the two zeros of `double`, or objects compared by one of their members. The theorems say which of them is held. -/

namespace Pyincpp

open Lst Classical

section set
variable {α : Type} [DecidableEq α] {lt : α → α → Bool}

/-- The finite set of the elements of a list. -/
theorem held_toFinset {s : List α} {x : α} : Held lt s.toFinset x ↔ Has lt s x := by
  simp [Held, Has]

omit [DecidableEq α] in
theorem Increasing.nodup' (W : StrictWeak lt) {s : List α} (h : Increasing lt s) : s.Nodup := by
  apply List.Pairwise.imp _ h
  intro a b hab he
  subst he
  rw [W.irrefl] at hab
  exact Bool.noConfusion hab

theorem Increasing.card' (W : StrictWeak lt) {s : List α} (h : Increasing lt s) : s.toFinset.card = s.length :=
  List.toFinset_card_of_nodup (h.nodup' W)

theorem Increasing.head_least (W : StrictWeak lt) {x : α} {xs : List α} (h : Increasing lt (x :: xs)) : leastOf lt (x :: xs).toFinset = some x := by
  have hx := (Increasing.cons.1 h).1
  have hex : ∃ y ∈ (x :: xs).toFinset, ∀ z ∈ (x :: xs).toFinset, lt z y = false := by
    refine ⟨x, by simp, fun z hz => ?_⟩
    rw [List.mem_toFinset, List.mem_cons] at hz
    rcases hz with rfl | hz
    · exact W.irrefl _
    · exact W.asymm (hx z hz)
  unfold leastOf
  rw [dif_pos hex]
  congr 1
  have h1 := hex.choose_spec.1
  have h2 := hex.choose_spec.2
  rw [List.mem_toFinset, List.mem_cons] at h1
  rcases h1 with h1 | h1
  · exact h1
  · have h3 := h2 x (by simp)
    rw [hx _ h1] at h3
    exact Bool.noConfusion h3

theorem Increasing.last_greatest (W : StrictWeak lt) {x : α} {xs : List α} (h : Increasing lt (xs ++ [x])) :
    greatestOf lt (xs ++ [x]).toFinset = some x := by
  have hx : ∀ y ∈ xs, lt y x = true := fun y hy => (List.pairwise_append.1 h).2.2 y hy x (by simp)
  have hex : ∃ y ∈ (xs ++ [x]).toFinset, ∀ z ∈ (xs ++ [x]).toFinset, lt y z = false := by
    refine ⟨x, by simp, fun z hz => ?_⟩
    rw [List.mem_toFinset, List.mem_append, List.mem_singleton] at hz
    rcases hz with hz | rfl
    · exact W.asymm (hx z hz)
    · exact W.irrefl _
  unfold greatestOf
  rw [dif_pos hex]
  congr 1
  have h1 := hex.choose_spec.1
  have h2 := hex.choose_spec.2
  rw [List.mem_toFinset, List.mem_append, List.mem_singleton] at h1
  rcases h1 with h1 | h1
  · have h3 := h2 x (by simp)
    rw [hx _ h1] at h3
    exact Bool.noConfusion h3
  · exact h1

theorem leastOf_nil : leastOf lt (([] : List α).toFinset) = none := by
  unfold leastOf
  rw [dif_neg (by simp)]

theorem greatestOf_nil : greatestOf lt (([] : List α).toFinset) = none := by
  unfold greatestOf
  rw [dif_neg (by simp)]

theorem insert_weak (W : StrictWeak lt) (e : α) (s : List α) (hs : Increasing lt s) :
    (Tree.insert lt e s).1.toFinset = addWeak lt s.toFinset e := by
  obtain ⟨m, -⟩ := Tree.insert_mem W e s hs
  ext y
  rw [List.mem_toFinset, m]
  unfold addWeak
  rw [held_toFinset]
  by_cases h : Has lt s e
  · simp [h]
  · simp [h]; tauto

theorem insertAll_weak (W : StrictWeak lt) (xs : List α) : ∀ s : List α, Increasing lt s →
    Increasing lt (Tree.insertAll lt xs s) ∧ (Tree.insertAll lt xs s).toFinset = xs.foldl (addWeak lt) s.toFinset := by
  induction xs with
  | nil => exact fun s hs => ⟨hs, rfl⟩
  | cons x xs ih =>
    intro s hs
    obtain ⟨-, -, i3, -⟩ := Tree.insert_mem W x s hs
    have := ih _ i3
    rw [insert_weak W x s hs] at this
    exact this

theorem inter_weak (W : StrictWeak lt) (s t : List α) (hs : Increasing lt s) (ht : Increasing lt t) :
    (PSet.inter lt s t).toFinset = s.toFinset.filter (fun x => Held lt t.toFinset x) := by
  obtain ⟨-, i2, i3, -⟩ := C43_inter W s t hs ht
  ext x
  rw [List.mem_toFinset, Finset.mem_filter, List.mem_toFinset, held_toFinset]
  constructor
  · exact fun h => ⟨i3 x h, ((i2 x).1 (Has.mem W h)).2⟩
  · rintro ⟨h1, h2⟩
    obtain ⟨y, hy, e⟩ := (i2 x).2 ⟨Has.mem W h1, h2⟩
    rw [hs.eqv_eq W h1 (i3 y hy) e]
    exact hy

theorem union_weak (W : StrictWeak lt) (s t : List α) (hs : Increasing lt s) (ht : Increasing lt t) :
    (PSet.union lt s t).toFinset = s.toFinset ∪ t.toFinset.filter (fun x => ¬ Held lt s.toFinset x) := by
  obtain ⟨-, -, i3, -⟩ := C43_union W s t hs ht
  ext x
  rw [List.mem_toFinset, i3, Finset.mem_union, Finset.mem_filter, List.mem_toFinset, List.mem_toFinset, held_toFinset]

theorem diff_weak (W : StrictWeak lt) (s t : List α) (hs : Increasing lt s) (ht : Increasing lt t) :
    (PSet.diff lt s t).toFinset = s.toFinset.filter (fun x => ¬ Held lt t.toFinset x) := by
  obtain ⟨-, i2, i3, -⟩ := C43_diff W s t hs ht
  ext x
  rw [List.mem_toFinset, Finset.mem_filter, List.mem_toFinset, held_toFinset]
  constructor
  · exact fun h => ⟨i3 x h, ((i2 x).1 (Has.mem W h)).2⟩
  · rintro ⟨h1, h2⟩
    obtain ⟨y, hy, e⟩ := (i2 x).2 ⟨Has.mem W h1, h2⟩
    rw [hs.eqv_eq W h1 (i3 y hy) e]
    exact hy

theorem symDiff_weak (W : StrictWeak lt) (s t : List α) (hs : Increasing lt s) (ht : Increasing lt t) :
    (PSet.symDiff lt s t).toFinset = s.toFinset.filter (fun x => ¬ Held lt t.toFinset x) ∪ t.toFinset.filter (fun x => ¬ Held lt s.toFinset x) := by
  obtain ⟨-, i2, i3, -⟩ := C43_symDiff W s t hs ht
  ext x
  rw [Finset.mem_union, Finset.mem_filter, Finset.mem_filter]
  simp only [List.mem_toFinset, held_toFinset]
  constructor
  · intro h
    rcases (i2 x).1 (Has.mem W h) with h2 | h2
    · rcases i3 x h with h3 | h3
      · exact .inl ⟨h3, h2.2⟩
      · exact absurd (Has.mem W h3) h2.2
    · rcases i3 x h with h3 | h3
      · exact absurd (Has.mem W h3) h2.2
      · exact .inr ⟨h3, h2.2⟩
  · rintro (⟨h1, h2⟩ | ⟨h1, h2⟩)
    · obtain ⟨y, hy, e⟩ := (i2 x).2 (.inl ⟨Has.mem W h1, h2⟩)
      rcases i3 y hy with h3 | h3
      · rw [hs.eqv_eq W h1 h3 e]; exact hy
      · exact absurd ⟨y, h3, e⟩ h2
    · obtain ⟨y, hy, e⟩ := (i2 x).2 (.inr ⟨Has.mem W h1, h2⟩)
      rcases i3 y hy with h3 | h3
      · exact absurd ⟨y, h3, e⟩ h2
      · rw [ht.eqv_eq W h1 h3 e]; exact hy

/-- One operation. -/
theorem set_step_weak (W : StrictWeak lt) (op : SOp α) (s : List α) (hs : Increasing lt s) (hf : op.Sets lt) :
    match op.weak lt s.toFinset with
    | .ok (r, f) => ∃ s', op.step lt s = (.ok r, s') ∧ Increasing lt s' ∧ s'.toFinset = f
    | .error m => op.step lt s = (.throw m, s) := by
  have hcard := hs.card' W
  cases op with
  | add e =>
    simp only [SOp.weak, SOp.step, hcard]
    obtain ⟨-, i2, i3, -⟩ := Tree.insert_mem W e s hs
    have hz := PSet.checkFull_any s
    by_cases h : s.length % 4294967296 = maxLen
    · rw [if_pos h] at hz ⊢
      exact Meth.run_throw (by simp only [PSet.add, Meth.get_bind, hz, Meth.lift_throw_bind])
    · rw [if_neg h] at hz ⊢
      have hb : (Tree.insert lt e s).2 = decide (¬ Held lt s.toFinset e) := by
        rw [Bool.eq_iff_iff, i2, decide_eq_true_eq, held_toFinset]
      refine ⟨(Tree.insert lt e s).1, ?_, i3, insert_weak W e s hs⟩
      rw [← hb]
      exact Meth.run_ok (by simp only [PSet.add, Meth.get_bind, hz, Meth.lift_ok_bind, Meth.set_bind, Meth.pure_run])
  | remove e =>
    simp only [SOp.weak, SOp.step]
    obtain ⟨m, i2, i3, i4⟩ := Tree.erase_mem W e s hs
    have hb : ((Tree.erase lt e s).2 == 1) = decide (Held lt s.toFinset e) := by
      rw [i2, Bool.eq_iff_iff, decide_eq_true_eq, held_toFinset]
      split <;> simp_all
    refine ⟨(Tree.erase lt e s).1, ?_, i3, ?_⟩
    · rw [← hb]
      exact Meth.run_ok (by simp only [PSet.remove, Meth.get_bind, Meth.set_bind, Meth.pure_run])
    · ext y
      rw [List.mem_toFinset, m, Finset.mem_filter, List.mem_toFinset]
  | pop =>
    simp only [SOp.weak, SOp.step, hcard]
    have hz := PSet.checkEmpty_any s
    cases s with
    | nil =>
      rw [leastOf_nil]
      rw [List.length_nil, if_pos (dvd_zero _)] at hz
      exact Meth.run_throw (by simp only [PSet.pop, Meth.get_bind, hz, Meth.lift_throw_bind])
    | cons x xs =>
      rw [hs.head_least W]
      by_cases h : 4294967296 ∣ (x :: xs).length
      · simp only [if_pos h] at hz ⊢
        exact Meth.run_throw (by simp only [PSet.pop, Meth.get_bind, hz, Meth.lift_throw_bind])
      · simp only [if_neg h] at hz ⊢
        have hb : PSet.stdBegin (x :: xs) = .ok x := by simp [PSet.stdBegin, vget]
        refine ⟨xs, Meth.run_ok (by
          simp only [PSet.pop, Meth.get_bind, hz, Meth.lift_ok_bind, hb, Meth.set_bind, Meth.pure_run, List.drop_succ_cons, List.drop_zero]), (Increasing.cons.1 hs).2, ?_⟩
        have hn : x ∉ xs := (List.nodup_cons.1 (hs.nodup' W)).1
        ext y
        simp only [List.mem_toFinset, Finset.mem_erase, List.mem_cons]
        constructor
        · intro hy; exact ⟨fun e => hn (e ▸ hy), .inr hy⟩
        · rintro ⟨h1, h2 | h2⟩
          · exact absurd h2 h1
          · exact h2
  | min =>
    simp only [SOp.weak, SOp.step, hcard, Meth.get_bind, PSet.min]
    have hz := PSet.checkEmpty_any s
    cases s with
    | nil =>
      rw [leastOf_nil]
      rw [List.length_nil, if_pos (dvd_zero _)] at hz
      simp only
      rw [hz]; rfl
    | cons x xs =>
      rw [hs.head_least W]
      by_cases h : 4294967296 ∣ (x :: xs).length
      · simp only [if_pos h] at hz ⊢
        rw [hz]; rfl
      · simp only [if_neg h] at hz ⊢
        have hb : PSet.stdBegin (x :: xs) = .ok x := by simp [PSet.stdBegin, vget]
        rw [hz, Res.ok_bind, hb]
        exact ⟨_, rfl, hs, rfl⟩
  | max =>
    simp only [SOp.weak, SOp.step, hcard, Meth.get_bind, PSet.max]
    have hz := PSet.checkEmpty_any s
    rcases List.eq_nil_or_concat s with rfl | ⟨xs, x, rfl⟩
    · rw [greatestOf_nil]
      rw [List.length_nil, if_pos (dvd_zero _)] at hz
      simp only
      rw [hz]; rfl
    · rw [List.concat_eq_append] at *
      rw [hs.last_greatest W]
      by_cases h : 4294967296 ∣ (xs ++ [x]).length
      · simp only [if_pos h] at hz ⊢
        rw [hz]; rfl
      · simp only [if_neg h] at hz ⊢
        have hb : PSet.stdRbegin (xs ++ [x]) = .ok x := by simp [PSet.stdRbegin, vget]
        rw [hz, Res.ok_bind, hb]
        exact ⟨_, rfl, hs, rfl⟩
  | contains e =>
    simp only [SOp.weak, SOp.step]
    have hb : PSet.contains lt s e = decide (Held lt s.toFinset e) := by
      unfold PSet.contains PSet.find
      rw [Bool.eq_iff_iff, bne_iff_ne, ne_eq, Tree.find_none W e s hs, decide_eq_true_eq, held_toFinset, not_not]
    rw [← hb]
    exact ⟨s, rfl, hs, rfl⟩
  | size =>
    simp only [SOp.weak, SOp.step, hcard]
    refine ⟨s, ?_, hs, rfl⟩
    have : asInt s.length = PSet.size s := shown_eq_wrap s.length
    rw [this]
    rfl
  | extend xs =>
    simp only [SOp.weak, SOp.step]
    obtain ⟨i1, i2⟩ := insertAll_weak W xs s hs
    exact ⟨Tree.insertAll lt xs s, rfl, i1, i2⟩
  | clear =>
    simp only [SOp.weak, SOp.step]
    exact ⟨[], rfl, List.Pairwise.nil, by simp⟩
  | inter t =>
    simp only [SOp.weak, SOp.step]
    have ht : Increasing lt (t.getD s) := by
      cases t with
      | none => exact hs
      | some t => exact hf t rfl
    have e : t.elim s.toFinset List.toFinset = (t.getD s).toFinset := by cases t <;> rfl
    rw [e]
    exact ⟨PSet.inter lt s (t.getD s), rfl, (C43_inter W s _ hs ht).1, inter_weak W s _ hs ht⟩
  | union t =>
    simp only [SOp.weak, SOp.step]
    have ht : Increasing lt (t.getD s) := by
      cases t with
      | none => exact hs
      | some t => exact hf t rfl
    have e : t.elim s.toFinset List.toFinset = (t.getD s).toFinset := by cases t <;> rfl
    rw [e]
    exact ⟨PSet.union lt s (t.getD s), rfl, (C43_union W s _ hs ht).1, union_weak W s _ hs ht⟩
  | diff t =>
    simp only [SOp.weak, SOp.step]
    have ht : Increasing lt (t.getD s) := by
      cases t with
      | none => exact hs
      | some t => exact hf t rfl
    have e : t.elim s.toFinset List.toFinset = (t.getD s).toFinset := by cases t <;> rfl
    rw [e]
    exact ⟨PSet.diff lt s (t.getD s), rfl, (C43_diff W s _ hs ht).1, diff_weak W s _ hs ht⟩
  | symDiff t =>
    simp only [SOp.weak, SOp.step]
    have ht : Increasing lt (t.getD s) := by
      cases t with
      | none => exact hs
      | some t => exact hf t rfl
    have e : t.elim s.toFinset List.toFinset = (t.getD s).toFinset := by cases t <;> rfl
    rw [e]
    exact ⟨PSet.symDiff lt s (t.getD s), rfl, (C43_symDiff W s _ hs ht).1, symDiff_weak W s _ hs ht⟩

/-- C97 for sets: every history, whatever the order and the size. An element is not added if an equivalent one is held, which stays; `&` and `-` keep elements of the
left operand; `|` takes from the right operand what has no equivalent in the left one. -/
theorem C97_set_history (W : StrictWeak lt) (ops : List (SOp α)) (s : List α) (hs : Increasing lt s) (hf : ∀ op ∈ ops, op.Sets lt) :
    (SOp.run lt ops s).1 = (SOp.weakRun lt s.toFinset ops).1.map seen ∧
    Increasing lt (SOp.run lt ops s).2 ∧ (∀ x, x ∈ (SOp.run lt ops s).2 ↔ x ∈ (SOp.weakRun lt s.toFinset ops).2) := by
  induction ops generalizing s with
  | nil => simp [SOp.run, SOp.weakRun, hs]
  | cons op ops ih =>
    obtain ⟨hfair, hrest⟩ := List.forall_mem_cons.1 hf
    have hstep := set_step_weak W op s hs hfair
    cases habs : op.weak lt s.toFinset with
    | ok x =>
      obtain ⟨r, f⟩ := x
      simp only [habs] at hstep
      obtain ⟨s', e, h1, h3⟩ := hstep
      obtain ⟨k1, k2, k3⟩ := ih s' h1 hrest
      rw [h3] at k1 k3
      simp only [SOp.run, SOp.weakRun, habs, e, List.map_cons, seen]
      exact ⟨by rw [k1], k2, k3⟩
    | error m =>
      simp only [habs] at hstep
      obtain ⟨k1, k2, k3⟩ := ih s hs hrest
      simp only [SOp.run, SOp.weakRun, habs, hstep, List.map_cons, seen]
      exact ⟨by rw [k1], k2, k3⟩

/-- The hypotheses are met by pairs compared by their first component, with a set and an operand that hold other representatives. -/
example : ∃ (lt : ℕ × ℕ → ℕ × ℕ → Bool) (ops : List (SOp (ℕ × ℕ))) (s : List (ℕ × ℕ)), StrictWeak lt ∧ Increasing lt s ∧ (∀ op ∈ ops, op.Sets lt) ∧
    SOp.run lt ops s = ([.ok (.bool false), .ok .unit, .ok (.int 2)], [(1, 0), (2, 9)]) := by
  refine ⟨fun a b => decide (a.1 < b.1), [.add (1, 5), .union (some [(1, 7), (2, 9)]), .size], [(1, 0)], ⟨?_, ?_, ?_⟩, List.pairwise_singleton _ _, ?_, by decide +kernel⟩
  · intro a; simp
  · intro a b c; simp only [decide_eq_true_eq]; omega
  · intro a b c; simp only [decide_eq_false_iff_not]; omega
  · simp only [List.mem_cons, List.not_mem_nil, or_false, forall_eq_or_imp, forall_eq]
    refine ⟨trivial, ?_, trivial⟩
    intro t ht
    cases ht
    simp [Increasing]

end set

section dict
variable {K V : Type} [DecidableEq K] [DecidableEq V] {lt : K → K → Bool}

omit [DecidableEq K] [DecidableEq V] in
theorem StrictWeak.keyLt (W : StrictWeak lt) : StrictWeak (PDict.keyLt lt : K × V → K × V → Bool) :=
  ⟨fun p => W.irrefl p.1, fun p q r => W.trans p.1 q.1 r.1, fun p q r => W.incomp p.1 q.1 r.1⟩

theorem heldKey_iff {d : List (K × V)} {k : K} (v : V) : HeldKey lt d.toFinset k ↔ Has (PDict.keyLt lt) d (k, v) := by
  simp only [HeldKey, Has, List.mem_toFinset]
  rfl

theorem insertPair_weak (W : StrictWeak lt) (p : K × V) (d : List (K × V)) (hd : Increasing (PDict.keyLt lt) d) :
    (Tree.insert (PDict.keyLt lt) p d).1.toFinset = addPair lt d.toFinset p := by
  rw [insert_weak W.keyLt p d hd]
  unfold addWeak addPair
  rw [held_toFinset, heldKey_iff p.2]

theorem insertAllPairs_weak (W : StrictWeak lt) (xs : List (K × V)) : ∀ d : List (K × V), Increasing (PDict.keyLt lt) d →
    Increasing (PDict.keyLt lt) (Tree.insertAll (PDict.keyLt lt) xs d) ∧
    (Tree.insertAll (PDict.keyLt lt) xs d).toFinset = xs.foldl (addPair lt) d.toFinset := by
  induction xs with
  | nil => exact fun d hd => ⟨hd, rfl⟩
  | cons x xs ih =>
    intro d hd
    obtain ⟨-, -, i3, -⟩ := Tree.insert_mem W.keyLt x d hd
    have := ih _ i3
    rw [insertPair_weak W x d hd] at this
    exact this

/-- Where the pair with an equivalent key is. -/
theorem PDict.find_weak (W : StrictWeak lt) (k : K) (d : List (K × V)) (hd : Increasing (PDict.keyLt lt) d) :
    (PDict.mapFind lt k d = none ∧ ¬ HeldKey lt d.toFinset k) ∨
    ∃ i p, PDict.mapFind lt k d = some i ∧ d[i]? = some p ∧ Eqv lt k p.1 := by
  rw [mapFind_eq]
  have hs := Tree.find_spec W k (d.map Prod.fst) (increasing_keys.1 hd)
  cases hf : Tree.find lt k (d.map Prod.fst) with
  | none =>
    rw [hf] at hs
    refine .inl ⟨rfl, ?_⟩
    rintro ⟨p, hp, e⟩
    exact hs ⟨p.1, List.mem_map.2 ⟨p, List.mem_toFinset.1 hp, rfl⟩, e⟩
  | some i =>
    rw [hf] at hs
    obtain ⟨y, hy, e⟩ := hs
    rw [List.getElem?_map, Option.map_eq_some_iff] at hy
    obtain ⟨p, hp, rfl⟩ := hy
    exact .inr ⟨i, p, rfl, hp, e⟩

theorem valueAt_some (W : StrictWeak lt) {k : K} {d : List (K × V)} (hd : Increasing (PDict.keyLt lt) d) {p : K × V} (hp : p ∈ d) (e : Eqv lt k p.1) :
    HeldKey lt d.toFinset k ∧ valueAt lt d.toFinset k = some p.2 := by
  have h : HeldKey lt d.toFinset k := ⟨p, List.mem_toFinset.2 hp, e⟩
  refine ⟨h, ?_⟩
  unfold valueAt
  rw [dif_pos h]
  have h1 := h.choose_spec.1
  have h2 := h.choose_spec.2
  rw [List.mem_toFinset] at h1
  rw [hd.eqv_eq W.keyLt h1 hp (W.eqv_trans h2.symm e)]

theorem assign_weak (W : StrictWeak lt) {k : K} {d : List (K × V)} (hd : Increasing (PDict.keyLt lt) d) {p : K × V} {i : Nat} (hp : d[i]? = some p)
    (e : Eqv lt k p.1) (v : V) : Increasing (PDict.keyLt lt) (d.set i (p.1, v)) ∧
    (d.set i (p.1, v)).toFinset = d.toFinset.image (fun q => if Eqv lt k q.1 then (q.1, v) else q) := by
  obtain ⟨hi, rfl⟩ := List.getElem?_eq_some_iff.1 hp
  have hmap : d.set i (d[i].1, v) = d.map (fun q => if Eqv lt k q.1 then (q.1, v) else q) := by
    apply List.ext_getElem (by simp)
    intro j h1 h2
    rw [List.getElem_set, List.getElem_map]
    by_cases hj : i = j
    · subst hj
      rw [if_pos rfl, if_pos e]
    · rw [if_neg hj, if_neg]
      intro e'
      have hjd : j < d.length := by simpa using h2
      have : d[i] = d[j] := hd.eqv_eq W.keyLt (List.getElem_mem hi) (List.getElem_mem hjd) (W.eqv_trans e.symm e')
      exact hj ((List.Nodup.getElem_inj_iff (hd.nodup' W.keyLt)).1 this)
  refine ⟨?_, ?_⟩
  · rw [hmap]
    unfold Increasing
    rw [List.pairwise_map]
    apply List.Pairwise.imp _ hd
    intro a b hab
    have h1 : ∀ q : K × V, (if Eqv lt k q.1 then (q.1, v) else q).1 = q.1 := fun q => by split <;> rfl
    show lt _ _ = true
    rw [h1, h1]
    exact hab
  · rw [hmap]
    ext q
    simp [eq_comm]

/-- One operation. -/
theorem dict_step_weak (W : StrictWeak lt) (op : MOp K V) (d : List (K × V)) (hd : Increasing (PDict.keyLt lt) d) :
    match op.weak lt d.toFinset with
    | .ok (r, f) => ∃ d', op.step lt d = (.ok r, d') ∧ Increasing (PDict.keyLt lt) d' ∧ d'.toFinset = f
    | .error m => op.step lt d = (.throw m, d) := by
  have hcard := hd.card' W.keyLt
  cases op with
  | add k v =>
    simp only [MOp.weak, MOp.step, hcard]
    obtain ⟨-, i2, i3, -⟩ := Tree.insert_mem W.keyLt (k, v) d hd
    have hz := PDict.checkFull_any d
    by_cases h : d.length % 4294967296 = maxLen
    · rw [if_pos h] at hz ⊢
      exact Meth.run_throw (by simp only [PDict.add, Meth.get_bind, hz, Meth.lift_throw_bind])
    · rw [if_neg h] at hz ⊢
      have hb : (Tree.insert (PDict.keyLt lt) (k, v) d).2 = decide (¬ HeldKey lt d.toFinset k) := by
        rw [Bool.eq_iff_iff, i2, decide_eq_true_eq, heldKey_iff v]
      refine ⟨(Tree.insert (PDict.keyLt lt) (k, v) d).1, ?_, i3, insertPair_weak W (k, v) d hd⟩
      rw [← hb]
      exact Meth.run_ok (by simp only [PDict.add, Meth.get_bind, hz, Meth.lift_ok_bind, Meth.set_bind, Meth.pure_run])
  | remove k =>
    simp only [MOp.weak, MOp.step]
    cases d with
    | nil =>
      refine ⟨[], ?_, hd, by simp⟩
      have hr : PDict.remove lt k ([] : List (K × V)) = (.ok false, []) := rfl
      rw [Meth.run_ok hr]
      simp [HeldKey]
    | cons p ps =>
      obtain ⟨m, i2, i3, -⟩ := Tree.erase_mem W.keyLt (k, p.2) (p :: ps) hd
      have hb : ((Tree.erase (PDict.keyLt lt) (k, p.2) (p :: ps)).2 == 1) = decide (HeldKey lt (p :: ps).toFinset k) := by
        rw [i2, Bool.eq_iff_iff, decide_eq_true_eq, heldKey_iff p.2]
        split <;> simp_all
      refine ⟨(Tree.erase (PDict.keyLt lt) (k, p.2) (p :: ps)).1, ?_, i3, ?_⟩
      · rw [← hb]
        exact Meth.run_ok (by
          simp only [PDict.remove, Meth.get_bind, Meth.set_bind, Meth.pure_run, mapErase_eq lt k p.2])
      · ext q
        rw [List.mem_toFinset, m, Finset.mem_filter, List.mem_toFinset]
        rfl
  | assign k v =>
    simp only [MOp.weak, MOp.step]
    rcases PDict.find_weak W k d hd with ⟨h1, h2⟩ | ⟨i, p, h1, h2, h3⟩
    · rw [if_neg h2]
      exact Meth.run_throw (by
        simp only [PDict.assign, Meth.get_bind, PDict.refAt, h1, Meth.lift_throw_bind, msgKey])
    · rw [if_pos (valueAt_some W hd (List.mem_of_getElem? h2) h3).1]
      obtain ⟨a1, a2⟩ := assign_weak W hd h2 h3 v
      refine ⟨d.set i (p.1, v), ?_, a1, a2⟩
      exact Meth.run_ok (a := ()) (by
        simp only [PDict.assign, Meth.get_bind, PDict.refAt, h1, Meth.lift_ok_bind, vget_some h2, Meth.set_run])
  | get k =>
    simp only [MOp.weak, MOp.step, Meth.get_bind]
    rcases PDict.find_weak W k d hd with ⟨h1, h2⟩ | ⟨i, p, h1, h2, h3⟩
    · have : valueAt lt d.toFinset k = none := by unfold valueAt; rw [dif_neg h2]
      rw [this]
      simp only [PDict.get, PDict.refAt, h1, Res.throw_bind]
      rfl
    · rw [(valueAt_some W hd (List.mem_of_getElem? h2) h3).2]
      refine ⟨d, ?_, hd, rfl⟩
      simp only [PDict.get, PDict.refAt, h1, Res.ok_bind, vget_some h2]
      rfl
  | getOr k v =>
    simp only [MOp.weak, MOp.step, Meth.get_bind]
    rcases PDict.find_weak W k d hd with ⟨h1, h2⟩ | ⟨i, p, h1, h2, h3⟩
    · have : valueAt lt d.toFinset k = none := by unfold valueAt; rw [dif_neg h2]
      rw [this]
      refine ⟨d, ?_, hd, rfl⟩
      simp only [PDict.getOr, PDict.contains, h1]
      rfl
    · rw [(valueAt_some W hd (List.mem_of_getElem? h2) h3).2]
      refine ⟨d, ?_, hd, rfl⟩
      simp only [PDict.getOr, PDict.contains, PDict.get, PDict.refAt, h1, Res.ok_bind, vget_some h2]
      rfl
  | contains k =>
    simp only [MOp.weak, MOp.step, Meth.get_bind]
    refine ⟨d, ?_, hd, rfl⟩
    have : PDict.contains lt d k = decide (HeldKey lt d.toFinset k) := by
      rcases PDict.find_weak W k d hd with ⟨h1, h2⟩ | ⟨i, p, h1, h2, h3⟩
      · simp [PDict.contains, h1, h2]
      · simp [PDict.contains, h1, (valueAt_some W hd (List.mem_of_getElem? h2) h3).1]
    rw [this]
    rfl
  | pop =>
    simp only [MOp.weak, MOp.step, hcard]
    have hz := PDict.checkEmpty_any d
    cases d with
    | nil =>
      have : leastOf (fun p q : K × V => lt p.1 q.1) ([] : List (K × V)).toFinset = none := leastOf_nil
      rw [this]
      rw [List.length_nil, if_pos (dvd_zero _)] at hz
      exact Meth.run_throw (by simp only [PDict.pop, Meth.get_bind, hz, Meth.lift_throw_bind])
    | cons x xs =>
      have hl : leastOf (fun p q : K × V => lt p.1 q.1) (x :: xs).toFinset = some x := hd.head_least W.keyLt
      rw [hl]
      by_cases h : 4294967296 ∣ (x :: xs).length
      · simp only [if_pos h] at hz ⊢
        exact Meth.run_throw (by simp only [PDict.pop, Meth.get_bind, hz, Meth.lift_throw_bind])
      · simp only [if_neg h] at hz ⊢
        have hb : PSet.stdBegin (x :: xs) = .ok x := by simp [PSet.stdBegin, vget]
        refine ⟨xs, Meth.run_ok (by
          simp only [PDict.pop, Meth.get_bind, hz, Meth.lift_ok_bind, hb, Meth.set_bind, Meth.pure_run, List.drop_succ_cons, List.drop_zero]), (Increasing.cons.1 hd).2, ?_⟩
        have hn : x ∉ xs := (List.nodup_cons.1 (hd.nodup' W.keyLt)).1
        ext y
        simp only [List.mem_toFinset, Finset.mem_erase, List.mem_cons]
        constructor
        · intro hy; exact ⟨fun e => hn (e ▸ hy), .inr hy⟩
        · rintro ⟨h1, h2 | h2⟩
          · exact absurd h2 h1
          · exact h2
  | size =>
    simp only [MOp.weak, MOp.step, hcard]
    refine ⟨d, ?_, hd, rfl⟩
    have : asInt d.length = PDict.size d := shown_eq_wrap d.length
    rw [this]
    rfl
  | extend xs =>
    simp only [MOp.weak, MOp.step]
    obtain ⟨i1, i2⟩ := insertAllPairs_weak W xs d hd
    exact ⟨Tree.insertAll (PDict.keyLt lt) xs d, rfl, i1, i2⟩
  | clear =>
    simp only [MOp.weak, MOp.step]
    exact ⟨[], rfl, List.Pairwise.nil, by simp⟩

/-- C97 for dictionaries: every history, whatever the order of the keys and the size. The key that came first stays, also when a value is assigned under an equivalent
key. -/
theorem C97_dict_history (W : StrictWeak lt) (ops : List (MOp K V)) (d : List (K × V)) (hd : Increasing (PDict.keyLt lt) d) :
    (MOp.run lt ops d).1 = (MOp.weakRun lt d.toFinset ops).1.map seen ∧
    Increasing (PDict.keyLt lt) (MOp.run lt ops d).2 ∧ (∀ p, p ∈ (MOp.run lt ops d).2 ↔ p ∈ (MOp.weakRun lt d.toFinset ops).2) := by
  induction ops generalizing d with
  | nil => simp [MOp.run, MOp.weakRun, hd]
  | cons op ops ih =>
    have hstep := dict_step_weak W op d hd
    cases habs : op.weak lt d.toFinset with
    | ok x =>
      obtain ⟨r, f⟩ := x
      simp only [habs] at hstep
      obtain ⟨d', e, h1, h3⟩ := hstep
      obtain ⟨k1, k2, k3⟩ := ih d' h1
      rw [h3] at k1 k3
      simp only [MOp.run, MOp.weakRun, habs, e, List.map_cons, seen]
      exact ⟨by rw [k1], k2, k3⟩
    | error m =>
      simp only [habs] at hstep
      obtain ⟨k1, k2, k3⟩ := ih d hd
      simp only [MOp.run, MOp.weakRun, habs, hstep, List.map_cons, seen]
      exact ⟨by rw [k1], k2, k3⟩

/-- The hypotheses are met by keys compared by their first component; assigning leaves the key. -/
example : ∃ (lt : ℕ × ℕ → ℕ × ℕ → Bool) (ops : List (MOp (ℕ × ℕ) ℕ)) (d : List ((ℕ × ℕ) × ℕ)), StrictWeak lt ∧ Increasing (PDict.keyLt lt) d ∧
    MOp.run lt ops d = ([.ok .unit, .ok (.val 8), .ok (.bool false)], [((1, 0), 8)]) := by
  refine ⟨fun a b => decide (a.1 < b.1), [.assign (1, 5) 8, .get (1, 6), .add (1, 3) 4], [((1, 0), 7)], ⟨?_, ?_, ?_⟩, List.pairwise_singleton _ _, by decide +kernel⟩
  · intro a; simp
  · intro a b c; simp only [decide_eq_true_eq]; omega
  · intro a b c; simp only [decide_eq_false_iff_not]; omega

end dict

/-! ## Elements that are compared by one of their values -/

/-- C97: a set whose elements are compared by their ranks is, seen through the ranks, the mathematical set of the ranks. -/
theorem C97_set_ranks {α κ : Type} [LinearOrder κ] (f : α → κ) (ops : List (SOp α)) (s : List α)
    (hs : Increasing (fun a b => decide (f a < f b)) s) (hf : ∀ op ∈ ops, op.Sets (fun a b => decide (f a < f b))) :
    (SOp.run (fun a b => decide (f a < f b)) ops s).1.map (Res.conv (SRet.map f)) =
      (SOp.codeRun (s.map f).toFinset (ops.map (SOp.map f))).1.map seen ∧
    ∀ k, (∃ x ∈ (SOp.run (fun a b => decide (f a < f b)) ops s).2, f x = k) ↔
      k ∈ (SOp.codeRun (s.map f).toFinset (ops.map (SOp.map f))).2 := by
  have hm : ∀ t : List α, Increasing (fun a b => decide (f a < f b)) t → Increasing ltOf (t.map f) := by
    intro t ht
    unfold Increasing
    rw [List.pairwise_map]
    exact ht
  have hf' : ∀ op ∈ ops.map (SOp.map f), op.Legal := by
    intro op hop
    obtain ⟨op, h, rfl⟩ := List.mem_map.1 hop
    have := hf op h
    cases op with
    | inter t | union t | diff t | symDiff t =>
      intro t' ht
      cases t with
      | none => cases ht
      | some t =>
        cases ht
        exact hm t (this t rfl)
    | _ => trivial
  have h := C45_set_history_exact (ops.map (SOp.map f)) (s.map f) (hm s hs) hf'
  rw [PSet.run_map (lt := fun a b => decide (f a < f b)) (fun a b => rfl)] at h
  refine ⟨h.1, fun k => ?_⟩
  rw [← h.2.2 k, List.mem_map]

example : (SOp.run (fun a b : Nat × String => decide (a.1 < b.1)) [.add (2, "b"), .add (1, "a"), .add (2, "c"), .contains (2, "d"), .pop, .max,
    .union (some [(1, "x"), (2, "y"), (3, "z")])] []) =
    ([.ok (.bool true), .ok (.bool true), .ok (.bool false), .ok (.bool true), .ok (.elem (1, "a")), .ok (.elem (2, "b")), .ok .unit],
      [(1, "x"), (2, "b"), (3, "z")]) := by decide +kernel

/-- C97, `==` of sets whose elements are `==` exactly if they are equivalent: the sets have the same elements up to equivalence. -/
theorem C97_equal {α : Type} {lt : α → α → Bool} [BEq α] (W : StrictWeak lt) (hE : ∀ a b, (a == b) = true ↔ Eqv lt a b) (s t : List α)
    (hs : Increasing lt s) (ht : Increasing lt t) : PSet.eq s t = true ↔ ∀ x, Has lt s x ↔ Has lt t x := by
  unfold PSet.eq
  induction s generalizing t with
  | nil =>
    cases t with
    | nil => exact iff_of_true rfl fun x => Iff.rfl
    | cons b t => exact iff_of_false (by simp) fun h => has_nil ((h b).2 (Has.mem W (by simp)))
  | cons a s ih =>
    cases t with
    | nil => exact iff_of_false (by simp) fun h => has_nil ((h a).1 (Has.mem W (by simp)))
    | cons b t =>
      obtain ⟨hs1, hs2⟩ := Increasing.cons.1 hs
      obtain ⟨ht1, ht2⟩ := Increasing.cons.1 ht
      rw [List.cons_beq_cons, Bool.and_eq_true, hE, ih t hs2 ht2]
      constructor
      · rintro ⟨hab, h⟩ x
        rw [has_cons, has_cons, h x]
        exact or_congr_left ⟨fun hx => W.eqv_trans hx hab, fun hx => W.eqv_trans hx hab.symm⟩
      · intro h
        have key : ∀ (a b : α) (s t : List α), (∀ y ∈ s, lt a y = true) → (∀ y ∈ t, lt b y = true) → (∀ x, Has lt (a :: s) x → Has lt (b :: t) x) → lt a b = false := by
          intro a b s t h1 h2 h
          rcases has_cons.1 (h a (Has.mem W (by simp))) with e | ⟨y, hy, e⟩
          · exact e.1
          · exact W.asymm (W.lt_of_lt_eqv (h2 y hy) e.symm)
        have hab : Eqv lt a b := ⟨key a b s t hs1 ht1 fun x => (h x).1, key b a t s ht1 hs1 fun x => (h x).2⟩
        refine ⟨hab, fun x => ?_⟩
        have hx := h x
        rw [has_cons, has_cons] at hx
        have n1 : Eqv lt x a → ¬ Has lt s x := fun e => by rw [Has.congr W e]; exact not_has_of_lt W hs1
        have n2 : Eqv lt x b → ¬ Has lt t x := fun e => by rw [Has.congr W e]; exact not_has_of_lt W ht1
        constructor
        · intro h1
          rcases hx.1 (.inr h1) with e | e
          · exact absurd h1 (n1 (W.eqv_trans e hab.symm))
          · exact e
        · intro h1
          rcases hx.2 (.inr h1) with e | e
          · exact absurd h1 (n2 (W.eqv_trans e hab))
          · exact e

example : ∃ (lt : ℕ × ℕ → ℕ × ℕ → Bool) (E : BEq (ℕ × ℕ)), StrictWeak lt ∧ (∀ a b, E.beq a b = true ↔ Eqv lt a b) ∧
    @PSet.eq _ E [(1, 0), (2, 0)] [(1, 3), (2, 4)] = true ∧ @PSet.eq _ E [(1, 0)] [(2, 0)] = false := by
  refine ⟨fun a b => decide (a.1 < b.1), ⟨fun a b => decide (a.1 = b.1)⟩, ⟨?_, ?_, ?_⟩, ?_, by decide +kernel, by decide +kernel⟩
  · intro a; simp
  · intro a b c; simp only [decide_eq_true_eq]; omega
  · intro a b c; simp only [decide_eq_false_iff_not]; omega
  · intro a b; simp only [Eqv, decide_eq_true_eq, decide_eq_false_iff_not]; omega

/-! ## `double` with its two zeros -/

/-- C97, `double` without NaN: `<` is a strict weak order, and the only different values that are equivalent are the two zeros. -/
theorem C97_double : StrictWeak (fun a b : {x : SDbl // x ≠ .nan} => SDbl.lt a.1 b.1) ∧
    ∀ a b : {x : SDbl // x ≠ .nan}, Eqv (fun a b : {x : SDbl // x ≠ .nan} => SDbl.lt a.1 b.1) a b ↔
      a = b ∨ ∃ s t : Bool, a.1 = .fin s 0 ∧ b.1 = .fin t 0 := by
  have hne : ∀ a : {x : SDbl // x ≠ .nan}, a.1.forget ≠ .nan := by
    rintro ⟨a, ha⟩
    cases a with
    | nan => exact absurd rfl ha
    | inf s => simp [SDbl.forget]
    | fin s q => simp [SDbl.forget]
  have e : ∀ a b : {x : SDbl // x ≠ .nan}, SDbl.lt a.1 b.1 = decide (a.1.forget.place < b.1.forget.place) := by
    intro a b
    rw [Bool.eq_iff_iff, decide_eq_true_eq, SDbl.forget_lt]
    exact Dbl.lt_place (hne a) (hne b)
  refine ⟨⟨fun a => ?_, fun a b c h1 h2 => ?_, fun a b c h1 h2 h3 h4 => ?_⟩, ?_⟩
  · rw [e]; simp
  · rw [e, decide_eq_true_eq] at *
    exact h1.trans h2
  · rw [e, decide_eq_false_iff_not, not_lt] at h1 h2 h3 h4
    rw [e, e, decide_eq_false_iff_not, decide_eq_false_iff_not, not_lt, not_lt]
    exact ⟨h3.trans h1, h2.trans h4⟩
  · rintro ⟨a, ha⟩ ⟨b, hb⟩
    unfold Eqv
    simp only [Subtype.mk.injEq]
    cases a with
    | nan => exact absurd rfl ha
    | inf s => cases b with
      | nan => exact absurd rfl hb
      | inf t => cases s <;> cases t <;> simp [SDbl.lt]
      | fin t q => cases s <;> simp [SDbl.lt]
    | fin s p => cases b with
      | nan => exact absurd rfl hb
      | inf t => cases t <;> simp [SDbl.lt]
      | fin t q =>
        simp only [SDbl.lt, decide_eq_false_iff_not, not_lt, SDbl.fin.injEq]
        constructor
        · rintro ⟨h1, h2⟩
          have h := le_antisymm h2 h1
          by_cases hp : p = 0
          · subst hp
            have hq : q = 0 := by
              rw [SDbl.value_zero] at h
              exact SDbl.value_eq_zero.1 h.symm
            exact .inr ⟨s, t, ⟨rfl, rfl⟩, rfl, hq⟩
          · left
            have hpq : p = q := by
              have := SDbl.value_abs s p
              rw [h, SDbl.value_abs] at this
              exact_mod_cast this.symm
            subst hpq
            refine ⟨?_, rfl⟩
            have h3 := SDbl.value_lt (s := s) hp
            rw [h, SDbl.value_lt hp] at h3
            exact h3.symm
        · rintro (⟨rfl, rfl⟩ | ⟨s', t', ⟨-, rfl⟩, -, rfl⟩)
          · exact ⟨le_refl _, le_refl _⟩
          · simp [SDbl.value_zero]

/-- C97, the two zeros: the one that came first stays, in a set and as a key of a dictionary, even when a value is assigned under the other. -/
theorem C97_double_zero (v w : Int) : SOp.run SDbl.lt [.add (.fin false 0), .add (.fin true 0)] [] = ([.ok (.bool true), .ok (.bool false)], [.fin false 0]) ∧
    MOp.run SDbl.lt [.add (.fin true 0) v, .assign (.fin false 0) w] [] = ([.ok (.bool true), .ok .unit], [(.fin true 0, w)]) := by
  exact ⟨by decide +kernel, by rfl⟩

/-! ## Objects that represent values, sets and dictionaries of any size -/

/-- C87 for sets of any size. -/
theorem C87_set_exact {α β : Type} [LinearOrder α] {f : α → β} {lt : β → β → Res Bool} (h : Rep f lt) (ops : List (SOp α)) (s : List α)
    (hs : Increasing ltOf s) (hf : ∀ op ∈ ops, op.Legal) :
    (SOp.run (Tree.said lt) (ops.map (SOp.map f)) (s.map f)).1 = (SOp.codeRun s.toFinset ops).1.map (seenAs (SRet.map f)) ∧
    ∃ s' : List α, (SOp.run (Tree.said lt) (ops.map (SOp.map f)) (s.map f)).2 = s'.map f ∧ s'.Pairwise (· < ·) ∧
      s'.toFinset = (SOp.codeRun s.toFinset ops).2 := by
  obtain ⟨h1, h2, h3⟩ := C45_set_history_exact ops s hs hf
  rw [PSet.run_map h.said, h1]
  refine ⟨?_, _, rfl, increasing_ltOf.1 h2, by ext x; rw [List.mem_toFinset]; exact h3 x⟩
  simp only [List.map_map]
  exact List.map_congr_left fun r _ => conv_seen _ r

/-- C87 for dictionaries of any size. -/
theorem C87_dict_exact {K K' V V' : Type} [LinearOrder K] {f : K → K'} (g : V → V') {lt : K' → K' → Res Bool} (h : Rep f lt)
    (ops : List (MOp K V)) (d : List (K × V)) (m : FMap K V) (hd : Increasing kLt d) (hm : Holds d m) :
    (MOp.run (Tree.said lt) (ops.map (MOp.map f g)) (d.map (Prod.map f g))).1 = (MOp.codeRun m ops).1.map (seenAs (MRet.map f g)) ∧
    ∃ d' : List (K × V), (MOp.run (Tree.said lt) (ops.map (MOp.map f g)) (d.map (Prod.map f g))).2 = d'.map (Prod.map f g) ∧
      d'.Pairwise (fun p q => p.1 < q.1) ∧ ∀ k v, (k, v) ∈ d' ↔ (MOp.codeRun m ops).2.lookup k = some v := by
  obtain ⟨h1, h2, h3⟩ := C46_dict_history_exact ops d m hd hm
  rw [PDict.run_map (g := g) h.said ops d, h1]
  refine ⟨?_, _, rfl, h2, h3⟩
  simp only [List.map_map]
  exact List.map_congr_left fun r _ => conv_seen _ r

end Pyincpp
