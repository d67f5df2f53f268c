import Verif.Model.Iter
import Verif.Model.Deque
import Verif.Props.Dict
import Verif.Proof.IntAddSub

/-! # C70, C71, C72: iteration, equality of dictionaries, a container's own range as argument -/

namespace Pyincpp

section
variable {α : Type}

theorem Iter.walk_forward (l : List α) : ∀ (k i : ℕ) (v : List α), i ≤ l.length → l.length < k + i →
    Iter.walk (Iter.deref l) (Iter.next l) (Iter.end l) k i v = .ok (v ++ l.drop i)
  | 0, i, v, h1, h2 => by omega
  | k + 1, i, v, h1, h2 => by
    unfold Iter.walk Iter.end
    by_cases h : i = l.length
    · subst h; simp
    · rw [if_neg h]
      have hi : i < l.length := by omega
      have e1 : Iter.deref l i = .ok l[i] := by unfold Iter.deref; rw [List.getElem?_eq_getElem hi]
      have e2 : Iter.next l i = .ok (i + 1) := if_pos hi
      rw [e1, e2, Res.ok_bind, Res.ok_bind]
      have := Iter.walk_forward l k (i + 1) (v ++ [l[i]]) hi (by omega)
      unfold Iter.end at this
      rw [this, List.append_assoc, List.singleton_append, List.getElem_cons_drop]

theorem Iter.walk_backward (l : List α) : ∀ (k i : ℕ) (v : List α), i ≤ l.length → i < k →
    Iter.walk (Iter.rderef l) (Iter.rnext l) (Iter.rend l) k i v = .ok (v ++ (l.take i).reverse)
  | 0, i, v, h1, h2 => by omega
  | k + 1, 0, v, h1, h2 => by unfold Iter.walk Iter.rend; simp
  | k + 1, i + 1, v, h1, h2 => by
    unfold Iter.walk Iter.rend
    have hi : i < l.length := by omega
    have e1 : Iter.rderef l (i + 1) = .ok l[i] := by
      unfold Iter.rderef Iter.deref
      rw [if_neg (by omega), Nat.add_sub_cancel, List.getElem?_eq_getElem hi]
    have e2 : Iter.rnext l (i + 1) = .ok i := if_neg (by omega)
    rw [if_neg (by omega), e1, e2, Res.ok_bind, Res.ok_bind]
    have := Iter.walk_backward l k i (v ++ [l[i]]) (by omega) (by omega)
    unfold Iter.rend at this
    rw [this, List.take_succ_eq_append_getElem hi, List.reverse_append, List.append_assoc]
    rfl

/-- C70: iterating from `begin()` to `end()` visits the elements in order, each one once; from `rbegin()` to `rend()` in the
opposite order. No iterator outside the container is used. -/
theorem C70_iterate (l : List α) : Returns (fun k => Iter.forward k l) l ∧ Returns (fun k => Iter.backward k l) l.reverse := by
  constructor
  · refine ⟨l.length + 1, fun k hk => ?_⟩
    have := Iter.walk_forward l k 0 [] (by omega) (by omega)
    simpa [Iter.forward, Iter.begin] using this
  · refine ⟨l.length + 1, fun k hk => ?_⟩
    have := Iter.walk_backward l k l.length [] le_rfl (by omega)
    simpa [Iter.backward, Iter.rbegin] using this

example : Iter.forward 4 [7, 8, 9] = .ok [7, 8, 9] ∧ Iter.backward 4 [7, 8, 9] = .ok [9, 8, 7] := by decide

/-- C70: the iterators behind the last and in front of the first element must not be dereferenced. -/
theorem C70_end (l : List α) : Iter.deref l (Iter.end l) = .ub .badDeref ∧ Iter.rderef l (Iter.rend l) = .ub .badDeref := by
  refine ⟨?_, rfl⟩
  unfold Iter.deref Iter.end
  simp

/-- C70: iterating a `Set` visits increasing elements. -/
theorem C70_set_order {lt : α → α → Bool} (s : List α) (hs : Increasing lt s) :
    ∃ v, Returns (fun k => Iter.forward k s) v ∧ v.Pairwise (fun a b => lt a b = true) :=
  ⟨s, (C70_iterate s).1, hs⟩

/-- C70: `find` of a `Set` refers to the element equivalent to the argument, or is `end()` if there is none. -/
theorem C70_set_find {lt : α → α → Bool} (W : StrictWeak lt) (s : List α) (hs : Increasing lt s) (e : α) :
    (Has lt s e → ∃ x, Iter.deref s (PSet.findIter lt s e) = .ok x ∧ x ∈ s ∧ Eqv lt e x) ∧
    (¬ Has lt s e → PSet.findIter lt s e = Iter.end s) := by
  constructor
  · intro h
    obtain ⟨i, hi⟩ : ∃ i, Tree.find lt e s = some i := by
      cases hf : Tree.find lt e s with
      | none => exact absurd h ((Tree.find_none W e s hs).1 hf)
      | some i => exact ⟨i, rfl⟩
    have := Tree.find_spec W e s hs
    rw [hi] at this
    obtain ⟨x, hx, hE⟩ := this
    refine ⟨x, ?_, List.mem_of_getElem? hx, hE⟩
    unfold PSet.findIter PSet.find Iter.deref
    rw [hi, Option.getD_some, hx]
  · intro h
    unfold PSet.findIter PSet.find
    rw [(Tree.find_none W e s hs).2 h]
    rfl

end

section
variable {K V : Type} [LinearOrder K]

/-- C70: `find` of a `Dict` refers to the pair with this key, or is `end()` if there is none. -/
theorem C70_dict_find (d : List (K × V)) (m : FMap K V) (hd : Increasing (PDict.keyLt ltOf) d) (h : Holds d m) (k : K) :
    (∀ v, m.lookup k = some v → Iter.deref d (PDict.find ltOf d k) = .ok (k, v)) ∧
    (m.lookup k = none → PDict.find ltOf d k = Iter.end d) := by
  have := PDict.find_run hd h k
  unfold PDict.find Iter.deref
  constructor
  · intro v hv
    rw [hv] at this
    obtain ⟨i, hi, e⟩ := this
    rw [hi, Option.getD_some, e]
  · intro hn
    rw [hn] at this
    rw [this]
    rfl

/-- C71: two dictionaries are equal (`==`) exactly if they hold the same keys with equal values. -/
theorem C71_equal [BEq V] [LawfulBEq V] (d e : List (K × V)) (m n : FMap K V) (hd : Increasing (PDict.keyLt ltOf) d)
    (he : Increasing (PDict.keyLt ltOf) e) (hm : Holds d m) (hn : Holds e n) :
    PDict.eq d e = true ↔ m = n := by
  unfold PDict.eq
  rw [beq_iff_eq]
  constructor
  · rintro rfl
    refine Finmap.ext_lookup fun k => ?_
    refine Option.ext fun v => ?_
    rw [← hm k v, ← hn k v]
  · rintro rfl
    have nd : ∀ l : List (K × V), Increasing (PDict.keyLt ltOf) l → l.Nodup := fun l hl =>
      List.Pairwise.imp (fun {a b} h e => by subst e; simp [PDict.keyLt, ltOf] at h) hl
    have hp : d.Perm e := (List.perm_ext_iff_of_nodup (nd d hd) (nd e he)).2 (fun ⟨k, v⟩ => by rw [hm k v, hn k v])
    refine hp.eq_of_pairwise (fun a b _ _ h1 h2 => ?_) hd he
    simp only [PDict.keyLt, ltOf, decide_eq_true_eq] at h1 h2
    exact absurd h1 (not_lt.2 h2.le)

example : Increasing (PDict.keyLt ltOf) [(1, 'a'), (2, 'b')] := by
  simp [Increasing, PDict.keyLt, ltOf]

end

section
variable {α : Type}

/-- C72 fails by the standard: no container may be given its own range. -/
theorem C72_own_range_not {K V : Type} (l : List α) (lt : α → α → Bool) (d : List (K × V)) (ltK : K → K → Bool) :
    (Lst.extend .strict none l).1 = .ub .badRange ∧ (Dq.extendBackSelf l).1 = .ub .badRange ∧ (Dq.extendFrontSelf l).1 = .ub .badRange ∧
    (PSet.extendSelf .strict lt l).1 = .ub .badRange ∧ (PDict.extendSelf .strict ltK d).1 = .ub .badRange := by
  refine ⟨?_, rfl, rfl, rfl, rfl⟩
  unfold Lst.extend Lst.stdInsertEnd
  rw [Meth.get_bind]
  rfl

theorem Tree.insert_held {lt : α → α → Bool} (W : StrictWeak lt) (x : α) : ∀ s : List α, Increasing lt s → x ∈ s →
    Tree.insert lt x s = (s, false)
  | y :: ys, hs, hx => by
    unfold Tree.insert
    rw [Increasing.cons] at hs
    rcases List.mem_cons.1 hx with rfl | h
    · rw [W.irrefl]; simp
    · rw [if_pos (hs.1 x h), Tree.insert_held W x ys hs.2 h]

theorem Tree.insertAll_held {lt : α → α → Bool} (W : StrictWeak lt) (s : List α) : ∀ xs : List α, Increasing lt s →
    (∀ x ∈ xs, x ∈ s) → Tree.insertAll lt xs s = s
  | [], _, _ => rfl
  | x :: xs, hs, h => by
    show Tree.insertAll lt xs (Tree.insert lt x s).1 = s
    rw [Tree.insert_held W x s hs (h x (by simp))]
    exact Tree.insertAll_held W s xs hs (fun y hy => h y (by simp [hy]))

/-- C72 for `Set` and `Dict`, as the library is implemented: nothing changes. Missing: `C72_own_range_not`. -/
theorem C72_tree_partial {K V : Type} {lt : α → α → Bool} (W : StrictWeak lt) (s : List α) (hs : Increasing lt s)
    {ltK : K → K → Bool} (WK : StrictWeak ltK) (d : List (K × V)) (hd : Increasing (PDict.keyLt ltK) d) :
    PSet.extendSelf .lenient lt s = (.ok (), s) ∧ PDict.extendSelf .lenient ltK d = (.ok (), d) := by
  unfold PSet.extendSelf PDict.extendSelf PSet.extend PDict.extend
  simp only [Meth.get_bind, Meth.set_run]
  rw [Tree.insertAll_held W s s hs (fun _ h => h), Tree.insertAll_held (keyLt_strictWeak WK) d d hd (fun _ h => h)]
  exact ⟨rfl, rfl⟩

example : PSet.extendSelf .lenient ltOf [1, 2, 5] = (.ok (), [1, 2, 5]) := by decide

/-- C72 for `List`, as the library is implemented: what results is the list twice if the capacity suffices or elements are copied to the new storage,
and otherwise exactly if moving changes no element. Missing: `C72_own_range_not`, `C72_list_list_not`. -/
theorem C72_list_partial (nothrow : Bool) (left : α → α) (room : Bool) (l : List α) :
    Lst.insertSelfMoved nothrow left room l = l ++ l ↔ room = true ∨ nothrow = false ∨ ∀ x ∈ l, left x = x := by
  unfold Lst.insertSelfMoved
  cases room with
  | true => simp
  | false =>
    cases nothrow with
    | false => simp
    | true =>
      simp only [Bool.not_true, Bool.or_false, Bool.false_eq_true, if_false, List.append_cancel_left_eq, false_or, reduceCtorEq]
      constructor
      · intro h x hx
        exact List.map_inj_left.1 (h.trans (List.map_id l).symm) x hx
      · intro h
        exact (List.map_inj_left.2 h).trans (List.map_id l)

example : Lst.insertSelfMoved false (fun _ => enc 0) false [enc 5] = [enc 5, enc 5] := rfl

/-- C72 fails for lists of lists, as the library is implemented: `list += list` appends empty lists if the capacity does not suffice. -/
theorem C72_list_list_not (ls : List (List α)) :
    Lst.insertSelfMoved true (fun _ => []) false ls = ls ++ List.replicate ls.length [] := by
  unfold Lst.insertSelfMoved
  rw [if_neg (by decide)]
  congr 1
  exact List.map_const'

example : Lst.insertSelfMoved true (fun _ => []) false [[5]] ≠ [[5], [5]] := by decide

end
end Pyincpp
