import Verif.Props.AnySize

/-! # The views of dictionaries of any size (C47) -/

namespace Pyincpp

open Lst

variable {K V α : Type}

theorem insertAll_length_le {lt : α → α → Bool} (W : StrictWeak lt) (xs : List α) : ∀ s : List α, Increasing lt s →
    s.length ≤ (Tree.insertAll lt xs s).length := by
  induction xs with
  | nil => intro s _; exact Nat.le_refl _
  | cons x xs ih =>
    intro s hs
    obtain ⟨-, -, i3, i4⟩ := Tree.insert_mem W x s hs
    have h := ih _ i3
    show s.length ≤ (Tree.insertAll lt xs (Tree.insert lt x s).1).length
    rw [i4] at h
    split at h <;> omega

/-- Adding elements one by one: it throws if the set is full before the last one comes, whether that one is new or not. -/
theorem addAll_any {lt : α → α → Bool} (W : StrictWeak lt) (xs : List α) : ∀ s : List α, Increasing lt s → s.length ≤ maxLen →
    (xs = [] ∨ (Tree.insertAll lt xs.dropLast s).length < maxLen → PDict.addAll lt xs s = (.ok (), Tree.insertAll lt xs s)) ∧
    (¬ (xs = [] ∨ (Tree.insertAll lt xs.dropLast s).length < maxLen) → ∃ s', PDict.addAll lt xs s = (.throw msgFull, s')) := by
  induction xs with
  | nil => intro s _ _; exact ⟨fun _ => rfl, fun h => absurd (Or.inl rfl) h⟩
  | cons x xs ih =>
    intro s hs hl
    obtain ⟨-, -, i3, i4⟩ := Tree.insert_mem W x s hs
    have e : PSet.size s = s.length := size_eq (l := s) hl
    by_cases hf : s.length = maxLen
    · have hz : PSet.size s = INT_MAX := by rw [e, hf]; unfold maxLen INT_MAX; omega
      have hadd : PSet.add lt x s = (.throw msgFull, s) := by
        simp only [PSet.add, Meth.get_bind, hz, checkFull_throw (Int.le_refl INT_MAX), Meth.lift_throw_bind]
      have hm := insertAll_length_le W (x :: xs).dropLast s hs
      refine ⟨fun h => ?_, fun _ => ⟨s, by rw [PDict.addAll, Meth.run_throw hadd]⟩⟩
      rcases h with h | h
      · cases h
      · omega
    · have hz : checkFull (PSet.size s) INT_MAX = .ok () := by
        rw [e]; exact checkFull_ok (by unfold INT_MAX; unfold maxLen at *; omega)
      have hadd : PSet.add lt x s = (.ok (Tree.insert lt x s).2, (Tree.insert lt x s).1) := by
        simp only [PSet.add, Meth.get_bind, hz, Meth.lift_ok_bind, Meth.set_bind, Meth.pure_run]
      have hl' : (Tree.insert lt x s).1.length ≤ maxLen := by rw [i4]; split <;> omega
      have hc : ((x :: xs) = [] ∨ (Tree.insertAll lt (x :: xs).dropLast s).length < maxLen) ↔
          (xs = [] ∨ (Tree.insertAll lt xs.dropLast (Tree.insert lt x s).1).length < maxLen) := by
        cases xs with
        | nil =>
          simp only [List.dropLast_singleton, Tree.insertAll, true_or, iff_true]
          right
          exact lt_of_le_of_ne hl hf
        | cons y ys =>
          simp only [List.dropLast_cons_cons, reduceCtorEq, false_or]
          exact Iff.rfl
      rw [hc, PDict.addAll, Meth.run_ok hadd]
      exact ih _ i3 hl'

theorem addAll_nil {lt : α → α → Bool} (W : StrictWeak lt) (xs : List α) :
    (xs = [] ∨ (Tree.insertAll lt xs.dropLast []).length < maxLen → PDict.addAll lt xs [] = (.ok (), Tree.insertAll lt xs [])) ∧
    (¬ (xs = [] ∨ (Tree.insertAll lt xs.dropLast []).length < maxLen) → ∃ s', PDict.addAll lt xs [] = (.throw msgFull, s')) :=
  addAll_any W xs [] List.Pairwise.nil (by simp)

theorem addAll_increasing {lt : α → α → Bool} (W : StrictWeak lt) (xs : List α) (hx : Increasing lt xs) :
    (xs.length ≤ maxLen → PDict.addAll lt xs [] = (.ok (), xs)) ∧
    (maxLen < xs.length → ∃ s', PDict.addAll lt xs [] = (.throw msgFull, s')) := by
  have hd : Increasing lt xs.dropLast := List.Pairwise.sublist (List.dropLast_sublist xs) hx
  have e1 := Tree.insertAll_increasing W xs [] (by simpa using hx)
  have e2 := Tree.insertAll_increasing W xs.dropLast [] (by simpa using hd)
  have hc : (xs = [] ∨ (Tree.insertAll lt xs.dropLast []).length < maxLen) ↔ xs.length ≤ maxLen := by
    rw [e2, List.nil_append, List.length_dropLast]
    constructor
    · rintro (rfl | h)
      · simp
      · omega
    · intro h
      by_cases h0 : xs = []
      · exact Or.inl h0
      · right
        have := List.length_pos_iff.2 h0
        omega
  obtain ⟨a1, a2⟩ := addAll_nil W xs
  rw [hc] at a1 a2
  refine ⟨fun h => ?_, fun h => a2 (by omega)⟩
  rw [a1 h, e1, List.nil_append]

/-- C47, dictionaries of any size: `keys()` and `items()` give the keys and the pairs if there are at most `INT_MAX` of them, and throw otherwise. -/
theorem C47_keys_exact {lt : K → K → Bool} {ltV : V → V → Bool} (W : StrictWeak lt) (X : StrictWeak ltV) (d : List (K × V))
    (hd : Increasing (PDict.keyLt lt) d) :
    PDict.keys lt d = (if d.length ≤ maxLen then .ok (d.map Prod.fst) else .throw msgFull) ∧
    PDict.items lt ltV d = (if d.length ≤ maxLen then .ok d else .throw msgFull) := by
  constructor
  · obtain ⟨a1, a2⟩ := addAll_increasing W (d.map Prod.fst) (increasing_keys.1 hd)
    rw [List.length_map] at a1 a2
    unfold PDict.keys
    have e : (d.map fun x => x.1) = d.map Prod.fst := rfl
    rw [e]
    by_cases h : d.length ≤ maxLen
    · rw [if_pos h, a1 h]
    · rw [if_neg h]
      obtain ⟨s', hs'⟩ := a2 (by omega)
      rw [hs']
  · have hi : Increasing (PDict.pairLt lt ltV) d := List.Pairwise.imp (fun {a b} h => by
      have : lt a.1 b.1 = true := h
      simp [PDict.pairLt, this]) hd
    obtain ⟨a1, a2⟩ := addAll_increasing (pairLt_strictWeak W X) d hi
    unfold PDict.items
    by_cases h : d.length ≤ maxLen
    · rw [if_pos h, a1 h]
    · rw [if_neg h]
      obtain ⟨s', hs'⟩ := a2 (by omega)
      rw [hs']

section
variable [LinearOrder V]

theorem insertAll_toFinset (xs : List V) : (Tree.insertAll ltOf xs []).toFinset = xs.toFinset := by
  obtain ⟨i1, i2, -, -⟩ := Tree.insertAll_spec (ltOf_strictWeak (α := V)) xs [] List.Pairwise.nil
  ext y
  have := i2 y
  simpa [has_ltOf] using this

/-- C47, dictionaries of any size: `values()` gives the values, unless there are `INT_MAX` different ones before the last pair; then it throws, even if the last value is
not a new one. -/
theorem C47_values_exact (d : List (K × V)) :
    ((d.dropLast.map Prod.snd).toFinset.card < maxLen → ∃ s, PDict.values ltOf d = .ok s ∧ s.Pairwise (· < ·) ∧ ∀ v, v ∈ s ↔ ∃ k, (k, v) ∈ d) ∧
    (maxLen ≤ (d.dropLast.map Prod.snd).toFinset.card → PDict.values ltOf d = .throw msgFull) := by
  obtain ⟨a1, a2⟩ := addAll_nil (ltOf_strictWeak (α := V)) (d.map Prod.snd)
  have hlen : (Tree.insertAll ltOf (d.map Prod.snd).dropLast []).length = (d.dropLast.map Prod.snd).toFinset.card := by
    have i1 := (Tree.insertAll_spec (ltOf_strictWeak (α := V)) (d.map Prod.snd).dropLast [] List.Pairwise.nil).1
    rw [← i1.card, insertAll_toFinset, List.map_dropLast]
  rw [hlen] at a1 a2
  have e : (d.map fun x => x.2) = d.map Prod.snd := rfl
  constructor
  · intro h
    refine ⟨Tree.insertAll ltOf (d.map Prod.snd) [], ?_, ?_, fun v => ?_⟩
    · unfold PDict.values
      rw [e, a1 (Or.inr h)]
    · exact increasing_ltOf.1 (Tree.insertAll_spec (ltOf_strictWeak (α := V)) (d.map Prod.snd) [] List.Pairwise.nil).1
    · rw [← List.mem_toFinset, insertAll_toFinset, List.mem_toFinset]
      simp
  · intro h
    have hne : d.map Prod.snd ≠ [] := by
      intro h0
      rw [List.map_eq_nil_iff] at h0
      subst h0
      simp [maxLen] at h
    obtain ⟨s', hs'⟩ := a2 (by rintro (h' | h'); exacts [hne h', by omega])
    unfold PDict.values
    rw [e, hs']

end

/-- A dictionary whose `INT_MAX + 1` pairs have two values; `keys()` throws, `values()` does not. -/
example : let d := (List.range (maxLen + 1)).map (fun i => (i, i % 2))
    Increasing (PDict.keyLt ltOf) d ∧ maxLen < d.length ∧ (d.dropLast.map Prod.snd).toFinset.card < maxLen := by
  intro d
  refine ⟨?_, by simp only [d, List.length_map, List.length_range]; omega, ?_⟩
  · rw [increasing_keys, increasing_ltOf]
    simp only [d, List.map_map]
    have : (Prod.fst ∘ fun i => (i, i % 2)) = (id : ℕ → ℕ) := rfl
    rw [this, List.map_id]
    exact List.pairwise_lt_range
  · have hs : (d.dropLast.map Prod.snd).toFinset ⊆ ({0, 1} : Finset ℕ) := by
      intro v hv
      rw [List.mem_toFinset, List.mem_map] at hv
      obtain ⟨p, hp, rfl⟩ := hv
      obtain ⟨i, -, rfl⟩ := List.mem_map.1 (List.dropLast_subset _ hp)
      have : i % 2 = 0 ∨ i % 2 = 1 := by omega
      simpa using this
    have := Finset.card_le_card hs
    have h2 : ({0, 1} : Finset ℕ).card = 2 := rfl
    unfold maxLen; omega

end Pyincpp
