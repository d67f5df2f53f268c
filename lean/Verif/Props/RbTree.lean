import Verif.Proof.RbDict
import Verif.Proof.RbTreeAny

/-! # C118: the trees of libstdc++ under `Set` and `Dict`

`B.Keeps` is what is left to trust: the rebalancing keeps the elements in order and gives a red-black tree. -/

namespace Pyincpp
open BT

/-- C118: there is such a rebalancing, so that the other theorems speak about something. -/
theorem C118_exists (α : Type) : ∃ B : Balancer α, B.Keeps := keeps_exists

/-- C118: a red-black tree is not deep. -/
theorem C118_height {α : Type} (t : BT α) (h : RB t) : t.height ≤ 2 * Nat.log 2 (t.size + 1) := height_le h

example : RB (.node false (.node true .leaf 1 .leaf) 2 .leaf : BT Nat) := ⟨1, .black (.red .leaf .leaf) .leaf⟩

section
variable {α κ : Type} {key : α → κ} {c : κ → κ → Bool} {B : Balancer α}

/-- C118: `find` of a map or set gives the place of the equivalent element, or `end()`, and how often it compares. -/
theorem C118_find (W : StrictWeak c) (k : κ) (t : BT α) (hR : RB t) (hI : Increasing (fun a b => c (key a) (key b)) t.elems) (n : Nat) :
    ∃ j d, find key (Ans c) k t n = (.ok j, n + d) ∧ d ≤ 2 * Nat.log 2 (t.size + 1) + 1 ∧ j = (findK key c k t.elems).getD t.size ∧
      ((j = t.size ∧ ∀ x ∈ t.elems, ¬ Eqv c k (key x)) ∨ ∃ x, t.elems[j]? = some x ∧ Eqv c k (key x)) := by
  obtain ⟨d, b, e, h⟩ := find_ok (key := key) W k hI n
  have hh := height_le hR
  refine ⟨_, d, e, by omega, rfl, ?_⟩
  obtain ⟨A, M, C, hs, hl, hA, hM, hC⟩ := split3 (key := key) W k hI
  have hN : ∀ b ∈ M ++ C, c (key b) k = false := by
    intro b hb
    rcases List.mem_append.mp hb with h | h
    · exact (hM b h).1
    · exact (hC b h).1
  have hf := findK_split (key := key) (c := c) (k := k) hA hN
  rw [← hs] at hf
  rcases M with _ | ⟨m, M⟩
  · refine Or.inl ⟨?_, fun x hx q => ?_⟩
    · rw [hf]
      cases C with
      | nil => rfl
      | cons x C => dsimp only [List.nil_append]; rw [(hC x (by simp)).2]; rfl
    · rw [hs] at hx
      rcases List.mem_append.mp hx with h' | h'
      · have := hA x h'; rw [q.2] at this; exact nomatch this
      · have := (hC x (by simpa using h')).2; rw [q.1] at this; exact nomatch this
  · have hm := hM m (by simp)
    refine Or.inr ⟨m, ?_, hm.2, hm.1⟩
    rw [hf]
    dsimp only [List.cons_append]
    rw [hm.2, hs]; simp

/-- C118: `insert` does what the sorted list does. -/
theorem C118_add (hB : B.Keeps) (W : StrictWeak c) (v : α) (t : BT α) (hR : RB t) (hI : Increasing (fun a b => c (key a) (key b)) t.elems) (n : Nat) :
    ∃ t' d, insert key (Ans c) B v t n = (.ok (t', (Tree.insert (fun a b => c (key a) (key b)) v t.elems).2), n + d) ∧
      t'.elems = (Tree.insert (fun a b => c (key a) (key b)) v t.elems).1 ∧ RB t' ∧ d ≤ 2 * Nat.log 2 (t.size + 1) + 2 := by
  obtain ⟨t', d, b, e1, e2, r⟩ := insert_ok hB W v hR hI n
  have hh := height_le hR
  exact ⟨t', d, e1, e2, r, by omega⟩

/-- C118: `insert` with any hint does what `insert` does. -/
theorem C118_hint (hB : B.Keeps) (W : StrictWeak c) (pos : Nat) (v : α) (t : BT α) (hpos : pos ≤ t.size) (hR : RB t)
    (hI : Increasing (fun a b => c (key a) (key b)) t.elems) (n : Nat) :
    ∃ t' j d, insertHint key (Ans c) B pos v t n = (.ok (t', j), n + d) ∧ t'.elems = (Tree.insert (fun a b => c (key a) (key b)) v t.elems).1 ∧ RB t' ∧
      j < t'.size ∧ d ≤ 2 * Nat.log 2 (t.size + 1) + 5 := by
  obtain ⟨t', j, d, b, -, -, e1, e2, r, hj⟩ := insertHint_ok hB W pos v hpos hR hI n
  have hh := height_le hR
  exact ⟨t', j, d, e1, e2, r, hj, by omega⟩

/-- C118: `erase` of a key does what the sorted list does. -/
theorem C118_remove (hB : B.Keeps) (W : StrictWeak c) (k : κ) (t : BT α) (hR : RB t) (hI : Increasing (fun a b => c (key a) (key b)) t.elems) (n : Nat) :
    ∃ t' r d, erase key (Ans c) B k t n = (.ok (t', r), n + d) ∧ (t'.elems, r) = eraseK key c k t.elems ∧ RB t' ∧
      (∀ x, x ∈ t'.elems ↔ x ∈ t.elems ∧ ¬ Eqv c k (key x)) ∧ d ≤ 4 * Nat.log 2 (t.size + 1) := by
  obtain ⟨t', d, b, e1, e2, r, i⟩ := erase_ok hB W k hR hI n
  have hh := height_le hR
  obtain ⟨A, M, C, hs, hl, hA, hM, hC⟩ := split3 (key := key) W k hI
  have he := eraseK_split (key := key) (c := c) (k := k) hl hA hM hC
  rw [← hs] at he
  refine ⟨t', _, d, e1, by rw [e2], r, fun x => ?_, by omega⟩
  rw [e2, he, hs]
  have qA : x ∈ A → ¬ Eqv c k (key x) := fun h q => by have := hA x h; rw [q.2] at this; exact nomatch this
  have qC : x ∈ C → ¬ Eqv c k (key x) := fun h q => by have := (hC x h).2; rw [q.1] at this; exact nomatch this
  have qM : x ∈ M → Eqv c k (key x) := fun h => ⟨(hM x h).2, (hM x h).1⟩
  simp only [List.mem_append]
  tauto

/-- C118: building and extending, one after the other; elements that come in order cost two comparisons each. -/
theorem C118_extend (hB : B.Keeps) (W : StrictWeak c) (xs : List α) (t : BT α) (hR : RB t) (hI : Increasing (fun a b => c (key a) (key b)) t.elems) (n : Nat) :
    ∃ t' d, insertRange key (Ans c) B xs t n = (.ok t', n + d) ∧ t'.elems = Tree.insertAll (fun a b => c (key a) (key b)) xs t.elems ∧ RB t' ∧
      d ≤ xs.length * (2 * Nat.log 2 (t.size + xs.length + 1) + 3) ∧
      (Increasing (fun a b => c (key a) (key b)) (t.elems ++ xs) → d ≤ 2 * xs.length) :=
  insertRange_ok hB W xs hR hI n

/-- C118: whatever the comparator answers, inserting a single element loses none. -/
theorem C118_add_any (hB : B.Keeps) (v : α) (t : BT α) (n : Nat) :
    ∃ t' b d, insert key (Ans c) B v t n = (.ok (t', b), n + d) ∧ d ≤ t.height + 2 ∧
      ((b = false ∧ t' = t) ∨ (b = true ∧ RB t' ∧ ∃ g, g ≤ t.size ∧ t'.elems = t.elems.take g ++ v :: t.elems.drop g)) :=
  insert_any hB v t n

/-- C118: extending with a comparator that does not say yes both ways loses none. -/
theorem C118_extend_any_partial (hB : B.Keeps) (hA : ∀ a b, c a b = true → c b a = false) (xs : List α) (t : BT α) (n : Nat) :
    ∃ t' d ys, insertRange key (Ans c) B xs t n = (.ok t', n + d) ∧ ys.Sublist xs ∧ t'.elems.Perm (t.elems ++ ys) :=
  insertRange_any hB hA xs t n

end

/-- Painting the root black, which is all that there is to do for the trees of `C118_extend_any_not`. -/
def blackRoot : Balancer Nat := ⟨fun t => match t with | .leaf => .leaf | .node _ l x r => .node false l x r, fun t _ => t⟩

/-- C118: with a comparator that says yes both ways (a `<` that is `<=`) extending writes over the child of a node: `s.add(2); s.add(1); s.extend({2})`. -/
theorem C118_extend_any_not :
    setRun (Ans fun a b : Nat => decide (a ≤ b)) blackRoot [.add 2, .add 1, .extend [2]] (.leaf, 0) =
      ([.ok (.bool true), .ok (.bool true), .ub .outOfBounds], (.node false (.node true .leaf 1 .leaf) 2 .leaf, 4)) := by
  decide

section
variable {α : Type} {lt : α → α → Bool} {B : Balancer α}

/-- C118: the operators of `Set`, and what they cost. -/
theorem C118_operators (hB : B.Keeps) (W : StrictWeak lt) (l r b : Bool) (s t : BT α) (hs : Increasing lt s.elems) (ht : Increasing lt t.elems) (n : Nat) :
    ∃ t' d, setOp (Ans lt) B l r b (some t.elems) s n = (.ok (t', ()), n + d) ∧ t'.elems = Tree.walk lt l r b s.elems t.elems ∧ RB t' ∧
      d ≤ 4 * (s.size + t.size) := by
  obtain ⟨t', d, e1, r', e2, -, b'⟩ := setOp_ok hB W l r b hs (other := some t.elems) (fun o h => by cases h; exact ht) n
  exact ⟨t', d, e1, by rw [e2]; exact insertAll_walk W l r b _ _ hs ht, r', b'⟩

/-- C118: the comparison of sets. -/
theorem C118_le (s t : BT α) (n : Nat) : ∃ d, setLe (Ans lt) s t n = (.ok (PSet.le lt s.elems t.elems), n + d) ∧ d ≤ 2 * t.size := by
  obtain ⟨d, b, e⟩ := includes_ok (lt := lt) t.elems s.elems n
  exact ⟨d, e, b⟩

/-- C118: every history of a `Set` returns on the tree what it returns on the sorted list, and compares at most as often as the costs of its calls. -/
theorem C118_set (hB : B.Keeps) (W : StrictWeak lt) (ops : List (SOp α)) (hops : ∀ op ∈ ops, SetArg lt op) :
    (setRun (Ans lt) B ops (.leaf, 0)).1 = (SOp.run lt ops []).1 ∧
    (setRun (Ans lt) B ops (.leaf, 0)).2.1.elems = (SOp.run lt ops []).2 ∧
    RB (setRun (Ans lt) B ops (.leaf, 0)).2.1 ∧
    (setRun (Ans lt) B ops (.leaf, 0)).2.2 ≤ setBudget lt ops [] := by
  obtain ⟨h1, h2, h3, -, -, h6⟩ := setRun_sim hB W ops hops (t := .leaf) rb_leaf List.Pairwise.nil 0
  exact ⟨h1, h2, h3, by rw [Nat.zero_add] at h6; exact h6⟩

example : setBudget ltOf [.add 2, .contains 2, .extend [1, 3, 4], .remove (1 : Int)] [] = 2 + 3 + 21 + 8 := by decide +kernel

example : ∀ op ∈ [SOp.inter (some [1, 2]), .union none, .add (3 : Int)], SetArg ltOf op := by
  simp [SetArg, Increasing, ltOf]

end

/-- C118: every history of a `Dict`. -/
theorem C118_dict {K V : Type} {lt : K → K → Bool} {B : Balancer (K × V)} (hB : B.Keeps) (W : StrictWeak lt) (ops : List (MOp K V)) :
    (dictRun (Ans lt) B ops (.leaf, 0)).1 = (MOp.run lt ops []).1 ∧
    (dictRun (Ans lt) B ops (.leaf, 0)).2.1.elems = (MOp.run lt ops []).2 ∧
    RB (dictRun (Ans lt) B ops (.leaf, 0)).2.1 ∧
    (dictRun (Ans lt) B ops (.leaf, 0)).2.2 ≤ dictBudget lt ops [] := by
  obtain ⟨h1, h2, h3, -, -, h6⟩ := dictRun_sim hB W ops (t := .leaf) rb_leaf List.Pairwise.nil 0
  exact ⟨h1, h2, h3, by rw [Nat.zero_add] at h6; exact h6⟩

example : StrictWeak (ltOf : Int → Int → Bool) := ltOf_strictWeak

end Pyincpp
