import Verif.Proof.RbThrow
import Verif.Props.RbTree

/-! # C119: `Set` and `Dict` when the comparator throws

`Agrees cmp lt`: the comparator answers as the order `lt` or throws. The comparator may throw for every pair, also for some pairs only. -/

namespace Pyincpp
open BT

section
variable {α : Type} {cmp : α → α → Res Bool} {lt : α → α → Bool} {B : Balancer α}

/-- C119: a call on a `Set` does what it does without exceptions, or throws what the comparator threw. In the latter case the set is as before, and
after `extend` it is as before with the first elements of the range. The tree stays a red-black tree in order. -/
theorem C119_set_step (hB : B.Keeps) (W : StrictWeak lt) (hc : Agrees cmp lt) (op : SOp α) (hop : SetArg lt op) (t : BT α) (hR : RB t)
    (hI : Increasing lt t.elems) (n : Nat) :
    ∃ r t' n', setStepT cmp B op (t, n) = (r, (t', n')) ∧ RB t' ∧ Increasing lt t'.elems ∧
      ((r, t'.elems) = op.step lt t.elems ∨
       (∃ a b m, cmp a b = .throw m ∧ r = .throw m) ∧
       (t'.elems = t.elems ∨ ∃ xs i, op = .extend xs ∧ i < xs.length ∧ t'.elems = Tree.insertAll lt (xs.take i) t.elems)) := by
  have S := setStepT_ok hB W hc op hop hR hI n
  exact ⟨_, _, _, rfl, S.rb, S.inc, S.out⟩

/-- C119: only `extend` changes a `Set` and throws the exception of the comparator. -/
theorem C119_set_strong (hc : Agrees cmp lt) (op : SOp α) (hop : ∀ xs, op ≠ .extend xs) (t : BT α) (n : Nat) :
    setStepT cmp B op (t, n) = setStep (Ans lt) B op (t, n) ∨
    ∃ a b m n', cmp a b = .throw m ∧ setStepT cmp B op (t, n) = (.throw m, (t, n')) := by
  have e : setStepT cmp B op = setStep cmp B op := by
    cases op <;> first | rfl | exact absurd rfl (hop _)
  rw [e]
  rcases setStep_ref (B := B) hc op hop (t, n) with h | ⟨a, b, m, s', g1, g2, g3⟩
  · exact Or.inl h
  · exact Or.inr ⟨a, b, m, s'.2, g1, by rw [g2]; dsimp only at g3; rw [← g3]⟩

/-- C119: every history of a `Set`: each call returns or throws, none is undefined, and the tree stays in order. -/
theorem C119_set (hB : B.Keeps) (W : StrictWeak lt) (hc : Agrees cmp lt) (ops : List (SOp α)) (hops : ∀ op ∈ ops, SetArg lt op) :
    RB (setRunT cmp B ops (.leaf, 0)).2.1 ∧ Increasing lt (setRunT cmp B ops (.leaf, 0)).2.1.elems ∧
    (setRunT cmp B ops (.leaf, 0)).1.length = ops.length ∧
    ∀ r ∈ (setRunT cmp B ops (.leaf, 0)).1, (∃ x, r = .ok x) ∨ ∃ m, r = .throw m :=
  setRunT_ok hB W hc ops hops .leaf 0 rb_leaf List.Pairwise.nil

/-- C119: `pop`, `min`, `max`, `size` and `clear` do not call the comparator. -/
theorem C119_no_compare (op : SOp α) (hop : op = .pop ∨ op = .min ∨ op = .max ∨ op = .size ∨ op = .clear) (cmp' : α → α → Res Bool) (s : BT α × Nat) :
    setStepT cmp B op s = setStepT cmp' B op s := by
  rcases hop with rfl | rfl | rfl | rfl | rfl <;> rfl

end

/-- A comparator of numbers that throws for 3. -/
def notThree (a b : Nat) : Res Bool := if a = 3 ∨ b = 3 then .throw "three" else .ok (decide (a < b))

example : Agrees notThree (fun a b => decide (a < b)) := by
  intro a b
  unfold notThree
  split
  · exact Or.inr ⟨_, rfl⟩
  · exact Or.inl rfl

/-- C119: `extend` is not all or nothing: `s.add(1); s.extend({2, 3})` throws and leaves {1, 2}. The calls after it work. -/
theorem C119_extend_leaves :
    setRunT notThree blackRoot [.add 1, .extend [2, 3], .contains 3, .contains 2, .min] (.leaf, 0) =
      ([.ok (.bool true), .throw "three", .throw "three", .ok (.bool true), .ok (.elem 1)],
        (.node false .leaf 1 (.node true .leaf 2 .leaf), 7)) := by
  decide

section
variable {K V : Type} {cmp : K → K → Res Bool} {lt : K → K → Bool} {B : Balancer (K × V)}

/-- C119: a call on a `Dict` does what it does without exceptions, or throws what the comparator threw; then the dictionary is as before, and
after `extend` as before with the first pairs of the range. -/
theorem C119_dict_step (hB : B.Keeps) (W : StrictWeak lt) (hc : Agrees cmp lt) (op : MOp K V) (t : BT (K × V)) (hR : RB t)
    (hI : Increasing (PDict.keyLt lt) t.elems) (n : Nat) :
    ∃ r t' n', dictStepT cmp B op (t, n) = (r, (t', n')) ∧ RB t' ∧ Increasing (PDict.keyLt lt) t'.elems ∧
      ((r, t'.elems) = op.step lt t.elems ∨
       (∃ a b m, cmp a b = .throw m ∧ r = .throw m) ∧
       (t'.elems = t.elems ∨ ∃ xs i, op = .extend xs ∧ i < xs.length ∧ t'.elems = Tree.insertAll (PDict.keyLt lt) (xs.take i) t.elems)) := by
  have S := dictStepT_ok hB W hc op hR hI n
  exact ⟨_, _, _, rfl, S.rb, S.inc, S.out⟩

/-- C119: only `extend` changes a `Dict` and throws the exception of the comparator. -/
theorem C119_dict_strong (hc : Agrees cmp lt) (op : MOp K V) (hop : ∀ xs, op ≠ .extend xs) (t : BT (K × V)) (n : Nat) :
    dictStepT cmp B op (t, n) = dictStep (Ans lt) B op (t, n) ∨
    ∃ a b m n', cmp a b = .throw m ∧ dictStepT cmp B op (t, n) = (.throw m, (t, n')) := by
  have e : dictStepT cmp B op = dictStep cmp B op := by
    cases op <;> first | rfl | exact absurd rfl (hop _)
  rw [e]
  rcases dictStep_ref (B := B) hc op hop (t, n) with h | ⟨a, b, m, s', g1, g2, g3⟩
  · exact Or.inl h
  · exact Or.inr ⟨a, b, m, s'.2, g1, by rw [g2]; dsimp only at g3; rw [← g3]⟩

/-- C119: every history of a `Dict`: each call returns or throws, none is undefined, and the tree stays in order. -/
theorem C119_dict (hB : B.Keeps) (W : StrictWeak lt) (hc : Agrees cmp lt) (ops : List (MOp K V)) :
    RB (dictRunT cmp B ops (.leaf, 0)).2.1 ∧ Increasing (PDict.keyLt lt) (dictRunT cmp B ops (.leaf, 0)).2.1.elems ∧
    (dictRunT cmp B ops (.leaf, 0)).1.length = ops.length ∧
    ∀ r ∈ (dictRunT cmp B ops (.leaf, 0)).1, (∃ x, r = .ok x) ∨ ∃ m, r = .throw m :=
  dictRunT_ok hB W hc ops .leaf 0 rb_leaf List.Pairwise.nil

example : ∃ B : Balancer (Nat × Nat), B.Keeps := keeps_exists

end

example : RB (.node false .leaf 1 (.node true .leaf 2 .leaf)) ∧ Increasing (fun a b => decide (a < b)) (BT.node false .leaf 1 (.node true .leaf 2 .leaf)).elems := by
  refine ⟨⟨1, .black .leaf (.red .leaf .leaf)⟩, ?_⟩
  simp [Increasing, BT.elems]

end Pyincpp
