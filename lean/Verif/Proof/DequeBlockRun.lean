import Verif.Proof.DequeBlock

/-! # Histories of a `Deque` on the blocks of libstdc++ -/

namespace Pyincpp
namespace Blk
open BT (sb get_b throw_b lift_b lift_t)
variable {α : Type}

theorem dqSize_le (xs : List α) : Dq.size xs ≤ xs.length := by
  unfold Dq.size wrap32
  omega

/-- Where an index leads. -/
theorem refAt_cases (xs : List α) (i : Int) :
    (∃ j : Nat, Dq.refAt xs i = .ok (j : Int) ∧ j < xs.length) ∨ (∃ m, Dq.refAt xs i = .throw m) ∨ ∃ u, Dq.refAt xs i = .ub u := by
  have hle := dqSize_le xs
  unfold Dq.refAt
  generalize Dq.size xs = s at *
  unfold ineg ck
  split
  · rw [Res.ok_bind]
    unfold checkBounds
    split
    · exact Or.inr (Or.inl ⟨_, rfl⟩)
    · rename_i h1 h2
      rw [Res.ok_bind]
      split
      · exact Or.inl ⟨i.toNat, by rw [Int.toNat_of_nonneg (by omega)]; rfl, by omega⟩
      · unfold iadd ck
        split
        · exact Or.inl ⟨(i + s).toNat, by rw [Int.toNat_of_nonneg (by omega)], by omega⟩
        · exact Or.inr (Or.inr ⟨_, rfl⟩)
  · exact Or.inr (Or.inr ⟨_, rfl⟩)

theorem vat_ok {xs : List α} {j : Nat} (h : j < xs.length) : Lst.vat xs j = .ok xs[j] := by
  unfold Lst.vat vget
  simp [List.getElem?_eq_getElem h]

theorem ub_b {σ β γ : Type} {r : Res β} {f : β → Meth σ γ} {u : UB} (s : σ) (h : r = .ub u) : ((Meth.lift r : Meth σ β) >>= f) s = (.ub u, s) := by
  rw [h]; rfl

theorem ub_m {σ β γ : Type} {p : Meth σ β} {f : β → Meth σ γ} {s s' : σ} {u : UB} (h : p s = (.ub u, s')) : (p >>= f) s = (.ub u, s') := by
  show Meth.bind p f s = _
  rw [Meth.bind, h]

/-- The operations that ask for memory. -/
def Op.Asks : Op α → Prop
  | .pushBack _ => True
  | .pushFront _ => True
  | _ => False

/-- A call does what it does on a list, or there is no memory. -/
def Does (op : Op α) (d : Blk α) (xs : List α) (got : Res (Option α) × Blk α) : Prop :=
  Rep.Spent d got.2 ∧
  ((∃ ys, op.toD.step xs = (got.1, ys) ∧ Rep got.2 ys) ∨ (op.Asks ∧ got.1 = .throw "std::bad_alloc" ∧ Rep got.2 xs ∧ d.grants < 2))

theorem spent_refl (d : Blk α) : Rep.Spent d d := by simp [Rep.Spent]

theorem empty_or (xs : List α) : (Dq.size xs = 0 ∧ ∃ m, checkEmpty (Dq.size xs) = .throw m) ∨ (xs ≠ [] ∧ checkEmpty (Dq.size xs) = .ok ()) := by
  unfold checkEmpty
  by_cases h : Dq.size xs = 0
  · exact Or.inl ⟨h, _, if_pos h⟩
  · refine Or.inr ⟨?_, if_neg h⟩
    rintro rfl
    exact h (by simp [Dq.size, wrap32])

theorem full_or (xs : List α) : (∃ m, checkFull (Dq.size xs) INT_MAX = .throw m) ∨ checkFull (Dq.size xs) INT_MAX = .ok () := by
  unfold checkFull
  by_cases h : Dq.size xs ≥ INT_MAX
  · exact Or.inl ⟨_, if_pos h⟩
  · exact Or.inr (if_neg h)

theorem lb (ys : List α) (x : α) : Dq.stdBack (ys ++ [x]) = .ok x := by simp [Dq.stdBack, vget]

theorem lf (ys : List α) (x : α) : Dq.stdFront (x :: ys) = .ok x := by simp [Dq.stdFront, vget]

theorem step_pushBack (e : α) {d : Blk α} {xs : List α} (R : Rep d xs) : Does (.pushBack e) d xs (Op.step (.pushBack e) d) := by
  rw [Op.step, get_b, R.size_ok]
  rcases full_or xs with ⟨m, h⟩ | h
  · rw [lift_t _ h]
    refine ⟨spent_refl d, Or.inl ⟨xs, ?_, R⟩⟩
    show DOp.step (.pushBack e) xs = _
    rw [DOp.step, throw_b (by rw [Dq.pushBack, get_b, lift_t _ h])]
  · rw [lift_b _ h]
    rcases R.pushBack_ok e with ⟨d', a1, a2, -, a4, a5⟩ | ⟨d', a1, a2, -, a4⟩
    · rw [throw_b a1]
      exact ⟨a5, Or.inr ⟨trivial, rfl, a2, a4⟩⟩
    · rw [sb a1]
      refine ⟨a4, Or.inl ⟨xs ++ [e], ?_, a2⟩⟩
      show DOp.step (.pushBack e) xs = _
      rw [DOp.step, sb (b := ()) (s' := xs ++ [e]) (by rw [Dq.pushBack, get_b, lift_b _ h]; rfl)]; rfl

theorem step_pushFront (e : α) {d : Blk α} {xs : List α} (R : Rep d xs) : Does (.pushFront e) d xs (Op.step (.pushFront e) d) := by
  rw [Op.step, get_b, R.size_ok]
  rcases full_or xs with ⟨m, h⟩ | h
  · rw [lift_t _ h]
    refine ⟨spent_refl d, Or.inl ⟨xs, ?_, R⟩⟩
    show DOp.step (.pushFront e) xs = _
    rw [DOp.step, throw_b (by rw [Dq.pushFront, get_b, lift_t _ h])]
  · rw [lift_b _ h]
    rcases R.pushFront_ok e with ⟨d', a1, a2, -, a4, a5⟩ | ⟨d', a1, a2, -, a4⟩
    · rw [throw_b a1]
      exact ⟨a5, Or.inr ⟨trivial, rfl, a2, a4⟩⟩
    · rw [sb a1]
      refine ⟨a4, Or.inl ⟨e :: xs, ?_, a2⟩⟩
      show DOp.step (.pushFront e) xs = _
      rw [DOp.step, sb (b := ()) (s' := e :: xs) (by rw [Dq.pushFront, get_b, lift_b _ h]; rfl)]; rfl

theorem step_popBack {d : Blk α} {xs : List α} (R : Rep d xs) : Does (.popBack) d xs (Op.step (.popBack) d) := by
  rw [Op.step, get_b, R.size_ok]
  rcases empty_or xs with ⟨-, m, h⟩ | ⟨hne, h⟩
  · rw [lift_t _ h]
    refine ⟨spent_refl d, Or.inl ⟨xs, ?_, R⟩⟩
    show DOp.step .popBack xs = _
    rw [DOp.step, throw_b (by rw [Dq.popBack, get_b, lift_t _ h])]
  · rw [lift_b _ h]
    rcases List.eq_nil_or_concat' xs with rfl | ⟨ys, x, rfl⟩
    · exact absurd rfl hne
    · obtain ⟨d', a1, a2, -, a4⟩ := R.popBack_ok
      rw [lift_b _ R.back_ok, sb a1]
      refine ⟨a4, Or.inl ⟨ys, ?_, a2⟩⟩
      show DOp.step .popBack (ys ++ [x]) = _
      rw [DOp.step, sb (b := x) (s' := ys) (by rw [Dq.popBack, get_b, lift_b _ h, lift_b _ (lb ys x), BT.set_b, List.dropLast_concat]; rfl)]; rfl

theorem step_popFront {d : Blk α} {xs : List α} (R : Rep d xs) : Does (.popFront) d xs (Op.step (.popFront) d) := by
  rw [Op.step, get_b, R.size_ok]
  rcases empty_or xs with ⟨-, m, h⟩ | ⟨hne, h⟩
  · rw [lift_t _ h]
    refine ⟨spent_refl d, Or.inl ⟨xs, ?_, R⟩⟩
    show DOp.step .popFront xs = _
    rw [DOp.step, throw_b (by rw [Dq.popFront, get_b, lift_t _ h])]
  · rw [lift_b _ h]
    cases xs with
    | nil => exact absurd rfl hne
    | cons x ys =>
      obtain ⟨d', a1, a2, -, a4⟩ := R.popFront_ok
      rw [lift_b _ R.front_ok, sb a1]
      refine ⟨a4, Or.inl ⟨ys, ?_, a2⟩⟩
      show DOp.step .popFront (x :: ys) = _
      rw [DOp.step, sb (b := x) (s' := ys) (by rw [Dq.popFront, get_b, lift_b _ h, lift_b _ (lf ys x)]; rfl)]; rfl

theorem step_back {d : Blk α} {xs : List α} (R : Rep d xs) : Does (.back) d xs (Op.step (.back) d) := by
  rw [Op.step, get_b, R.size_ok]
  rcases empty_or xs with ⟨-, m, h⟩ | ⟨hne, h⟩
  · rw [lift_t _ h]
    refine ⟨spent_refl d, Or.inl ⟨xs, ?_, R⟩⟩
    show DOp.step .back xs = _
    rw [DOp.step, throw_b (m := m) (s' := xs) (by rw [Meth.ask, get_b, Dq.back, h]; rfl)]
  · rw [lift_b _ h]
    rcases List.eq_nil_or_concat' xs with rfl | ⟨ys, x, rfl⟩
    · exact absurd rfl hne
    · rw [lift_b _ R.back_ok]
      refine ⟨spent_refl d, Or.inl ⟨ys ++ [x], ?_, R⟩⟩
      show DOp.step .back (ys ++ [x]) = _
      rw [DOp.step, sb (b := x) (s' := ys ++ [x]) (by rw [Meth.ask, get_b, Dq.back, h, Res.ok_bind, lb]; rfl)]; rfl

theorem step_front {d : Blk α} {xs : List α} (R : Rep d xs) : Does (.front) d xs (Op.step (.front) d) := by
  rw [Op.step, get_b, R.size_ok]
  rcases empty_or xs with ⟨-, m, h⟩ | ⟨hne, h⟩
  · rw [lift_t _ h]
    refine ⟨spent_refl d, Or.inl ⟨xs, ?_, R⟩⟩
    show DOp.step .front xs = _
    rw [DOp.step, throw_b (m := m) (s' := xs) (by rw [Meth.ask, get_b, Dq.front, h]; rfl)]
  · rw [lift_b _ h]
    cases xs with
    | nil => exact absurd rfl hne
    | cons x ys =>
      rw [lift_b _ R.front_ok]
      refine ⟨spent_refl d, Or.inl ⟨x :: ys, ?_, R⟩⟩
      show DOp.step .front (x :: ys) = _
      rw [DOp.step, sb (b := x) (s' := x :: ys) (by rw [Meth.ask, get_b, Dq.front, h, Res.ok_bind, lf]; rfl)]; rfl

theorem step_get (i : Int) {d : Blk α} {xs : List α} (R : Rep d xs) : Does (.get i) d xs (Op.step (.get i) d) := by
  rw [Op.step, get_b, R.refAt_ok]
  rcases refAt_cases xs i with ⟨j, h, hj⟩ | ⟨m, h⟩ | ⟨u, h⟩
  · rw [lift_b _ h, lift_b _ (R.at_ok j), lift_b _ (R.read_ok (List.getElem?_eq_getElem hj))]
    refine ⟨spent_refl d, Or.inl ⟨xs, ?_, R⟩⟩
    show DOp.step (.get i) xs = _
    rw [DOp.step, sb (b := xs[j]) (s' := xs) (by rw [Meth.ask, get_b, Dq.get, h, Res.ok_bind, vat_ok hj]; rfl)]; rfl
  · rw [lift_t _ h]
    refine ⟨spent_refl d, Or.inl ⟨xs, ?_, R⟩⟩
    show DOp.step (.get i) xs = _
    rw [DOp.step, throw_b (m := m) (s' := xs) (by rw [Meth.ask, get_b, Dq.get, h]; rfl)]
  · rw [ub_b _ h]
    refine ⟨spent_refl d, Or.inl ⟨xs, ?_, R⟩⟩
    show DOp.step (.get i) xs = _
    rw [DOp.step, ub_m (u := u) (s' := xs) (by rw [Meth.ask, get_b, Dq.get, h]; rfl)]

theorem step_assign (i : Int) (e : α) {d : Blk α} {xs : List α} (R : Rep d xs) : Does (.assign i e) d xs (Op.step (.assign i e) d) := by
  rw [Op.step, get_b, R.refAt_ok]
  rcases refAt_cases xs i with ⟨j, h, hj⟩ | ⟨m, h⟩ | ⟨u, h⟩
  · obtain ⟨d', a1, a2, -, a4⟩ := R.assign_ok hj e
    rw [lift_b _ h, lift_b _ (R.at_ok j), lift_b _ (R.read_ok (List.getElem?_eq_getElem hj)), upd_b a1]
    refine ⟨a4, Or.inl ⟨xs.set j e, ?_, a2⟩⟩
    show DOp.step (.assign i e) xs = _
    rw [DOp.step, sb (b := ()) (s' := xs.set j e) (by rw [Dq.assign, get_b, lift_b _ h, lift_b _ (vat_ok hj)]; rfl)]; rfl
  · rw [lift_t _ h]
    refine ⟨spent_refl d, Or.inl ⟨xs, ?_, R⟩⟩
    show DOp.step (.assign i e) xs = _
    rw [DOp.step, throw_b (m := m) (s' := xs) (by rw [Dq.assign, get_b, lift_t _ h])]
  · rw [ub_b _ h]
    refine ⟨spent_refl d, Or.inl ⟨xs, ?_, R⟩⟩
    show DOp.step (.assign i e) xs = _
    rw [DOp.step, ub_m (u := u) (s' := xs) (by rw [Dq.assign, get_b, ub_b _ h])]

theorem step_ok (op : Op α) {d : Blk α} {xs : List α} (R : Rep d xs) : Does op d xs (op.step d) := by
  cases op with
  | pushBack e => exact step_pushBack e R
  | pushFront e => exact step_pushFront e R
  | popBack => exact step_popBack R
  | popFront => exact step_popFront R
  | back => exact step_back R
  | front => exact step_front R
  | get i => exact step_get i R
  | assign i e => exact step_assign i e R

theorem init_rep {S : Nat} (hS : 0 < S) (g : Nat) : Rep (init S g : Blk α) [] := by
  constructor
  · exact hS
  · exact hS
  · show 3 = 3 + (0 + 0) / S
    simp
  · show 0 = (0 + 0) % S
    simp
  · show 3 < 8
    omega
  · intro k h1 h2
    have : k = 3 := le_antisymm h2 h1
    subst this
    exact ⟨0, rfl, rfl, by show 0 < 1; omega⟩
  · intro k k' id h1 h2 h3 h4 _ _
    have e1 : k = 3 := le_antisymm h2 h1
    have e2 : k' = 3 := le_antisymm h4 h3
    omega
  · intro i x hx
    simp at hx

/-- With memory for all calls a history is that of the list. -/
theorem run_ok : ∀ (ops : List (Op α)) {d : Blk α} {xs : List α}, Rep d xs → 2 * ops.length ≤ d.grants →
    (run ops d).1 = (DOp.run (ops.map Op.toD) xs).1 ∧ Rep (run ops d).2 (DOp.run (ops.map Op.toD) xs).2
  | [], d, xs, R, _ => ⟨rfl, R⟩
  | op :: ops, d, xs, R, hg => by
    rw [List.length_cons] at hg
    obtain ⟨sp, h | h⟩ := step_ok op R
    · obtain ⟨ys, h1, h2⟩ := h
      rcases hr : op.step d with ⟨r, d'⟩
      rw [hr] at h1 h2 sp
      have := run_ok ops h2 (by unfold Rep.Spent at sp; dsimp only at sp ⊢; omega)
      rw [run, List.map_cons, DOp.run, hr, h1]
      cases r with
      | ok a => exact ⟨by simp only [this.1], this.2⟩
      | throw m => exact ⟨by simp only [this.1], this.2⟩
      | ub u => exact ⟨rfl, h2⟩
      | fuel => exact ⟨rfl, h2⟩
    · have := h.2.2.2
      omega

/-- Histories of a list in which calls that ask for memory may fail. -/
inductive Hist : List (Op α) → List α → List (Res (Option α)) → List α → Prop
  | nil (xs : List α) : Hist [] xs [] xs
  | ok {op ops xs a ys rs zs} : op.toD.step xs = (.ok a, ys) → Hist ops ys rs zs → Hist (op :: ops) xs (.ok a :: rs) zs
  | throw {op ops xs m ys rs zs} : op.toD.step xs = (.throw m, ys) → Hist ops ys rs zs → Hist (op :: ops) xs (.throw m :: rs) zs
  | oom {op ops xs rs zs} : op.Asks → Hist ops xs rs zs → Hist (op :: ops) xs (.throw "std::bad_alloc" :: rs) zs
  | ub {op ops xs u ys} : op.toD.step xs = (.ub u, ys) → Hist (op :: ops) xs [.ub u] ys
  | fuel {op ops xs ys} : op.toD.step xs = (.fuel, ys) → Hist (op :: ops) xs [.fuel] ys

theorem run_hist : ∀ (ops : List (Op α)) {d : Blk α} {xs : List α}, Rep d xs → ∃ zs, Hist ops xs (run ops d).1 zs ∧ Rep (run ops d).2 zs
  | [], d, xs, R => ⟨xs, .nil xs, R⟩
  | op :: ops, d, xs, R => by
    obtain ⟨-, h | h⟩ := step_ok op R
    · obtain ⟨ys, h1, h2⟩ := h
      rcases hr : op.step d with ⟨r, d'⟩
      rw [hr] at h1 h2
      obtain ⟨zs, i1, i2⟩ := run_hist ops h2
      rw [run, hr]
      cases r with
      | ok a => exact ⟨zs, .ok h1 i1, i2⟩
      | throw m => exact ⟨zs, .throw h1 i1, i2⟩
      | ub u => exact ⟨ys, .ub h1, h2⟩
      | fuel => exact ⟨ys, .fuel h1, h2⟩
    · obtain ⟨h1, h2, h3, -⟩ := h
      rcases hr : op.step d with ⟨r, d'⟩
      rw [hr] at h2 h3
      dsimp only at h2 h3
      subst h2
      obtain ⟨zs, i1, i2⟩ := run_hist ops h3
      rw [run, hr]
      exact ⟨zs, .oom h1 i1, i2⟩

end Blk
end Pyincpp
