import Verif.Model.DequeBlock
import Verif.Proof.RbSet
import Mathlib.Tactic.Linarith
import Mathlib.Tactic.Ring

/-! # Lemmas about the blocks of a `std::deque` -/

namespace Pyincpp
namespace Blk
open BT (sb get_b throw_b lift_b lift_t)
variable {α : Type}

/-- The blocks hold the elements `xs`. -/
structure Rep (d : Blk α) (xs : List α) : Prop where
  pos : 0 < d.S
  so : d.so < d.S
  fn : d.fn = d.sn + (d.so + xs.length) / d.S
  fo : d.fo = (d.so + xs.length) % d.S
  bound : d.fn < d.msize
  nodes : ∀ k, d.sn ≤ k → k ≤ d.fn → ∃ id, d.map k = some id ∧ d.live id = true ∧ id < d.next
  inj : ∀ k k' id, d.sn ≤ k → k ≤ d.fn → d.sn ≤ k' → k' ≤ d.fn → d.map k = some id → d.map k' = some id → k = k'
  cells : ∀ i x, xs[i]? = some x → ∀ id, d.map (d.sn + (d.so + i) / d.S) = some id → d.mem id ((d.so + i) % d.S) = some x

/-- Where element `i` is: the number of the block and the place in it. -/
def place (d : Blk α) (i : Nat) : Option Nat × Nat := (d.map (d.sn + (d.so + i) / d.S), (d.so + i) % d.S)

theorem step_in {a S : Nat} (hS : 0 < S) (h : a % S ≠ S - 1) : (a + 1) / S = a / S ∧ (a + 1) % S = a % S + 1 := by
  have h1 := Nat.div_add_mod a S
  have h2 := Nat.mod_lt a hS
  have e : a + 1 = (a % S + 1) + S * (a / S) := by omega
  rw [e, Nat.add_mul_div_left _ _ hS, Nat.add_mul_mod_self_left, Nat.div_eq_of_lt (by omega), Nat.mod_eq_of_lt (by omega)]
  omega

theorem step_out {a S : Nat} (hS : 0 < S) (h : a % S = S - 1) : (a + 1) / S = a / S + 1 ∧ (a + 1) % S = 0 := by
  have h1 := Nat.div_add_mod a S
  have e : a + 1 = 0 + S * (a / S + 1) := by rw [Nat.mul_add]; omega
  rw [e, Nat.add_mul_div_left _ _ hS, Nat.add_mul_mod_self_left]
  simp

theorem div_ne {a b S : Nat} (h : a ≠ b) : a / S ≠ b / S ∨ a % S ≠ b % S := by
  by_contra hc
  push Not at hc
  have h1 := Nat.div_add_mod a S
  have h2 := Nat.div_add_mod b S
  rw [hc.1, hc.2] at h1
  omega

theorem upd_b {f : Blk α → Res (Blk α)} {γ : Type} {g : Unit → Meth (Blk α) γ} {d d' : Blk α} (h : f d = .ok d') : (upd f >>= g) d = g () d' :=
  sb (by unfold upd; rw [h])

theorem upd_m {h : Blk α → Blk α} {γ : Type} {g : Unit → Meth (Blk α) γ} (d : Blk α) : (upd (fun d => .ok (h d)) >>= g) d = g () (h d) := rfl

theorem setMap_b {γ : Type} {g : Unit → Meth (Blk α) γ} {k id : Nat} (d : Blk α) (h : k < d.msize) :
    (upd (setMap k id) >>= g) d = g () { d with map := fun j => if j = k then some id else d.map j } := upd_b (if_pos h)

theorem upd_e {f : Blk α → Res (Blk α)} {d d' : Blk α} (h : f d = .ok d') : upd f d = (.ok (), d') := by unfold upd; rw [h]

theorem node_of {d : Blk α} {k id : Nat} (h1 : k < d.msize) (h2 : d.map k = some id) (h3 : d.live id = true) : d.node k = .ok id := by
  unfold node
  rw [if_pos h1, h2]
  simp [h3]

theorem write_of {d : Blk α} {k o id : Nat} {v : Option α} (h : d.node k = .ok id) (ho : o < d.S) :
    write k o v d = .ok { d with mem := fun i p => if i = id ∧ p = o then v else d.mem i p } := by
  unfold write
  rw [h, Res.ok_bind, if_pos ho]

namespace Rep
variable {d : Blk α} {xs : List α} {x : α}

theorem k_le (R : Rep d xs) {i : Nat} (h : i ≤ xs.length) : d.sn + (d.so + i) / d.S ≤ d.fn := by
  rw [R.fn]
  exact Nat.add_le_add_left (Nat.div_le_div_right (by omega)) _

theorem sn_le (R : Rep d xs) : d.sn ≤ d.fn := by rw [R.fn]; exact Nat.le_add_right _ _

theorem read_ok (R : Rep d xs) {i : Nat} {x : α} (h : xs[i]? = some x) : d.read (d.sn + (d.so + i) / d.S) ((d.so + i) % d.S) = .ok x := by
  have hi : i < xs.length := by
    by_contra hc
    rw [List.getElem?_eq_none (by omega)] at h
    cases h
  obtain ⟨id, h1, h2, -⟩ := R.nodes _ (Nat.le_add_right _ _) (R.k_le hi.le)
  have := R.bound
  have hk := R.k_le hi.le
  unfold read
  rw [node_of (by omega) h1 h2, Res.ok_bind, if_pos (Nat.mod_lt _ R.pos), R.cells i x h id h1]

theorem sub_ok (R : Rep d xs) : itSub d.S d.fn d.fo d.sn d.so = xs.length := by
  unfold itSub
  have h := Nat.div_add_mod (d.so + xs.length) d.S
  rw [← R.fo] at h
  have e := R.fn
  generalize (d.so + xs.length) / d.S = q at *
  rw [e]
  have h' : (d.S : Int) * q + d.fo = d.so + xs.length := by exact_mod_cast h
  push_cast
  linarith

theorem size_ok (R : Rep d xs) : d.size = Dq.size xs := by unfold size Dq.size; rw [R.sub_ok]

/-- Moving the pointers. -/
theorem moved (R : Rep d xs) {ns m g : Nat} {map' : Nat → Option Nat} (hm : ∀ j, j < d.fn - d.sn + 1 → map' (ns + j) = d.map (d.sn + j))
    (hb : ns + (d.fn - d.sn + 1) ≤ m) : Rep { d with grants := g, msize := m, map := map', sn := ns, fn := ns + (d.fn - d.sn + 1) - 1 } xs := by
  have hle := R.sn_le
  constructor
  · exact R.pos
  · exact R.so
  · show ns + (d.fn - d.sn + 1) - 1 = ns + (d.so + xs.length) / d.S
    have e := R.fn
    generalize (d.so + xs.length) / d.S = q at *
    omega
  · exact R.fo
  · show ns + (d.fn - d.sn + 1) - 1 < m
    omega
  · intro k h1 h2
    dsimp only at h1 h2 ⊢
    obtain ⟨id, i1, i2⟩ := R.nodes (d.sn + (k - ns)) (by omega) (by omega)
    exact ⟨id, by rw [show k = ns + (k - ns) by omega, hm _ (by omega)]; exact i1, i2⟩
  · intro k k' id h1 h2 h3 h4 h5 h6
    dsimp only at *
    rw [show k = ns + (k - ns) by omega, hm _ (by omega)] at h5
    rw [show k' = ns + (k' - ns) by omega, hm _ (by omega)] at h6
    have := R.inj _ _ id (by omega) (by omega) (by omega) (by omega) h5 h6
    omega
  · intro i x hx id hid
    dsimp only at hid ⊢
    have hi : i < xs.length := by
      by_contra hc
      rw [List.getElem?_eq_none (by omega)] at hx
      cases hx
    have := R.k_le hi.le
    rw [hm _ (by omega)] at hid
    exact R.cells i x hx id hid

theorem moved_place (R : Rep d xs) {ns m g : Nat} {map' : Nat → Option Nat} (hm : ∀ j, j < d.fn - d.sn + 1 → map' (ns + j) = d.map (d.sn + j)) (i : Nat)
    (hi : i ≤ xs.length) : place { d with grants := g, msize := m, map := map', sn := ns, fn := ns + (d.fn - d.sn + 1) - 1 } i = place d i := by
  unfold place
  dsimp only
  have := R.k_le hi
  have hle := R.sn_le
  rw [hm _ (by omega)]

theorem realloc_ok (R : Rep d xs) (add : Nat) (front : Bool) :
    (reallocMap add front d = (.throw "std::bad_alloc", d) ∧ d.grants = 0) ∨
    ∃ d', reallocMap add front d = (.ok (), d') ∧ Rep d' xs ∧ (∀ i ≤ xs.length, place d' i = place d i) ∧ d'.S = d.S ∧ d'.so = d.so ∧ d'.fo = d.fo ∧
      d.grants ≤ d'.grants + 1 ∧ d'.grants ≤ d.grants ∧ (front = false → d'.fn + add < d'.msize) ∧ (front = true → add ≤ d'.sn) := by
  have hle := R.sn_le
  have hb := R.bound
  unfold reallocMap
  dsimp only
  by_cases h1 : d.msize > 2 * (d.fn - d.sn + 1 + add)
  · right
    rw [if_pos h1]
    generalize hns : (d.msize - (d.fn - d.sn + 1 + add)) / 2 + (if front = true then add else 0) = ns
    have hr : ns + (d.fn - d.sn + 1) ≤ d.msize ∧ (front = false → ns + (d.fn - d.sn) + add < d.msize) ∧ (front = true → add ≤ ns) := by
      cases front <;> simp at hns ⊢ <;> omega
    rw [if_pos hr.1]
    refine ⟨_, rfl, R.moved (g := d.grants) (m := d.msize) ?_ hr.1, R.moved_place (g := d.grants) (m := d.msize) ?_, rfl, rfl, rfl, by simp, by simp, ?_, ?_⟩
    · intro j hj
      rw [if_pos (by omega)]
      congr 1; omega
    · intro j hj
      rw [if_pos (by omega)]
      congr 1; omega
    · intro hf
      have := hr.2.1 hf
      dsimp only
      omega
    · exact hr.2.2
  · rw [if_neg h1]
    cases hg : d.grants with
    | zero => exact Or.inl ⟨rfl, rfl⟩
    | succ g =>
      right
      dsimp only
      have hmx : Nat.max d.msize add ≥ d.msize ∧ Nat.max d.msize add ≥ add := ⟨Nat.le_max_left _ _, Nat.le_max_right _ _⟩
      generalize Nat.max d.msize add = mx at *
      generalize hns : (d.msize + mx + 2 - (d.fn - d.sn + 1 + add)) / 2 + (if front = true then add else 0) = ns
      have hr : ns + (d.fn - d.sn + 1) ≤ d.msize + mx + 2 ∧ (front = false → ns + (d.fn - d.sn) + add < d.msize + mx + 2) ∧ (front = true → add ≤ ns) := by
        cases front <;> simp at hns ⊢ <;> omega
      rw [if_pos hr.1]
      refine ⟨_, rfl, R.moved (g := g) (m := d.msize + mx + 2) ?_ hr.1, R.moved_place (g := g) (m := d.msize + mx + 2) ?_, rfl, rfl, rfl, by simp, by simp, ?_, ?_⟩
      · intro j hj
        rw [if_pos (by omega)]
        congr 1; omega
      · intro j hj
        rw [if_pos (by omega)]
        congr 1; omega
      · intro hf
        have := hr.2.1 hf
        dsimp only
        omega
      · exact hr.2.2

/-- What is left of the requests for memory. -/
def Spent (d d' : Blk α) : Prop := d.grants ≤ d'.grants + 2 ∧ d'.grants ≤ d.grants

theorem reserveBack_ok (R : Rep d xs) :
    (reserveBack d = (.throw "std::bad_alloc", d) ∧ d.grants = 0) ∨
    ∃ d', reserveBack d = (.ok (), d') ∧ Rep d' xs ∧ (∀ i ≤ xs.length, place d' i = place d i) ∧ d'.S = d.S ∧ d'.so = d.so ∧ d'.fo = d.fo ∧
      d.grants ≤ d'.grants + 1 ∧ d'.grants ≤ d.grants ∧ d'.fn + 1 < d'.msize := by
  unfold reserveBack
  rw [get_b]
  split
  · rcases R.realloc_ok 1 false with h | ⟨d', a1, a2, a3, a4, a5, a6, a7, a8, a9, -⟩
    · exact Or.inl h
    · exact Or.inr ⟨d', a1, a2, a3, a4, a5, a6, a7, a8, a9 rfl⟩
  · exact Or.inr ⟨d, rfl, R, fun _ _ => rfl, rfl, rfl, rfl, by omega, le_refl _, by have := R.bound; omega⟩

theorem reserveFront_ok (R : Rep d xs) :
    (reserveFront d = (.throw "std::bad_alloc", d) ∧ d.grants = 0) ∨
    ∃ d', reserveFront d = (.ok (), d') ∧ Rep d' xs ∧ (∀ i ≤ xs.length, place d' i = place d i) ∧ d'.S = d.S ∧ d'.so = d.so ∧ d'.fo = d.fo ∧
      d.grants ≤ d'.grants + 1 ∧ d'.grants ≤ d.grants ∧ 0 < d'.sn := by
  unfold reserveFront
  rw [get_b]
  split
  · rcases R.realloc_ok 1 true with h | ⟨d', a1, a2, a3, a4, a5, a6, a7, a8, -, a9⟩
    · exact Or.inl h
    · exact Or.inr ⟨d', a1, a2, a3, a4, a5, a6, a7, a8, a9 rfl⟩
  · exact Or.inr ⟨d, rfl, R, fun _ _ => rfl, rfl, rfl, rfl, by omega, le_refl _, by omega⟩

/-- Writing after the last element. -/
theorem mem_back (R : Rep d xs) {id : Nat} (hid : d.map d.fn = some id) {v : Option α} {i : Nat} (hi : i < xs.length) {j : Nat}
    (hj : d.map (d.sn + (d.so + i) / d.S) = some j) :
    (if j = id ∧ (d.so + i) % d.S = d.fo then v else d.mem j ((d.so + i) % d.S)) = d.mem j ((d.so + i) % d.S) := by
  rw [if_neg]
  rintro ⟨rfl, h2⟩
  have := R.inj _ _ _ (Nat.le_add_right _ _) (R.k_le hi.le) R.sn_le (le_refl _) hj hid
  rw [R.fn] at this
  rw [R.fo] at h2
  rcases div_ne (S := d.S) (show d.so + i ≠ d.so + xs.length by omega) with h | h
  · omega
  · exact h h2

theorem push_in (R : Rep d xs) (e : α) (h : d.fo ≠ d.S - 1) {id : Nat} (hid : d.map d.fn = some id) :
    Rep { d with mem := fun i p => if i = id ∧ p = d.fo then some e else d.mem i p, fo := d.fo + 1 } (xs ++ [e]) := by
  have hs := step_in R.pos (by rw [← R.fo]; exact h)
  constructor
  · exact R.pos
  · exact R.so
  · show d.fn = d.sn + (d.so + (xs ++ [e]).length) / d.S
    rw [List.length_append, List.length_singleton, ← Nat.add_assoc, hs.1, R.fn]
  · show d.fo + 1 = (d.so + (xs ++ [e]).length) % d.S
    rw [List.length_append, List.length_singleton, ← Nat.add_assoc, hs.2, R.fo]
  · exact R.bound
  · exact R.nodes
  · exact R.inj
  · intro i x hx j hj
    dsimp only at hj ⊢
    by_cases hi : i < xs.length
    · rw [R.mem_back hid hi hj]
      rw [List.getElem?_append_left hi] at hx
      exact R.cells i x hx j hj
    · have : i = xs.length := by
        by_contra hc
        rw [List.getElem?_eq_none (by simp; omega)] at hx
        cases hx
      subst this
      rw [← R.fn, hid] at hj
      rw [← R.fo]
      simp at hj hx
      simp [hj, hx]

theorem push_out (R : Rep d xs) (e : α) (h : d.fo = d.S - 1) (hb : d.fn + 1 < d.msize) {id : Nat} (hid : d.map d.fn = some id) (g : Nat) :
    Rep { d with
      grants := g, next := d.next + 1, live := fun i => if i = d.next then true else d.live i, map := fun j => if j = d.fn + 1 then some d.next else d.map j,
      mem := fun i p => if i = id ∧ p = d.fo then some e else if i = d.next then none else d.mem i p, fn := d.fn + 1, fo := 0 } (xs ++ [e]) := by
  have hs := step_out R.pos (by rw [← R.fo]; exact h)
  have hnext : ∀ k j, d.sn ≤ k → k ≤ d.fn → d.map k = some j → j ≠ d.next ∧ j < d.next := by
    intro k j h1 h2 h3
    obtain ⟨j', i1, -, i2⟩ := R.nodes k h1 h2
    rw [h3] at i1
    cases i1
    exact ⟨by omega, i2⟩
  constructor
  · exact R.pos
  · exact R.so
  · show d.fn + 1 = d.sn + (d.so + (xs ++ [e]).length) / d.S
    rw [List.length_append, List.length_singleton, ← Nat.add_assoc, hs.1, R.fn]
    omega
  · show 0 = (d.so + (xs ++ [e]).length) % d.S
    rw [List.length_append, List.length_singleton, ← Nat.add_assoc, hs.2]
  · exact hb
  · intro k h1 h2
    dsimp only at h1 h2 ⊢
    by_cases hk : k = d.fn + 1
    · exact ⟨d.next, by rw [if_pos hk], by simp, by omega⟩
    · obtain ⟨j, i1, i2, i3⟩ := R.nodes k h1 (by omega)
      exact ⟨j, by rw [if_neg hk]; exact i1, by split <;> [rfl; exact i2], by omega⟩
  · intro k k' j h1 h2 h3 h4 h5 h6
    dsimp only at h1 h2 h3 h4 h5 h6
    by_cases hk : k = d.fn + 1
    · by_cases hk' : k' = d.fn + 1
      · omega
      · rw [if_pos hk] at h5
        rw [if_neg hk'] at h6
        cases h5
        exact absurd rfl (hnext k' _ h3 (by omega) h6).1
    · rw [if_neg hk] at h5
      by_cases hk' : k' = d.fn + 1
      · rw [if_pos hk'] at h6
        cases h6
        exact absurd rfl (hnext k _ h1 (by omega) h5).1
      · rw [if_neg hk'] at h6
        exact R.inj k k' j h1 (by omega) h3 (by omega) h5 h6
  · intro i x hx j hj
    dsimp only at hj ⊢
    have hi' : i ≤ xs.length := by
      by_contra hc
      rw [List.getElem?_eq_none (by simp; omega)] at hx
      cases hx
    have hk := R.k_le hi'
    rw [if_neg (by omega)] at hj
    rw [if_neg (hnext _ j (Nat.le_add_right _ _) hk hj).1]
    by_cases hi : i < xs.length
    · rw [R.mem_back hid hi hj]
      rw [List.getElem?_append_left hi] at hx
      exact R.cells i x hx j hj
    · have : i = xs.length := by omega
      subst this
      rw [← R.fn, hid] at hj
      rw [← R.fo]
      simp at hj hx
      simp [hj, hx]

/-- `push_back`. -/
theorem pushBack_ok (R : Rep d xs) (e : α) :
    (∃ d', stdPushBack e d = (.throw "std::bad_alloc", d') ∧ Rep d' xs ∧ (∀ i < xs.length, place d' i = place d i) ∧ d.grants < 2 ∧ Spent d d') ∨
    ∃ d', stdPushBack e d = (.ok (), d') ∧ Rep d' (xs ++ [e]) ∧ (∀ i < xs.length, place d' i = place d i) ∧ Spent d d' := by
  unfold stdPushBack
  rw [get_b]
  by_cases h : d.fo ≠ d.S - 1
  · obtain ⟨id, h1, h2, -⟩ := R.nodes d.fn R.sn_le (le_refl _)
    rw [if_pos h, upd_b (write_of (node_of R.bound h1 h2) (by rw [R.fo]; exact Nat.mod_lt _ R.pos))]
    exact Or.inr ⟨_, rfl, R.push_in e h h1, fun _ _ => rfl, by simp [Spent]⟩
  · rw [if_neg h]
    push Not at h
    rcases R.reserveBack_ok with ⟨h1, h2⟩ | ⟨d1, a1, R1, a3, a4, a5, a6, a7, a8, a9⟩
    · rw [throw_b h1]
      exact Or.inl ⟨d, rfl, R, fun _ _ => rfl, by omega, by simp [Spent]⟩
    · rw [sb a1]
      cases hg : d1.grants with
      | zero =>
        have e1 : allocNode d1 = (.throw "std::bad_alloc", d1) := by unfold allocNode; rw [hg]
        rw [throw_b e1]
        exact Or.inl ⟨d1, rfl, R1, fun i hi => a3 i hi.le, by omega, by unfold Spent; omega⟩
      | succ g =>
        have e1 : allocNode d1 = (.ok d1.next, { d1 with
            grants := g, next := d1.next + 1, live := fun i => if i = d1.next then true else d1.live i,
            mem := fun i p => if i = d1.next then none else d1.mem i p }) := by unfold allocNode; rw [hg]
        obtain ⟨id, h1, h2, h3⟩ := R1.nodes d1.fn R1.sn_le (le_refl _)
        rw [sb e1, get_b]
        dsimp only
        rw [setMap_b _ (by exact a9)]
        rw [upd_b (write_of (id := id) (node_of (by have := R1.bound; exact this) (by dsimp only; rw [if_neg (by omega)]; exact h1) (by dsimp only; split <;> [rfl; exact h2]))
          (by dsimp only; rw [R1.fo]; exact Nat.mod_lt _ R1.pos))]
        refine Or.inr ⟨_, rfl, R1.push_out e (by rw [a6, h, a4]) a9 h1 g, fun i hi => ?_, by unfold Spent; dsimp only; omega⟩
        rw [← a3 i hi.le]
        unfold place
        dsimp only
        have := R1.k_le hi.le
        rw [if_neg (by omega)]

/-- Writing in a place before the first element. -/
theorem mem_front (R : Rep d xs) {id o : Nat} (ho : o < d.so) (hid : d.map d.sn = some id) {v : Option α} {i : Nat} (hi : i < xs.length) {j : Nat}
    (hj : d.map (d.sn + (d.so + i) / d.S) = some j) :
    (if j = id ∧ (d.so + i) % d.S = o then v else d.mem j ((d.so + i) % d.S)) = d.mem j ((d.so + i) % d.S) := by
  rw [if_neg]
  rintro ⟨rfl, h2⟩
  have := R.inj _ _ _ (Nat.le_add_right _ _) (R.k_le hi.le) (le_refl _) R.sn_le hj hid
  have h3 := Nat.div_add_mod (d.so + i) d.S
  rw [show (d.so + i) / d.S = 0 by omega, h2] at h3
  omega

theorem front_in (R : Rep d xs) (e : α) (h : d.so ≠ 0) {id : Nat} (hid : d.map d.sn = some id) :
    Rep { d with mem := fun i p => if i = id ∧ p = d.so - 1 then some e else d.mem i p, so := d.so - 1 } (e :: xs) := by
  have hso := R.so
  constructor
  · exact R.pos
  · show d.so - 1 < d.S
    omega
  · show d.fn = d.sn + (d.so - 1 + (e :: xs).length) / d.S
    rw [List.length_cons, show d.so - 1 + (xs.length + 1) = d.so + xs.length by omega, R.fn]
  · show d.fo = (d.so - 1 + (e :: xs).length) % d.S
    rw [List.length_cons, show d.so - 1 + (xs.length + 1) = d.so + xs.length by omega, R.fo]
  · exact R.bound
  · exact R.nodes
  · exact R.inj
  · intro i x hx j hj
    dsimp only at hj ⊢
    cases i with
    | zero =>
      rw [Nat.add_zero] at hj ⊢
      rw [Nat.div_eq_of_lt (by omega), Nat.add_zero, hid] at hj
      rw [Nat.mod_eq_of_lt (by omega)]
      simp at hj hx
      simp [hj, hx]
    | succ i =>
      rw [show d.so - 1 + (i + 1) = d.so + i by omega] at hj ⊢
      have hi : i < xs.length := by
        by_contra hc
        rw [List.getElem?_eq_none (by simp; omega)] at hx
        cases hx
      rw [R.mem_front (by omega) hid hi hj]
      exact R.cells i x (by simpa using hx) j hj

theorem front_out (R : Rep d xs) (e : α) (h : d.so = 0) (hb : 0 < d.sn) (g : Nat) :
    Rep { d with
      grants := g, next := d.next + 1, live := fun i => if i = d.next then true else d.live i, map := fun j => if j = d.sn - 1 then some d.next else d.map j,
      mem := fun i p => if i = d.next ∧ p = d.S - 1 then some e else if i = d.next then none else d.mem i p, sn := d.sn - 1, so := d.S - 1 } (e :: xs) := by
  have hp := R.pos
  have hle := R.sn_le
  have hnext : ∀ k j, d.sn ≤ k → k ≤ d.fn → d.map k = some j → j ≠ d.next ∧ j < d.next := by
    intro k j h1 h2 h3
    obtain ⟨j', i1, -, i2⟩ := R.nodes k h1 h2
    rw [h3] at i1
    cases i1
    exact ⟨by omega, i2⟩
  have hd : ∀ i, (d.S - 1 + (i + 1)) / d.S = (d.so + i) / d.S + 1 ∧ (d.S - 1 + (i + 1)) % d.S = (d.so + i) % d.S := by
    intro i
    rw [show d.S - 1 + (i + 1) = d.so + i + d.S by omega, Nat.add_div_right _ hp, Nat.add_mod_right]
    exact ⟨rfl, rfl⟩
  constructor
  · exact hp
  · show d.S - 1 < d.S
    omega
  · show d.fn = d.sn - 1 + (d.S - 1 + (e :: xs).length) / d.S
    rw [List.length_cons, (hd _).1, R.fn]
    omega
  · show d.fo = (d.S - 1 + (e :: xs).length) % d.S
    rw [List.length_cons, (hd _).2, R.fo]
  · exact R.bound
  · intro k h1 h2
    dsimp only at h1 h2 ⊢
    by_cases hk : k = d.sn - 1
    · exact ⟨d.next, by rw [if_pos hk], by simp, by omega⟩
    · obtain ⟨j, i1, i2, i3⟩ := R.nodes k (by omega) h2
      exact ⟨j, by rw [if_neg hk]; exact i1, by split <;> [rfl; exact i2], by omega⟩
  · intro k k' j h1 h2 h3 h4 h5 h6
    dsimp only at h1 h2 h3 h4 h5 h6
    by_cases hk : k = d.sn - 1
    · by_cases hk' : k' = d.sn - 1
      · omega
      · rw [if_pos hk] at h5
        rw [if_neg hk'] at h6
        cases h5
        exact absurd rfl (hnext k' _ (by omega) h4 h6).1
    · rw [if_neg hk] at h5
      by_cases hk' : k' = d.sn - 1
      · rw [if_pos hk'] at h6
        cases h6
        exact absurd rfl (hnext k _ (by omega) h2 h5).1
      · rw [if_neg hk'] at h6
        exact R.inj k k' j (by omega) h2 (by omega) h4 h5 h6
  · intro i x hx j hj
    dsimp only at hj ⊢
    cases i with
    | zero =>
      rw [Nat.add_zero] at hj ⊢
      rw [Nat.div_eq_of_lt (by omega), Nat.add_zero, if_pos rfl] at hj
      rw [Nat.mod_eq_of_lt (by omega)]
      simp at hj hx
      simp [hj, hx]
    | succ i =>
      have hi : i < xs.length := by
        by_contra hc
        rw [List.getElem?_eq_none (by simp; omega)] at hx
        cases hx
      have hk := R.k_le hi.le
      rw [(hd i).1, show d.sn - 1 + ((d.so + i) / d.S + 1) = d.sn + (d.so + i) / d.S by omega] at hj
      have hge : d.sn ≤ d.sn + (d.so + i) / d.S := Nat.le_add_right _ _
      rw [if_neg (by omega)] at hj
      have hne := (hnext _ j hge hk hj).1
      rw [(hd i).2, if_neg (by tauto), if_neg hne]
      exact R.cells i x (by simpa using hx) j hj

/-- `push_front`. -/
theorem pushFront_ok (R : Rep d xs) (e : α) :
    (∃ d', stdPushFront e d = (.throw "std::bad_alloc", d') ∧ Rep d' xs ∧ (∀ i < xs.length, place d' i = place d i) ∧ d.grants < 2 ∧ Spent d d') ∨
    ∃ d', stdPushFront e d = (.ok (), d') ∧ Rep d' (e :: xs) ∧ (∀ i < xs.length, place d' (i + 1) = place d i) ∧ Spent d d' := by
  unfold stdPushFront
  rw [get_b]
  have hso := R.so
  have hp := R.pos
  by_cases h : d.so ≠ 0
  · obtain ⟨id, h1, h2, -⟩ := R.nodes d.sn (le_refl _) R.sn_le
    rw [if_pos h, upd_b (write_of (node_of (lt_of_le_of_lt R.sn_le R.bound) h1 h2) (by omega))]
    refine Or.inr ⟨_, rfl, R.front_in e h h1, fun i _ => ?_, by simp [Spent]⟩
    unfold place
    dsimp only
    rw [show d.so - 1 + (i + 1) = d.so + i by omega]
  · rw [if_neg h]
    push Not at h
    rcases R.reserveFront_ok with ⟨h1, h2⟩ | ⟨d1, a1, R1, a3, a4, a5, a6, a7, a8, a9⟩
    · rw [throw_b h1]
      exact Or.inl ⟨d, rfl, R, fun _ _ => rfl, by omega, by simp [Spent]⟩
    · rw [sb a1]
      cases hg : d1.grants with
      | zero =>
        have e1 : allocNode d1 = (.throw "std::bad_alloc", d1) := by unfold allocNode; rw [hg]
        rw [throw_b e1]
        exact Or.inl ⟨d1, rfl, R1, fun i hi => a3 i hi.le, by omega, by unfold Spent; omega⟩
      | succ g =>
        have e1 : allocNode d1 = (.ok d1.next, { d1 with
            grants := g, next := d1.next + 1, live := fun i => if i = d1.next then true else d1.live i,
            mem := fun i p => if i = d1.next then none else d1.mem i p }) := by unfold allocNode; rw [hg]
        have hb1 := R1.bound
        have hl1 := R1.sn_le
        have hp1 := R1.pos
        rw [sb e1, get_b]
        dsimp only
        rw [setMap_b _ (by dsimp only; omega), upd_m]
        rw [upd_e (write_of (id := d1.next) (node_of (by dsimp only; omega) (by dsimp only; rw [if_pos rfl]) (by dsimp only; rw [if_pos rfl]))
          (by dsimp only; omega))]
        refine Or.inr ⟨_, rfl, R1.front_out e (by rw [a5, h]) a9 g, fun i hi => ?_, by unfold Spent; dsimp only; omega⟩
        rw [← a3 i hi.le]
        unfold place
        dsimp only
        have hz : d1.so = 0 := by rw [a5, h]
        rw [show d1.S - 1 + (i + 1) = d1.so + i + d1.S by omega, Nat.add_div_right _ hp1, Nat.add_mod_right,
          show d1.sn - 1 + ((d1.so + i) / d1.S + 1) = d1.sn + (d1.so + i) / d1.S by omega, if_neg (by have : d1.sn ≤ d1.sn + (d1.so + i) / d1.S := Nat.le_add_right _ _; omega)]

/-- Writing in the place of another element. -/
theorem mem_at (R : Rep d xs) {m id : Nat} (hm : m ≤ xs.length) (hid : d.map (d.sn + (d.so + m) / d.S) = some id) {v : Option α} {i : Nat} (hi : i ≤ xs.length)
    (hne : i ≠ m) {j : Nat} (hj : d.map (d.sn + (d.so + i) / d.S) = some j) :
    (if j = id ∧ (d.so + i) % d.S = (d.so + m) % d.S then v else d.mem j ((d.so + i) % d.S)) = d.mem j ((d.so + i) % d.S) := by
  rw [if_neg]
  rintro ⟨rfl, h2⟩
  have := R.inj _ _ _ (Nat.le_add_right _ _) (R.k_le hi) (Nat.le_add_right _ _) (R.k_le hm) hj hid
  rcases div_ne (S := d.S) (show d.so + i ≠ d.so + m by omega) with h | h
  · omega
  · exact h h2

theorem last (R : Rep d (xs ++ [x])) (h : d.fo ≠ 0) : d.fn = d.sn + (d.so + xs.length) / d.S ∧ d.fo - 1 = (d.so + xs.length) % d.S := by
  have e1 := R.fn
  have e2 := R.fo
  rw [List.length_append, List.length_singleton, ← Nat.add_assoc] at e1 e2
  have hs := step_in R.pos (a := d.so + xs.length) (fun hc => h (by rw [e2, (step_out R.pos hc).2]))
  rw [hs.1] at e1
  rw [hs.2] at e2
  exact ⟨e1, by omega⟩

theorem last_out (R : Rep d (xs ++ [x])) (h : d.fo = 0) : d.fn = d.sn + (d.so + xs.length) / d.S + 1 ∧ d.S - 1 = (d.so + xs.length) % d.S := by
  have e1 := R.fn
  have e2 := R.fo
  rw [List.length_append, List.length_singleton, ← Nat.add_assoc] at e1 e2
  have hc : (d.so + xs.length) % d.S = d.S - 1 := by
    by_contra hc
    have := (step_in R.pos hc).2
    omega
  rw [(step_out R.pos hc).1] at e1
  exact ⟨by omega, hc.symm⟩

theorem back_ok (R : Rep d (xs ++ [x])) : d.stdBack = .ok x := by
  unfold stdBack
  by_cases h : d.fo = 0
  · obtain ⟨h1, h2⟩ := R.last_out h
    rw [if_pos h, h1, h2, Nat.add_sub_cancel]
    exact R.read_ok (by simp)
  · obtain ⟨h1, h2⟩ := R.last h
    rw [if_neg h, h1, h2]
    exact R.read_ok (by simp)

theorem front_ok (R : Rep d (x :: xs)) : d.stdFront = .ok x := by
  have := R.read_ok (i := 0) (x := x) (by simp)
  rw [Nat.add_zero, Nat.div_eq_of_lt R.so, Nat.mod_eq_of_lt R.so, Nat.add_zero] at this
  exact this

theorem popBack_ok (R : Rep d (xs ++ [x])) :
    ∃ d', stdPopBack d = (.ok (), d') ∧ Rep d' xs ∧ (∀ i < xs.length, place d' i = place d i) ∧ Spent d d' := by
  have hp := R.pos
  have hl : (xs ++ [x]).length = xs.length + 1 := by simp
  unfold stdPopBack
  rw [get_b]
  by_cases h : d.fo ≠ 0
  · obtain ⟨f1, f2⟩ := R.last h
    obtain ⟨id, h1, h2, -⟩ := R.nodes d.fn R.sn_le (le_refl _)
    rw [if_pos h, upd_m]
    rw [upd_e (write_of (id := id) (node_of (by exact R.bound) (by exact h1) (by exact h2)) (by dsimp only; rw [f2]; exact Nat.mod_lt _ hp))]
    refine ⟨_, rfl, ?_, fun _ _ => rfl, by simp [Spent]⟩
    constructor
    · exact hp
    · exact R.so
    · exact f1
    · exact f2
    · exact R.bound
    · exact R.nodes
    · exact R.inj
    · intro i y hy j hj
      dsimp only at hj ⊢
      have hi : i < xs.length := by
        by_contra hc
        rw [List.getElem?_eq_none (by omega)] at hy
        cases hy
      rw [f1] at h1
      rw [f2, R.mem_at (m := xs.length) (by omega) h1 (by omega) (by omega) hj]
      exact R.cells i y (by rw [List.getElem?_append_left hi]; exact hy) j hj
  · rw [if_neg h]
    push Not at h
    obtain ⟨f1, f2⟩ := R.last_out h
    obtain ⟨id, h1, h2, -⟩ := R.nodes d.fn R.sn_le (le_refl _)
    obtain ⟨id', h1', h2', -⟩ := R.nodes (d.fn - 1) (by rw [f1, Nat.add_sub_cancel]; exact Nat.le_add_right _ _) (by omega)
    have hge : d.sn ≤ d.fn - 1 := by rw [f1, Nat.add_sub_cancel]; exact Nat.le_add_right _ _
    have hfn : d.fn ≠ 0 := by rw [f1]; exact Nat.succ_ne_zero _
    have hb := R.bound
    have hii : id' ≠ id := by
      rintro rfl
      have := R.inj _ _ _ hge (by omega) R.sn_le (le_refl _) h1' h1
      omega
    rw [upd_b (show freeNode d.fn d = .ok { d with live := fun i => if i = id then false else d.live i } by
      unfold freeNode; rw [node_of R.bound h1 h2, Res.ok_bind]), upd_m]
    rw [upd_e (write_of (id := id') (node_of (by dsimp only; omega) (by exact h1') (by dsimp only; rw [if_neg hii]; exact h2')) (by dsimp only; omega))]
    have e1 : d.fn - 1 = d.sn + (d.so + xs.length) / d.S := by rw [f1, Nat.add_sub_cancel]
    refine ⟨_, rfl, ?_, fun _ _ => rfl, by simp [Spent]⟩
    constructor
    · exact hp
    · exact R.so
    · exact e1
    · exact f2
    · show d.fn - 1 < d.msize
      omega
    · intro k k1 k2
      dsimp only at k1 k2 ⊢
      obtain ⟨j, i1, i2, i3⟩ := R.nodes k k1 (by omega)
      refine ⟨j, i1, ?_, i3⟩
      rw [if_neg]
      · exact i2
      · rintro rfl
        have := R.inj _ _ _ k1 (by omega) R.sn_le (le_refl _) i1 h1
        omega
    · intro k k' j k1 k2 k3 k4 k5 k6
      dsimp only at k1 k2 k3 k4 k5 k6
      exact R.inj k k' j k1 (by omega) k3 (by omega) k5 k6
    · intro i y hy j hj
      dsimp only at hj ⊢
      have hi : i < xs.length := by
        by_contra hc
        rw [List.getElem?_eq_none (by omega)] at hy
        cases hy
      rw [e1] at h1'
      rw [f2, R.mem_at (m := xs.length) (by omega) h1' (by omega) (by omega) hj]
      exact R.cells i y (by rw [List.getElem?_append_left hi]; exact hy) j hj

theorem popFront_ok (R : Rep d (x :: xs)) :
    ∃ d', stdPopFront d = (.ok (), d') ∧ Rep d' xs ∧ (∀ i < xs.length, place d' i = place d (i + 1)) ∧ Spent d d' := by
  have hp := R.pos
  have hso := R.so
  have hb := R.bound
  have hle := R.sn_le
  have hl : (x :: xs).length = xs.length + 1 := by simp
  obtain ⟨id, h1, h2, -⟩ := R.nodes d.sn (le_refl _) R.sn_le
  have e0 : d.map (d.sn + (d.so + 0) / d.S) = some id := by rw [Nat.add_zero, Nat.div_eq_of_lt hso]; exact h1
  have m0 : d.so = (d.so + 0) % d.S := by rw [Nat.add_zero, Nat.mod_eq_of_lt hso]
  unfold stdPopFront
  rw [get_b]
  by_cases h : d.so ≠ d.S - 1
  · rw [if_pos h, upd_b (write_of (node_of (by omega) h1 h2) hso)]
    have sh : ∀ i, d.so + 1 + i = d.so + (i + 1) := by intro i; omega
    refine ⟨_, rfl, ?_, fun i hi => by unfold place; dsimp only; rw [sh], by simp [Spent]⟩
    constructor
    · exact hp
    · show d.so + 1 < d.S
      omega
    · show d.fn = d.sn + (d.so + 1 + xs.length) / d.S
      rw [sh, ← hl]; exact R.fn
    · show d.fo = (d.so + 1 + xs.length) % d.S
      rw [sh, ← hl]; exact R.fo
    · exact hb
    · exact R.nodes
    · exact R.inj
    · intro i y hy j hj
      dsimp only at hj ⊢
      rw [sh] at hj ⊢
      have hi : i < xs.length := by
        by_contra hc
        rw [List.getElem?_eq_none (by omega)] at hy
        cases hy
      have := R.mem_at (m := 0) (v := none) (by omega) e0 (i := i + 1) (by omega) (by omega) hj
      rw [← m0] at this
      rw [this]
      exact R.cells (i + 1) y (by simpa using hy) j hj
  · rw [if_neg h]
    push Not at h
    have hd : ∀ i, (d.so + (i + 1)) / d.S = i / d.S + 1 ∧ (d.so + (i + 1)) % d.S = i % d.S := by
      intro i
      rw [show d.so + (i + 1) = i + d.S by omega, Nat.add_div_right _ hp, Nat.add_mod_right]
      exact ⟨rfl, rfl⟩
    have hfn : d.fn = d.sn + 1 + xs.length / d.S := by rw [R.fn, hl, (hd _).1]; omega
    have hge : d.sn + 1 ≤ d.fn := by rw [hfn]; exact Nat.le_add_right _ _
    rw [upd_b (write_of (node_of (by omega) h1 h2) hso)]
    rw [upd_b (d' := { d with mem := fun i p => if i = id ∧ p = d.so then none else d.mem i p, live := fun i => if i = id then false else d.live i }) (by
      unfold freeNode; rw [node_of (id := id) (by dsimp only; omega) (by exact h1) (by exact h2), Res.ok_bind])]
    refine ⟨_, rfl, ?_, fun i hi => ?_, by simp [Spent]⟩
    · constructor
      · exact hp
      · exact hp
      · show d.fn = d.sn + 1 + (0 + xs.length) / d.S
        rw [Nat.zero_add]; exact hfn
      · show d.fo = (0 + xs.length) % d.S
        rw [Nat.zero_add, R.fo, hl, (hd _).2]
      · exact hb
      · intro k k1 k2
        dsimp only at k1 k2 ⊢
        obtain ⟨j, i1, i2, i3⟩ := R.nodes k (by omega) k2
        refine ⟨j, i1, ?_, i3⟩
        rw [if_neg]
        · exact i2
        · rintro rfl
          have := R.inj _ _ _ (by omega) k2 (le_refl _) hle i1 h1
          omega
      · intro k k' j k1 k2 k3 k4 k5 k6
        dsimp only at k1 k2 k3 k4 k5 k6
        exact R.inj k k' j (by omega) k2 (by omega) k4 k5 k6
      · intro i y hy j hj
        dsimp only at hj ⊢
        rw [Nat.zero_add] at hj ⊢
        have hi : i < xs.length := by
          by_contra hc
          rw [List.getElem?_eq_none (by omega)] at hy
          cases hy
        have hj' : d.map (d.sn + (d.so + (i + 1)) / d.S) = some j := by
          rw [(hd i).1, ← hj]
          congr 1
          omega
        have := R.mem_at (m := 0) (v := none) (by omega) e0 (i := i + 1) (by omega) (by omega) hj'
        rw [← m0, (hd i).2] at this
        rw [this, ← (hd i).2]
        exact R.cells (i + 1) y (by simpa using hy) j hj'
    · unfold place
      dsimp only
      rw [(hd i).1, (hd i).2, Nat.zero_add]
      congr 2
      omega

end Rep

/-- `operator+=` of the iterators is addition. -/
theorem itAdd_eq {S : Nat} (hS : 0 < S) (k o n : Int) : itAdd S k o n = (k + (n + o) / S, (n + o) % S) := by
  have hS' : (0 : Int) < S := by exact_mod_cast hS
  unfold itAdd
  dsimp only
  split
  · rename_i h
    rw [Int.ediv_eq_zero_of_lt h.1 h.2, Int.emod_eq_of_lt h.1 h.2, Int.add_zero, Int.add_comm]
  · rename_i h
    have key : (if n + o > 0 then (n + o).tdiv S else -((-(n + o) - 1).tdiv S) - 1) = (n + o) / S := by
      split
      · rename_i hp
        rw [Int.tdiv_eq_ediv_of_nonneg (by omega)]
      · rename_i hp
        rw [Int.tdiv_eq_ediv_of_nonneg (by omega)]
        have h1 := Int.mul_ediv_add_emod (-(n + o) - 1) S
        have h2 := Int.emod_nonneg (-(n + o) - 1) (ne_of_gt hS')
        have h3 := Int.emod_lt_of_pos (-(n + o) - 1) hS'
        generalize (-(n + o) - 1) / (S : Int) = q at *
        generalize (-(n + o) - 1) % (S : Int) = r at *
        have e : n + o = (S - r - 1) + S * (-q - 1) := by linarith
        rw [e, Int.add_mul_ediv_left _ _ (ne_of_gt hS'), Int.ediv_eq_zero_of_lt (by omega) (by omega)]
        omega
    rw [key]
    congr 1
    have := Int.mul_ediv_add_emod (n + o) S
    rw [Int.mul_comm]
    omega

namespace Rep
variable {d : Blk α} {xs : List α}

theorem at_ok (R : Rep d xs) (i : Nat) : d.stdAt i = .ok (d.sn + (d.so + i) / d.S, (d.so + i) % d.S) := by
  unfold stdAt
  rw [itAdd_eq R.pos]
  have e1 : ((i : Int) + d.so) / d.S = (((d.so + i) / d.S : Nat) : Int) := by push_cast; rw [Int.add_comm]
  have e2 : ((i : Int) + d.so) % d.S = (((d.so + i) % d.S : Nat) : Int) := by push_cast; rw [Int.add_comm]
  rw [e1, e2]
  unfold natIt
  rw [show (d.sn : Int) + (((d.so + i) / d.S : Nat) : Int) = ((d.sn + (d.so + i) / d.S : Nat) : Int) by push_cast; rfl]
  rw [if_pos ⟨Int.natCast_nonneg _, Int.natCast_nonneg _⟩]
  rfl

theorem assign_ok (R : Rep d xs) {m : Nat} (hm : m < xs.length) (e : α) :
    ∃ d', write (d.sn + (d.so + m) / d.S) ((d.so + m) % d.S) (some e) d = .ok d' ∧ Rep d' (xs.set m e) ∧ (∀ i, place d' i = place d i) ∧ Spent d d' := by
  obtain ⟨id, h1, h2, -⟩ := R.nodes _ (Nat.le_add_right _ _) (R.k_le hm.le)
  rw [write_of (node_of (lt_of_le_of_lt (R.k_le hm.le) R.bound) h1 h2) (Nat.mod_lt _ R.pos)]
  refine ⟨_, rfl, ?_, fun _ => rfl, by simp [Spent]⟩
  constructor
  · exact R.pos
  · exact R.so
  · rw [List.length_set]; exact R.fn
  · rw [List.length_set]; exact R.fo
  · exact R.bound
  · exact R.nodes
  · exact R.inj
  · intro i y hy j hj
    dsimp only at hj ⊢
    by_cases hi : i = m
    · subst hi
      rw [h1] at hj
      rw [List.getElem?_set_self hm] at hy
      simp at hj hy
      simp [hj, hy]
    · rw [List.getElem?_set_ne (by omega)] at hy
      have hl : i < xs.length := by
        by_contra hc
        rw [List.getElem?_eq_none (by omega)] at hy
        cases hy
      rw [R.mem_at hm.le h1 hl.le hi hj]
      exact R.cells i y hy j hj

theorem refAt_ok (R : Rep d xs) (i : Int) : d.refAt i = Dq.refAt xs i := by unfold refAt Dq.refAt; rw [R.size_ok]

end Rep

end Blk
end Pyincpp
