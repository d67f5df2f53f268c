import Verif.Model.RbTree
import Mathlib.Data.Nat.Log

/-! # The trees under `std::set` and `std::map`: balance, and where the functions go -/

namespace Pyincpp
namespace BT

variable {α κ : Type}

/-! ## Red-black trees -/

/-- A tree with the same number of black nodes on every way down, and no red node below a red one; the colour of the root and that number. -/
inductive Bal : BT α → Bool → Nat → Prop
  | leaf : Bal leaf false 0
  | red {l r x h} : Bal l false h → Bal r false h → Bal (node true l x r) true h
  | black {l r x h c c'} : Bal l c h → Bal r c' h → Bal (node false l x r) false (h + 1)

/-- A red-black tree: the root is black. -/
def RB (t : BT α) : Prop := ∃ h, Bal t false h

/-- What the standard library promises about its balancing. -/
structure Balancer.Keeps (B : Balancer α) : Prop where
  ins : ∀ t, (B.ins t).elems = t.elems ∧ RB (B.ins t)
  del : ∀ t j, j < t.size → (B.del t j).elems = t.elems.eraseIdx j ∧ RB (B.del t j)

theorem size_node (c : Bool) (l : BT α) (x : α) (r : BT α) : (node c l x r).size = l.size + 1 + r.size := by
  simp only [size, elems, List.length_append, List.length_cons]; omega

theorem bal_bounds {t : BT α} {c : Bool} {h : Nat} (H : Bal t c h) : 2 ^ h ≤ t.size + 1 ∧ t.height ≤ 2 * h + if c then 1 else 0 := by
  induction H with
  | leaf => simp [size, elems, height]
  | red _ _ ihl ihr =>
    rw [size_node, height]
    have : ∀ a b : Nat, Nat.max a b = max a b := fun _ _ => rfl
    simp only [Bool.false_eq_true, if_false, if_true, this] at *
    omega
  | @black l r x h c c' _ _ ihl ihr =>
    rw [size_node, height, Nat.pow_succ]
    have : ∀ a b : Nat, Nat.max a b = max a b := fun _ _ => rfl
    have h1 := ihl.2
    have h2 := ihr.2
    have h3 : (if c = true then 1 else 0) ≤ 1 := by split <;> omega
    have h4 : (if c' = true then 1 else 0) ≤ 1 := by split <;> omega
    simp only [Bool.false_eq_true, if_false, this] at *
    omega

theorem height_le {t : BT α} (H : RB t) : t.height ≤ 2 * Nat.log 2 (t.size + 1) := by
  obtain ⟨h, H⟩ := H
  obtain ⟨h1, h2⟩ := bal_bounds H
  have := Nat.le_log_of_pow_le (by omega : 1 < 2) h1
  simp only [Bool.false_eq_true, if_false] at h2
  omega

theorem rb_leaf : RB (leaf : BT α) := ⟨0, .leaf⟩

/-- For every list there is a red-black tree. -/
theorem bal_exists : ∀ (h : Nat) (L : List α), 2 ^ h ≤ L.length + 1 → L.length + 1 ≤ 2 ^ (h + 1) →
    ∃ t c, t.elems = L ∧ Bal t c h ∧ (0 < h → c = false)
  | 0, L, _, h2 => by
    rcases L with _ | ⟨x, _ | ⟨y, L⟩⟩
    · exact ⟨leaf, false, rfl, .leaf, fun _ => rfl⟩
    · exact ⟨node true leaf x leaf, true, rfl, .red .leaf .leaf, by omega⟩
    · simp at h2
  | h + 1, L, h1, h2 => by
    have p : 2 ^ (h + 1) = 2 * 2 ^ h := by rw [Nat.pow_succ, Nat.mul_comm]
    have p' : 2 ^ (h + 1 + 1) = 2 * 2 ^ (h + 1) := by rw [Nat.pow_succ, Nat.mul_comm]
    have pos : 0 < 2 ^ h := Nat.pow_pos (by omega)
    obtain ⟨m, hm⟩ : ∃ m, m + 1 = (L.length + 1) / 2 := ⟨(L.length + 1) / 2 - 1, by omega⟩
    have hlt : m < L.length := by omega
    obtain ⟨l, c, e1, b1, -⟩ := bal_exists h (L.take m) (by rw [List.length_take]; omega) (by rw [List.length_take]; omega)
    obtain ⟨r, c', e2, b2, -⟩ := bal_exists h (L.drop (m + 1)) (by rw [List.length_drop]; omega) (by rw [List.length_drop]; omega)
    refine ⟨node false l L[m] r, false, ?_, .black b1 b2, fun _ => rfl⟩
    rw [elems, e1, e2, ← List.drop_eq_getElem_cons hlt, List.take_append_drop]

theorem rb_exists (L : List α) : ∃ t, t.elems = L ∧ RB t := by
  by_cases hL : L.length = 0
  · exact ⟨leaf, (List.eq_nil_of_length_eq_zero hL).symm, rb_leaf⟩
  · obtain ⟨t, c, e, b, hc⟩ := bal_exists (Nat.log 2 (L.length + 1)) L (Nat.pow_log_le_self 2 (by omega))
      (le_of_lt (Nat.lt_pow_succ_log_self (by omega) _))
    have : c = false := hc (Nat.log_pos (by omega) (by omega))
    subst this
    exact ⟨t, e, _, b⟩

/-- There is a way to balance. -/
theorem keeps_exists : ∃ B : Balancer α, B.Keeps := by
  refine ⟨⟨fun t => Classical.choose (rb_exists t.elems), fun t j => Classical.choose (rb_exists (t.elems.eraseIdx j))⟩, fun t => ?_, fun t j _ => ?_⟩
  · exact Classical.choose_spec (rb_exists t.elems)
  · exact Classical.choose_spec (rb_exists (t.elems.eraseIdx j))

/-! ## Steps -/

theorem mb {β γ : Type} {p : Meth Nat β} {f : β → Meth Nat γ} {n n' : Nat} {b : β} (h : p n = (.ok b, n')) : (p >>= f) n = f b n' := by
  show Meth.bind p f n = _
  rw [Meth.bind, h]

theorem elems_leaf {t : BT α} : t.isLeaf = true ↔ t = leaf := by cases t <;> simp [isLeaf]

theorem size_leaf : (leaf : BT α).size = 0 := rfl

theorem split_node {l r : List α} {x : α} {A B : List α} (h : l ++ x :: r = A ++ B) :
    (∃ A', A = l ++ x :: A' ∧ r = A' ++ B) ∨ ∃ B', l = A ++ B' ∧ B = B' ++ x :: r := by
  rcases List.append_eq_append_iff.mp h with ⟨as, h1, h2⟩ | ⟨bs, h1, h2⟩
  · rcases as with _ | ⟨a, as⟩
    · exact Or.inr ⟨[], by simpa using h1.symm, by simpa using h2.symm⟩
    · simp only [List.cons_append, List.cons.injEq] at h2
      exact Or.inl ⟨as, by rw [h1, h2.1], h2.2⟩
  · exact Or.inr ⟨bs, h1, h2⟩

theorem get_left {c : Bool} {l r : BT α} {x : α} {j : Nat} (h : j < l.size) : (node c l x r).elems[j]? = l.elems[j]? := by
  rw [elems, List.getElem?_append_left h]

theorem get_mid {c : Bool} {l r : BT α} {x : α} : (node c l x r).elems[l.size]? = some x := by
  rw [elems, List.getElem?_append_right (by unfold size; omega)]; simp [size]

theorem get_right {c : Bool} {l r : BT α} {x : α} (j : Nat) : (node c l x r).elems[l.size + 1 + j]? = r.elems[j]? := by
  rw [elems, List.getElem?_append_right (by unfold size; omega), show l.size + 1 + j - l.elems.length = j + 1 by unfold size; omega]
  rfl

theorem leftLeaf_left {c : Bool} {l r : BT α} {x : α} {j : Nat} (h : j < l.size) : (node c l x r).leftLeaf j = l.leftLeaf j := by rw [leftLeaf, if_pos h]
theorem leftLeaf_mid {c : Bool} {l r : BT α} {x : α} : (node c l x r).leftLeaf l.size = l.isLeaf := by rw [leftLeaf, if_neg (by omega), if_pos rfl]
theorem leftLeaf_right {c : Bool} {l r : BT α} {x : α} (j : Nat) : (node c l x r).leftLeaf (l.size + 1 + j) = r.leftLeaf j := by
  rw [leftLeaf, if_neg (by omega), if_neg (by omega), show l.size + 1 + j - l.size - 1 = j by omega]
theorem rightLeaf_left {c : Bool} {l r : BT α} {x : α} {j : Nat} (h : j < l.size) : (node c l x r).rightLeaf j = l.rightLeaf j := by
  rw [rightLeaf, if_pos h]
theorem rightLeaf_mid {c : Bool} {l r : BT α} {x : α} : (node c l x r).rightLeaf l.size = r.isLeaf := by rw [rightLeaf, if_neg (by omega), if_pos rfl]
theorem rightLeaf_right {c : Bool} {l r : BT α} {x : α} (j : Nat) : (node c l x r).rightLeaf (l.size + 1 + j) = r.rightLeaf j := by
  rw [rightLeaf, if_neg (by omega), if_neg (by omega), show l.size + 1 + j - l.size - 1 = j by omega]

theorem height_left (c : Bool) (l : BT α) (x : α) (r : BT α) : l.height + 1 ≤ (node c l x r).height := by
  rw [height]; have : Nat.max l.height r.height = max l.height r.height := rfl
  omega

theorem height_right (c : Bool) (l : BT α) (x : α) (r : BT α) : r.height + 1 ≤ (node c l x r).height := by
  rw [height]; have : Nat.max l.height r.height = max l.height r.height := rfl
  omega

/-- The three places of a node. -/
theorem place_cases {c : Bool} {l r : BT α} {x : α} {j : Nat} (h : j < (node c l x r).size) :
    j < l.size ∨ j = l.size ∨ ∃ i, j = l.size + 1 + i ∧ i < r.size := by
  rw [size_node] at h
  by_cases h1 : j < l.size
  · exact Or.inl h1
  · by_cases h2 : j = l.size
    · exact Or.inr (Or.inl h2)
    · exact Or.inr (Or.inr ⟨j - l.size - 1, by omega, by omega⟩)

theorem size_pos {t : BT α} (h : t.isLeaf = false) : 0 < t.size := by
  cases t with
  | leaf => exact nomatch h
  | node c l x r => rw [size_node]; omega

theorem first_left : ∀ {t : BT α}, t.isLeaf = false → t.leftLeaf 0 = true
  | leaf, h => nomatch h
  | node c l x r, _ => by
    by_cases hl : l.isLeaf = true
    · have : l = leaf := elems_leaf.mp hl
      subst this
      exact leftLeaf_mid (l := leaf)
    · have hl : l.isLeaf = false := by simpa using hl
      rw [leftLeaf_left (size_pos hl)]
      exact first_left hl

theorem last_right : ∀ {t : BT α}, t.isLeaf = false → t.rightLeaf (t.size - 1) = true
  | leaf, h => nomatch h
  | node c l x r, _ => by
    by_cases hr : r.isLeaf = true
    · have : r = leaf := elems_leaf.mp hr
      subst this
      rw [size_node, size_leaf, show l.size + 1 + 0 - 1 = l.size by omega, rightLeaf_mid]; rfl
    · have hr : r.isLeaf = false := by simpa using hr
      have := size_pos hr
      rw [size_node, show l.size + 1 + r.size - 1 = l.size + 1 + (r.size - 1) by omega, rightLeaf_right]
      exact last_right hr

/-- Of two neighbours, the first has no right child or the second has no left one. -/
theorem neighbours : ∀ {t : BT α} {j : Nat}, j + 1 < t.size → t.rightLeaf j = false → t.leftLeaf (j + 1) = true
  | leaf, j, h, _ => by simp [size_leaf] at h
  | node c l x r, j, h, hj => by
    rcases place_cases (by omega : j < (node c l x r).size) with h1 | h1 | ⟨i, h1, h2⟩
    · by_cases hl : j + 1 < l.size
      · rw [leftLeaf_left hl]
        rw [rightLeaf_left h1] at hj
        exact neighbours hl hj
      · have e : j + 1 = l.size := by omega
        rw [rightLeaf_left h1, show j = l.size - 1 by omega, last_right] at hj
        · exact nomatch hj
        · cases l with
          | leaf => simp [size_leaf] at h1
          | node => rfl
    · subst h1
      rw [rightLeaf_mid] at hj
      exact (leftLeaf_right 0).trans (first_left hj)
    · subst h1
      rw [rightLeaf_right] at hj
      rw [size_node] at h
      rw [show l.size + 1 + i + 1 = l.size + 1 + (i + 1) by omega, leftLeaf_right]
      exact neighbours (by omega) hj

theorem hang_left (v : α) : ∀ {t : BT α} {j : Nat}, j < t.size → t.leftLeaf j = true →
    ∃ t', hang v true t j = .ok t' ∧ t'.elems = t.elems.take j ++ v :: t.elems.drop j
  | leaf, j, h, _ => by simp [size_leaf] at h
  | node c l x r, j, h, hj => by
    rcases place_cases h with h1 | h1 | ⟨i, h1, h2⟩
    · rw [leftLeaf_left h1] at hj
      obtain ⟨t', e, e'⟩ := hang_left v h1 hj
      refine ⟨node c t' x r, by rw [hang, if_pos h1, e]; rfl, ?_⟩
      have hle : j ≤ l.elems.length := by unfold size at h1; omega
      rw [elems, e', elems, List.take_append_of_le_length hle, List.drop_append_of_le_length hle]; simp
    · subst h1
      rw [leftLeaf_mid] at hj
      have : l = leaf := elems_leaf.mp hj
      subst this
      exact ⟨node c (node true leaf v leaf) x r, by rw [hang, if_neg (by omega), if_pos rfl, if_pos rfl]; rfl, rfl⟩
    · subst h1
      rw [leftLeaf_right] at hj
      obtain ⟨t', e, e'⟩ := hang_left v h2 hj
      refine ⟨node c l x t', by
        rw [hang, if_neg (by omega), if_neg (by omega), show l.size + 1 + i - l.size - 1 = i by omega, e]; rfl, ?_⟩
      have hz : l.elems.length ≤ l.size + 1 + i := by unfold size; omega
      have hs : l.size + 1 + i - l.elems.length = i + 1 := by unfold size; omega
      rw [elems, e', elems, List.take_append, List.take_of_length_le hz, List.drop_append,
        List.drop_eq_nil_of_le hz, hs]
      simp

theorem hang_right (v : α) : ∀ {t : BT α} {j : Nat}, j < t.size → t.rightLeaf j = true →
    ∃ t', hang v false t j = .ok t' ∧ t'.elems = t.elems.take (j + 1) ++ v :: t.elems.drop (j + 1)
  | leaf, j, h, _ => by simp [size_leaf] at h
  | node c l x r, j, h, hj => by
    rcases place_cases h with h1 | h1 | ⟨i, h1, h2⟩
    · rw [rightLeaf_left h1] at hj
      obtain ⟨t', e, e'⟩ := hang_right v h1 hj
      refine ⟨node c t' x r, by rw [hang, if_pos h1, e]; rfl, ?_⟩
      have hle : j + 1 ≤ l.elems.length := by unfold size at h1; omega
      rw [elems, e', elems, List.take_append_of_le_length hle, List.drop_append_of_le_length hle]; simp
    · subst h1
      rw [rightLeaf_mid] at hj
      have : r = leaf := elems_leaf.mp hj
      subst this
      refine ⟨node c l x (node true leaf v leaf), by rw [hang, if_neg (by omega), if_pos rfl, if_neg (by simp)]; rfl, ?_⟩
      rw [List.take_of_length_le (by simp [elems, size]), List.drop_eq_nil_of_le (by simp [elems, size])]
      simp [elems]
    · subst h1
      rw [rightLeaf_right] at hj
      obtain ⟨t', e, e'⟩ := hang_right v h2 hj
      refine ⟨node c l x t', by
        rw [hang, if_neg (by omega), if_neg (by omega), show l.size + 1 + i - l.size - 1 = i by omega, e]; rfl, ?_⟩
      have hz : l.elems.length ≤ l.size + 1 + i + 1 := by unfold size; omega
      have hs : l.size + 1 + i + 1 - l.elems.length = i + 1 + 1 := by unfold size; omega
      rw [elems, e', elems, List.take_append, List.take_of_length_le hz, List.drop_append,
        List.drop_eq_nil_of_le hz, hs]
      simp

/-! ## Going down -/

variable (key : α → κ) (c : κ → κ → Bool)

/-- The comparator answers. -/
def Ans (c : κ → κ → Bool) : κ → κ → Res Bool := fun a b => .ok (c a b)

theorem ask_ans (a b : κ) (n : Nat) : ask (Ans c) a b n = (.ok (c a b), n + 1) := rfl

theorem keyAt_ok {t : BT α} {j : Nat} {x : α} (h : t.elems[j]? = some x) (n : Nat) : keyAt key t j n = (.ok (key x), n) := by
  have : vget t.elems j = .ok x := by simp [vget, h]
  unfold keyAt
  rw [this]; rfl

theorem bound_ok {go : κ → Meth Nat Bool} {p : κ → Bool} (hgo : ∀ x n, go x n = (.ok (p x), n + 1)) : ∀ (t : BT α) (off y n : Nat),
    ∃ s d, s ≤ t.size ∧ d ≤ t.height ∧ bound key go t off y n = (.ok (if s = t.size then y else off + s), n + d) ∧
      ∀ A B, t.elems = A ++ B → (∀ a ∈ A, p (key a) = true) → (∀ b ∈ B, p (key b) = false) → s = A.length
  | leaf, off, y, n => ⟨0, 0, le_refl _, le_refl _, rfl, fun A B h _ _ => by
      have := List.append_eq_nil_iff.mp (h.symm : A ++ B = []); rw [this.1]; rfl⟩
  | node cl l x r, off, y, n => by
    have hl := height_left cl l x r
    have hr := height_right cl l x r
    cases hp : p (key x) with
    | true =>
      obtain ⟨s, d, h1, h2, h3, h4⟩ := bound_ok hgo r (off + l.size + 1) y (n + 1)
      refine ⟨l.size + 1 + s, d + 1, by rw [size_node]; omega, by omega, ?_, fun A B h hA hB => ?_⟩
      · rw [bound, mb (hgo _ _), hp, if_pos rfl, h3, size_node, show n + 1 + d = n + (d + 1) by omega]
        by_cases hs : s = r.size
        · rw [if_pos hs, if_pos (by omega)]
        · rw [if_neg hs, if_neg (by omega), show off + l.size + 1 + s = off + (l.size + 1 + s) by omega]
      · rcases split_node h with ⟨A', e1, e2⟩ | ⟨B', e1, e2⟩
        · rw [h4 A' B e2 (fun a ha => hA a (by rw [e1]; simp [ha])) hB, e1]; simp [size]; omega
        · have := hB x (by rw [e2]; simp); rw [hp] at this; exact nomatch this
    | false =>
      obtain ⟨s, d, h1, h2, h3, h4⟩ := bound_ok hgo l off (off + l.size) (n + 1)
      refine ⟨s, d + 1, by rw [size_node]; omega, by omega, ?_, fun A B h hA hB => ?_⟩
      · rw [bound, mb (hgo _ _), hp, if_neg (by simp), h3, size_node, show n + 1 + d = n + (d + 1) by omega, if_neg (by omega : ¬ s = l.size + 1 + r.size)]
        by_cases hs : s = l.size
        · rw [if_pos hs, hs]
        · rw [if_neg hs]
      · rcases split_node h with ⟨A', e1, e2⟩ | ⟨B', e1, e2⟩
        · have := hA x (by rw [e1]; simp); rw [hp] at this; exact nomatch this
        · exact h4 A B' e1 hA (fun b hb => hB b (by rw [e2]; simp [hb]))

theorem equalRange_ok (k : κ) : ∀ (t : BT α) (off y n : Nat),
    ∃ lo hi d, lo ≤ hi ∧ hi ≤ t.size ∧ d ≤ 2 * t.height ∧
      equalRange key (Ans c) k t off y n = (.ok (if lo = t.size then y else off + lo, if hi = t.size then y else off + hi), n + d) ∧
      ∀ A M C, t.elems = A ++ (M ++ C) → (∀ a ∈ A, c (key a) k = true) → (∀ a ∈ M, c (key a) k = false ∧ c k (key a) = false) →
        (∀ a ∈ C, c (key a) k = false ∧ c k (key a) = true) → lo = A.length ∧ hi = A.length + M.length
  | leaf, off, y, n => ⟨0, 0, 0, le_refl _, le_refl _, by omega, rfl, fun A M C h _ _ _ => by
      have := List.append_eq_nil_iff.mp (h.symm : A ++ (M ++ C) = []); have h2 := List.append_eq_nil_iff.mp this.2
      rw [this.1, h2.1]; exact ⟨rfl, rfl⟩⟩
  | node cl l x r, off, y, n => by
    have hl := height_left cl l x r
    have hr := height_right cl l x r
    cases h1 : c (key x) k with
    | true =>
      obtain ⟨lo, hi, d, b1, b2, b3, e, hs⟩ := equalRange_ok k r (off + l.size + 1) y (n + 1)
      refine ⟨l.size + 1 + lo, l.size + 1 + hi, d + 1, by omega, by rw [size_node]; omega, by omega, ?_, fun A M C h hA hM hC => ?_⟩
      · rw [equalRange, mb (ask_ans _ _ _ _), h1, if_pos rfl, e, size_node, show n + 1 + d = n + (d + 1) by omega]
        have q : ∀ s, (if s = r.size then y else off + l.size + 1 + s) = if l.size + 1 + s = l.size + 1 + r.size then y else off + (l.size + 1 + s) := by
          intro s
          by_cases hs : s = r.size
          · rw [if_pos hs, if_pos (by omega)]
          · rw [if_neg hs, if_neg (by omega)]; omega
        rw [q, q]
      · rcases split_node h with ⟨A', e1, e2⟩ | ⟨B', e1, e2⟩
        · obtain ⟨q1, q2⟩ := hs A' M C e2 (fun a ha => hA a (by rw [e1]; simp [ha])) hM hC
          rw [q1, q2, e1]; simp [size]; omega
        · have hx : x ∈ M ++ C := by rw [e2]; simp
          rcases List.mem_append.mp hx with hx | hx
          · have := (hM x hx).1; rw [h1] at this; exact nomatch this
          · have := (hC x hx).1; rw [h1] at this; exact nomatch this
    | false =>
      cases h2 : c k (key x) with
      | true =>
        obtain ⟨lo, hi, d, b1, b2, b3, e, hs⟩ := equalRange_ok k l off (off + l.size) (n + 1 + 1)
        refine ⟨lo, hi, d + 2, by omega, by rw [size_node]; omega, by omega, ?_, fun A M C h hA hM hC => ?_⟩
        · rw [equalRange, mb (ask_ans _ _ _ _), h1, if_neg (by simp), mb (ask_ans _ _ _ _), h2, if_pos rfl, e, size_node,
            if_neg (by omega : ¬ lo = l.size + 1 + r.size), if_neg (by omega : ¬ hi = l.size + 1 + r.size), show n + 1 + 1 + d = n + (d + 2) by omega]
          have q : ∀ s, (if s = l.size then off + l.size else off + s) = off + s := by
            intro s; split
            · next hs => rw [hs]
            · rfl
          rw [q, q]
        · rcases split_node h with ⟨A', e1, e2⟩ | ⟨B', e1, e2⟩
          · have := hA x (by rw [e1]; simp); rw [h1] at this; exact nomatch this
          · rcases split_node e2.symm with ⟨C', e3, e4⟩ | ⟨C', e3, e4⟩
            · have := (hM x (by rw [e3]; simp)).2; rw [h2] at this; exact nomatch this
            · exact hs A M C' (by rw [e1, e3]) hA hM (fun a ha => hC a (by rw [e4]; simp [ha]))
      | false =>
        obtain ⟨s, d, b1, b2, e, hs⟩ := bound_ok key (p := fun x => c x k) (go := fun x => ask (Ans c) x k) (fun _ _ => rfl) l off (off + l.size) (n + 1 + 1)
        obtain ⟨s', d', b1', b2', e', hs'⟩ := bound_ok key (p := fun x => !c k x) (go := fun x => do pure (!(← ask (Ans c) k x))) (fun _ _ => rfl) r
          (off + l.size + 1) y (n + 1 + 1 + d)
        refine ⟨s, l.size + 1 + s', d + d' + 2, by omega, by rw [size_node]; omega, by omega, ?_, fun A M C h hA hM hC => ?_⟩
        · rw [equalRange, mb (ask_ans _ _ _ _), h1, if_neg (by simp), mb (ask_ans _ _ _ _), h2, if_neg (by simp), lowerBound, upperBound, mb e, mb e',
            size_node, if_neg (by omega : ¬ s = l.size + 1 + r.size), show n + 1 + 1 + d + d' = n + (d + d' + 2) by omega]
          have q : (if s = l.size then off + l.size else off + s) = off + s := by
            split
            · next hs => rw [hs]
            · rfl
          have q' : (if s' = r.size then y else off + l.size + 1 + s') = if l.size + 1 + s' = l.size + 1 + r.size then y else off + (l.size + 1 + s') := by
            by_cases hs : s' = r.size
            · rw [if_pos hs, if_pos (by omega)]
            · rw [if_neg hs, if_neg (by omega)]; omega
          rw [q, q']; rfl
        · rcases split_node h with ⟨A', e1, e2⟩ | ⟨B', e1, e2⟩
          · have := hA x (by rw [e1]; simp); rw [h1] at this; exact nomatch this
          · rcases split_node e2.symm with ⟨M', e3, e4⟩ | ⟨C', e3, e4⟩
            · have q1 := hs A B' e1 hA (fun a ha => (hM a (by rw [e3]; simp [ha])).1)
              have q2 := hs' M' C e4 (fun a ha => by rw [(hM a (by rw [e3]; simp [ha])).2]; rfl) (fun a ha => by rw [(hC a ha).2]; rfl)
              have hsz : l.size = A.length + B'.length := by unfold size; rw [e1, List.length_append]
              refine ⟨q1, ?_⟩
              rw [q2, e3]; simp; omega
            · have := (hC x (by rw [e4]; simp)).2; rw [h2] at this; exact nomatch this

theorem descend_ok (k : κ) : ∀ (t : BT α), t.isLeaf = false → ∀ (off y n : Nat) (comp : Bool), ∃ j comp' d x, d ≤ t.height ∧ j < t.size ∧
    descend key (Ans c) k t off y comp n = (.ok (off + j, comp'), n + d) ∧ t.elems[j]? = some x ∧ c k (key x) = comp' ∧
    (if comp' then t.leftLeaf j = true else t.rightLeaf j = true) ∧
    ∀ A B, t.elems = A ++ B → (∀ a ∈ A, c k (key a) = false) → (∀ b ∈ B, c k (key b) = true) → (if comp' then j else j + 1) = A.length
  | leaf, h, _, _, _, _ => nomatch h
  | node cl l x r, _, off, y, n, comp => by
    have hl := height_left cl l x r
    have hr := height_right cl l x r
    cases hc : c k (key x) with
    | true =>
      by_cases hL : l.isLeaf = true
      · have : l = leaf := elems_leaf.mp hL
        subst this
        refine ⟨0, true, 1, x, by omega, by rw [size_node]; omega, ?_, get_mid (l := leaf), hc, leftLeaf_mid (l := leaf), fun A B h hA hB => ?_⟩
        · rw [descend, mb (ask_ans _ _ _ _), hc, if_pos rfl]; rfl
        · rcases split_node h with ⟨A', e1, e2⟩ | ⟨B', e1, e2⟩
          · have := hA x (by rw [e1]; simp); rw [hc] at this; exact nomatch this
          · have := List.append_eq_nil_iff.mp (e1.symm : A ++ B' = []); rw [this.1]; rfl
      · obtain ⟨j, comp', d, z, b1, b2, e, g1, g2, g3, hs⟩ := descend_ok k l (by simpa using hL) off (off + l.size) (n + 1) true
        refine ⟨j, comp', d + 1, z, by omega, by rw [size_node]; omega, ?_, by rw [get_left b2, g1], g2, ?_, fun A B h hA hB => ?_⟩
        · rw [descend, mb (ask_ans _ _ _ _), hc, if_pos rfl, e, show n + 1 + d = n + (d + 1) by omega]
        · rw [leftLeaf_left b2, rightLeaf_left b2]; exact g3
        · rcases split_node h with ⟨A', e1, e2⟩ | ⟨B', e1, e2⟩
          · have := hA x (by rw [e1]; simp); rw [hc] at this; exact nomatch this
          · exact hs A B' e1 hA (fun b hb => hB b (by rw [e2]; simp [hb]))
    | false =>
      by_cases hR : r.isLeaf = true
      · have : r = leaf := elems_leaf.mp hR
        subst this
        refine ⟨l.size, false, 1, x, by omega, by rw [size_node]; omega, ?_, get_mid, hc, rightLeaf_mid, fun A B h hA hB => ?_⟩
        · rw [descend, mb (ask_ans _ _ _ _), hc, if_neg (by simp)]; rfl
        · rcases split_node h with ⟨A', e1, e2⟩ | ⟨B', e1, e2⟩
          · have := List.append_eq_nil_iff.mp (e2.symm : A' ++ B = []); rw [e1, this.1]; simp [size]
          · have := hB x (by rw [e2]; simp); rw [hc] at this; exact nomatch this
      · obtain ⟨j, comp', d, z, b1, b2, e, g1, g2, g3, hs⟩ := descend_ok k r (by simpa using hR) (off + l.size + 1) (off + l.size) (n + 1) false
        refine ⟨l.size + 1 + j, comp', d + 1, z, by omega, by rw [size_node]; omega, ?_, by rw [get_right, g1], g2, ?_, fun A B h hA hB => ?_⟩
        · rw [descend, mb (ask_ans _ _ _ _), hc, if_neg (by simp), e, show n + 1 + d = n + (d + 1) by omega,
            show off + l.size + 1 + j = off + (l.size + 1 + j) by omega]
        · rw [leftLeaf_right, rightLeaf_right]; exact g3
        · rcases split_node h with ⟨A', e1, e2⟩ | ⟨B', e1, e2⟩
          · have q := hs A' B e2 (fun a ha => hA a (by rw [e1]; simp [ha])) hB
            rw [e1, List.length_append, List.length_cons, ← q]
            unfold size
            split <;> omega
          · have := hB x (by rw [e2]; simp); rw [hc] at this; exact nomatch this

end BT
end Pyincpp
