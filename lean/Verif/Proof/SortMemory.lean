import Verif.Model.SortMemory
import Verif.Props.StableSort
import Verif.Props.Moves

/-! # `std::stable_sort` with less memory for the buffer, for a comparator that answers -/

namespace Pyincpp
namespace StableSort

variable {α : Type} {left : α → α} {c : α → α → Bool}

/-! ## What merging gives -/

/-- `Z` has the elements of `X` and `Y`, and is their stable merge if the comparator is an order and both are sorted. -/
structure Merges (c : α → α → Bool) (X Y Z : List α) : Prop where
  perm : Z.Perm (X ++ Y)
  sorted : StrictWeak c → Sorted c X → Sorted c Y → Sorted c Z
  stable : StrictWeak c → Sorted c X → Sorted c Y → ∀ e, Z.filter (equivBy c e) = X.filter (equivBy c e) ++ Y.filter (equivBy c e)

theorem merges_merged (X Y : List α) : Merges c X Y (merged c X Y) :=
  ⟨merged_perm X Y, fun h hX hY => sorted_merged h X Y hX hY, fun h hX hY e => filter_merged h e X Y hX hY⟩

theorem merges_back (X Y : List α) : Merges c X Y (mergedBack c X Y) :=
  ⟨mergedBack_perm X Y, fun h hX hY => sorted_mergedBack h X Y hX hY, fun h hX hY e => filter_mergedBack h e X Y hX hY⟩

theorem merges_nil_left (Y : List α) : Merges c [] Y Y := ⟨by simp, fun _ _ h => h, fun _ _ _ _ => by simp⟩

theorem merges_nil_right (X : List α) : Merges c X [] X := ⟨by simp, fun _ h _ => h, fun _ _ _ _ => by simp⟩

theorem merges_two (x y : α) : Merges c [x] [y] (if c y x then [y, x] else [x, y]) := by
  have : merged c [x] [y] = if c y x then [y, x] else [x, y] := by
    rw [merged, List.cons_merge_cons]
    cases c y x <;> simp
  rw [← this]
  exact merges_merged [x] [y]

theorem lt_of_not_of_lt {q x y : α} (h : StrictWeak c) (h1 : c q y = false) (h2 : c q x = true) : c y x = true := by
  by_contra h3
  have := Lst.StrictWeak.le_trans h x y q (by simpa using h3) (by simpa using h1)
  simp [h2] at this

theorem not_lt_trans {x q y : α} (h : StrictWeak c) (h1 : c q x = false) (h2 : c y q = false) : c y x = false := by
  have := Lst.StrictWeak.le_trans h x q y (by simpa using h1) (by simpa using h2)
  simpa using this

theorem asymm {x y : α} (h : StrictWeak c) (h1 : c x y = true) : c y x = false := by
  by_contra h2
  have := h.trans x y x h1 (by simpa using h2)
  rw [h.irrefl] at this
  exact nomatch this

/-- Cutting both parts, exchanging the inner pieces and merging twice. -/
theorem Merges.cut {X₁ X₂ Y₁ Y₂ Z₁ Z₂ : List α} (h₁ : Merges c X₁ Y₁ Z₁) (h₂ : Merges c X₂ Y₂ Z₂)
    (hc : StrictWeak c → Sorted c (X₁ ++ X₂) → Sorted c (Y₁ ++ Y₂) →
      (∀ x ∈ X₂, ∀ y ∈ Y₁, c y x = true) ∧ ∀ x ∈ X₁, ∀ y ∈ Y₂, c y x = false) : Merges c (X₁ ++ X₂) (Y₁ ++ Y₂) (Z₁ ++ Z₂) where
  perm := by
    refine (h₁.perm.append h₂.perm).trans ?_
    rw [List.append_assoc, List.append_assoc]
    refine List.Perm.append_left X₁ ?_
    rw [← List.append_assoc, ← List.append_assoc]
    exact List.Perm.append_right Y₂ List.perm_append_comm
  sorted h hX hY := by
    obtain ⟨q1, q2⟩ := hc h hX hY
    obtain ⟨x1, x2, x3⟩ := List.pairwise_append.mp hX
    obtain ⟨y1, y2, y3⟩ := List.pairwise_append.mp hY
    refine List.pairwise_append.mpr ⟨h₁.sorted h x1 y1, h₂.sorted h x2 y2, fun a ha b hb => ?_⟩
    rcases List.mem_append.mp (h₁.perm.subset ha) with ha | ha <;> rcases List.mem_append.mp (h₂.perm.subset hb) with hb | hb
    · exact x3 a ha b hb
    · exact q2 a ha b hb
    · exact asymm h (q1 b hb a ha)
    · exact y3 a ha b hb
  stable h hX hY e := by
    obtain ⟨q1, -⟩ := hc h hX hY
    obtain ⟨x1, x2, x3⟩ := List.pairwise_append.mp hX
    obtain ⟨y1, y2, y3⟩ := List.pairwise_append.mp hY
    rw [List.filter_append, h₁.stable h x1 y1 e, h₂.stable h x2 y2 e, List.filter_append, List.filter_append]
    have key : Y₁.filter (equivBy c e) ++ X₂.filter (equivBy c e) = X₂.filter (equivBy c e) ++ Y₁.filter (equivBy c e) := by
      by_cases hy : Y₁.filter (equivBy c e) = []
      · rw [hy]; simp
      · obtain ⟨y, hy⟩ := List.exists_mem_of_ne_nil _ hy
        obtain ⟨hy, he⟩ := List.mem_filter.mp hy
        have : X₂.filter (equivBy c e) = [] := by
          rw [List.filter_eq_nil_iff]
          intro x hx hex
          simp only [equivBy, Bool.and_eq_true, Bool.not_eq_true'] at he hex
          have := (h.incomp y e x he.2 he.1 hex.1 hex.2).1
          rw [q1 x hx y hy] at this
          exact nomatch this
        rw [this]; simp
    rw [List.append_assoc, ← List.append_assoc (Y₁.filter _), key]
    simp

/-- `R` has the elements of `L`, and is sorted and stable if the comparator is an order. -/
def Sorts (c : α → α → Bool) (L R : List α) : Prop :=
  R.Perm L ∧ (StrictWeak c → Sorted c R ∧ ∀ e, R.filter (equivBy c e) = L.filter (equivBy c e))

theorem sorts_merge {L X L' Y Z : List α} (h : Sorts c L X) (h' : Sorts c L' Y) (hz : Merges c X Y Z) : Sorts c (L ++ L') Z := by
  refine ⟨hz.perm.trans (h.1.append h'.1), fun hw => ?_⟩
  obtain ⟨s1, f1⟩ := h.2 hw
  obtain ⟨s2, f2⟩ := h'.2 hw
  exact ⟨hz.sorted hw s1 s2, fun e => by rw [hz.stable hw s1 s2 e, f1 e, f2 e, List.filter_append]⟩

theorem kept_sorts : Kept c (Sorts c) where
  nil := ⟨List.Perm.refl _, fun _ => ⟨List.Pairwise.nil, fun _ => rfl⟩⟩
  ins L P x h := ⟨kept_perm.ins L P x h.1, fun hw => ((kept_stable hw).ins L P x ⟨h.1, h.2 hw⟩).2⟩
  merge _ X _ Y h h' := sorts_merge h h' (merges_merged X Y)
  back _ X _ Y h h' := sorts_merge h h' (merges_back X Y)
  len _ _ h := h.1.length_eq

/-! ## Places -/

theorem seg_split {m : List α} {p : Nat} {X : List α} (h : Seg m p X) :
    (m.drop p).take X.length = X := by
  apply List.ext_getElem?
  intro i
  rw [List.getElem?_take]
  split
  · next hi => rw [List.getElem?_drop]; exact h i hi
  · next hi => rw [List.getElem?_eq_none (by omega)]

theorem rotatePlaces_ok {m : List α} {i : Nat} {X Y : List α} (h : Seg m i (X ++ Y)) (hl : i + X.length + Y.length ≤ m.length) :
    ∃ m', rotatePlaces left i X.length Y.length m = (.ok (), m') ∧ m'.length = m.length ∧ Seg m' i (Y ++ X) ∧
      ∀ q, ¬ (i ≤ q ∧ q < i + X.length + Y.length) → m'[q]? = m[q]? := by
  have hs := seg_split h
  rw [List.length_append] at hs
  have hr := (Moves.C113_rotate left (X ++ Y) (k := X.length) (by simp)).1
  rw [List.drop_left, List.take_left] at hr
  have hA : (m.take i).length = i := by rw [List.length_take]; omega
  refine ⟨m.take i ++ (Y ++ X) ++ m.drop (i + X.length + Y.length), ?_, ?_, ?_, ?_⟩
  · rw [rotatePlaces, Meth.get_bind, if_neg (by omega), hs, hr]
    rfl
  · simp only [List.length_append, List.length_drop, hA]; omega
  · intro j hj
    rw [List.append_assoc, List.getElem?_append_right (by omega), hA, show i + j - i = j by omega, List.getElem?_append_left hj]
  · intro q hq
    by_cases hqi : q < i
    · rw [List.append_assoc, List.getElem?_append_left (by omega), List.getElem?_take, if_pos hqi]
    · rw [List.getElem?_append_right (by simp only [List.length_append, hA]; omega), List.getElem?_drop]
      congr 1
      simp only [List.length_append, hA]; omega

theorem swapPlaces_ok {m : List α} {a : Nat} {x y : α} (h : Seg m a [x, y]) :
    ∃ m', swapPlaces left a (a + 1) m = (.ok (), m') ∧ m'.length = m.length ∧ Seg m' a [y, x] ∧ ∀ q, ¬ (a ≤ q ∧ q < a + 2) → m'[q]? = m[q]? := by
  rw [seg_cons, seg_single] at h
  have hl := lt_of_get h.2
  obtain ⟨m₂, e₂, l₂, g₂, f₂⟩ := move_ok (left := left) (m := m.set a (left x)) (i := a) (j := a + 1) (x := y)
    (by rw [List.getElem?_set_ne (by omega)]; exact h.2) (by simp; omega) (by omega)
  rw [List.length_set] at l₂
  refine ⟨m₂.set (a + 1) x, ?_, by simpa using l₂, ?_, ?_⟩
  · rw [swapPlaces, bind_ok (out_ok h.1), bind_ok e₂, put_ok _ (by omega)]
  · rw [seg_cons, seg_single, List.getElem?_set_ne (by omega), List.getElem?_set_self (by omega)]
    exact ⟨g₂, rfl⟩
  · intro q hq
    rw [List.getElem?_set_ne (by omega), f₂ q (by omega) (by omega), List.getElem?_set_ne (by omega)]

/-- Moving down, also when the parts overlap. -/
theorem moveRange_down : ∀ (X : List α) (p r : Nat) (m : List α), Seg m p X → r < p → p + X.length ≤ m.length →
    ∃ m', moveRange left p X.length r m = (.ok (), m') ∧ m'.length = m.length ∧ Seg m' r X ∧
      ∀ q, ¬ (r ≤ q ∧ q < r + X.length) → ¬ (p ≤ q ∧ q < p + X.length) → m'[q]? = m[q]?
  | [], p, r, m, _, _, _ => ⟨m, rfl, rfl, Seg.nil, fun _ _ _ => rfl⟩
  | x :: X, p, r, m, h, hd, hr => by
    rw [seg_cons] at h
    simp only [List.length_cons] at hr ⊢
    obtain ⟨m₁, e₁, l₁, g₁, f₁⟩ := move_ok (left := left) h.1 (i := r) (by omega) (by omega)
    obtain ⟨m₂, e₂, l₂, g₂, f₂⟩ := moveRange_down X (p + 1) (r + 1) m₁ (h.2.of_eq (fun q _ _ => f₁ q (by omega) (by omega))) (by omega) (by omega)
    refine ⟨m₂, ?_, by omega, ?_, ?_⟩
    · rw [moveRange, bind_ok e₁, e₂]
    · rw [seg_cons]
      exact ⟨by rw [f₂ r (by omega) (by omega), g₁], g₂⟩
    · intro q h1 h2
      rw [f₂ q (by omega) (by omega), f₁ q (by omega) (by omega)]

theorem rotateBuf_ok {m : List α} {buf size i : Nat} {X Y : List α} (h : Seg m i (X ++ Y)) (hb : i + X.length + Y.length ≤ buf)
    (hl : buf + size ≤ m.length) :
    ∃ m', rotateBuf left buf size i X.length Y.length m = (.ok (), m') ∧ m'.length = m.length ∧ Seg m' i (Y ++ X) ∧
      ∀ q, q < buf → ¬ (i ≤ q ∧ q < i + X.length + Y.length) → m'[q]? = m[q]? := by
  have hS := seg_append.mp h
  rw [rotateBuf]
  by_cases h1 : Y.length < X.length ∧ Y.length ≤ size
  · rw [if_pos h1]
    by_cases h2 : Y.length ≠ 0
    · rw [if_pos h2]
      obtain ⟨m₁, e₁, l₁, g₁, f₁⟩ := moveRange_ok (left := left) Y (i + X.length) buf m hS.2 (by omega) (by omega)
      obtain ⟨m₂, e₂, l₂, g₂, f₂⟩ := moveRangeBack_ok (left := left) i (i + Y.length) X.length X m₁ rfl
        (hS.1.of_eq (fun q _ _ => f₁ q (by omega) (by omega))) (by omega) (by omega)
      obtain ⟨m₃, e₃, l₃, g₃, f₃⟩ := moveRange_ok (left := left) Y buf i m₂ (g₁.of_eq (fun q _ _ => f₂ q (by omega) (by omega))) (by omega) (by omega)
      refine ⟨m₃, by rw [bind_ok e₁, bind_ok e₂, e₃], by omega, ?_, fun q q1 q2 => ?_⟩
      · rw [seg_append]
        exact ⟨g₃, g₂.of_eq (fun q _ _ => f₃ q (by omega) (by omega))⟩
      · rw [f₃ q (by omega) (by omega), f₂ q (by omega) (by omega), f₁ q (by omega) (by omega)]
    · rw [if_neg h2]
      have : Y = [] := List.eq_nil_of_length_eq_zero (by omega)
      subst this
      exact ⟨m, rfl, rfl, by simpa using h, fun _ _ _ => rfl⟩
  · rw [if_neg h1]
    by_cases h2 : X.length ≤ size
    · rw [if_pos h2]
      by_cases h3 : X.length ≠ 0
      · rw [if_pos h3]
        obtain ⟨m₁, e₁, l₁, g₁, f₁⟩ := moveRange_ok (left := left) X i buf m hS.1 (by omega) (by omega)
        obtain ⟨m₂, e₂, l₂, g₂, f₂⟩ := moveRange_down (left := left) Y (i + X.length) i m₁
          (hS.2.of_eq (fun q _ _ => f₁ q (by omega) (by omega))) (by omega) (by omega)
        obtain ⟨m₃, e₃, l₃, g₃, f₃⟩ := moveRangeBack_ok (left := left) buf (i + Y.length) X.length X m₂ rfl
          (g₁.of_eq (fun q _ _ => f₂ q (by omega) (by omega))) (by omega) (by omega)
        refine ⟨m₃, by rw [bind_ok e₁, bind_ok e₂, e₃], by omega, ?_, fun q q1 q2 => ?_⟩
        · rw [seg_append]
          exact ⟨g₂.of_eq (fun q _ _ => f₃ q (by omega) (by omega)), g₃⟩
        · rw [f₃ q (by omega) (by omega), f₂ q (by omega) (by omega), f₁ q (by omega) (by omega)]
      · rw [if_neg h3]
        have : X = [] := List.eq_nil_of_length_eq_zero (by omega)
        subst this
        exact ⟨m, rfl, rfl, by simpa using h, fun _ _ _ => rfl⟩
    · rw [if_neg h2]
      obtain ⟨m', e, l, g, f⟩ := rotatePlaces_ok (left := left) h (by omega)
      exact ⟨m', e, l, g, fun q _ hq => f q hq⟩

/-! ## Where to cut -/

theorem bound_ok {go : α → Res Bool} {p : α → Bool} (hgo : ∀ x, go x = .ok (p x)) (m : List α) : ∀ (k first : Nat) (Y : List α), Y.length < k →
    Seg m first Y → ∃ s, s ≤ Y.length ∧ bound go k first Y.length m = (.ok (first + s), m) ∧
      (Y.Pairwise (fun a b => p b = true → p a = true) → (∀ x ∈ Y.take s, p x = true) ∧ ∀ x ∈ Y.drop s, p x = false) := by
  intro k
  induction k with
  | zero => intro _ _ h; omega
  | succ k ih =>
    intro first Y hk h
    rw [bound]
    by_cases h0 : Y.length = 0
    · rw [if_pos h0]
      have : Y = [] := List.eq_nil_of_length_eq_zero h0
      subst this
      exact ⟨0, le_refl _, rfl, fun _ => by simp⟩
    rw [if_neg h0]
    obtain ⟨Y₁, y, Y₂, rfl, hl⟩ : ∃ Y₁ y Y₂, Y = Y₁ ++ y :: Y₂ ∧ Y₁.length = Y.length / 2 := by
      refine ⟨Y.take (Y.length / 2), Y[Y.length / 2]'(by omega), Y.drop (Y.length / 2 + 1), ?_, by simp; omega⟩
      rw [← List.drop_eq_getElem_cons, List.take_append_drop]
    simp only [List.length_append, List.length_cons] at hl hk ⊢
    rw [← hl]
    obtain ⟨s1, s2⟩ := seg_append.mp h
    rw [seg_cons] at s2
    rw [bind_ok (get_ok s2.1), hgo, Meth.lift_ok_bind]
    cases hp : p y with
    | true =>
      obtain ⟨s, q1, q2, q3⟩ := ih (first + Y₁.length + 1) Y₂ (by omega) s2.2
      rw [if_pos rfl, show Y₁.length + (Y₂.length + 1) - Y₁.length - 1 = Y₂.length by omega, q2]
      refine ⟨Y₁.length + 1 + s, by omega, by rw [show first + Y₁.length + 1 + s = first + (Y₁.length + 1 + s) by omega], fun hm => ?_⟩
      obtain ⟨m1, m2, m3⟩ := List.pairwise_append.mp hm
      obtain ⟨m4, m5⟩ := List.pairwise_cons.mp m2
      obtain ⟨r1, r2⟩ := q3 m5
      have e : Y₁ ++ y :: Y₂ = (Y₁ ++ [y]) ++ Y₂ := by simp
      have ht : (Y₁ ++ y :: Y₂).take (Y₁.length + 1 + s) = (Y₁ ++ [y]) ++ Y₂.take s := by
        rw [e, List.take_append, List.take_of_length_le (by simp)]; simp
      have hd : (Y₁ ++ y :: Y₂).drop (Y₁.length + 1 + s) = Y₂.drop s := by
        rw [e, List.drop_append, List.drop_eq_nil_of_le (by simp)]; simp
      rw [ht, hd]
      refine ⟨fun x hx => ?_, r2⟩
      rcases List.mem_append.mp hx with hx | hx
      · rcases List.mem_append.mp hx with hx | hx
        · exact m3 x hx y (by simp) hp
        · rw [List.mem_singleton.mp hx]; exact hp
      · exact r1 x hx
    | false =>
      obtain ⟨s, q1, q2, q3⟩ := ih first Y₁ (by omega) s1
      rw [if_neg (by simp), q2]
      refine ⟨s, by omega, rfl, fun hm => ?_⟩
      obtain ⟨m1, m2, m3⟩ := List.pairwise_append.mp hm
      obtain ⟨m4, m5⟩ := List.pairwise_cons.mp m2
      obtain ⟨r1, r2⟩ := q3 m1
      rw [List.take_append_of_le_length q1, List.drop_append_of_le_length q1]
      refine ⟨r1, fun x hx => ?_⟩
      rcases List.mem_append.mp hx with hx | hx
      · exact r2 x hx
      · rcases List.mem_cons.mp hx with rfl | hx
        · exact hp
        · by_contra hx'
          have := m4 x hx (by simpa using hx')
          rw [hp] at this
          exact nomatch this

theorem cuts_ok {m : List α} {a : Nat} {X Y : List α} (h : Seg m a (X ++ Y)) (hX : 0 < X.length) (hY : 0 < Y.length) (h3 : X.length + Y.length ≠ 2) :
    ∃ d₁ d₂, cuts (answers c) a X.length Y.length m = (.ok (d₁, d₂), m) ∧ d₁ ≤ X.length ∧ d₂ ≤ Y.length ∧ 0 < d₁ + d₂ ∧
      d₁ + d₂ < X.length + Y.length ∧ (StrictWeak c → Sorted c X → Sorted c Y →
        (∀ x ∈ X.drop d₁, ∀ y ∈ Y.take d₂, c y x = true) ∧ ∀ x ∈ X.take d₁, ∀ y ∈ Y.drop d₂, c y x = false) := by
  obtain ⟨sX, sY⟩ := seg_append.mp h
  have cutAt : ∀ (Z : List α) (i : Nat) (hi : i < Z.length), StrictWeak c → Sorted c Z →
      (∀ x ∈ Z.take i, c Z[i] x = false) ∧ ∀ x ∈ Z.drop i, c x Z[i] = false := by
    intro Z i hi hw hZ
    have e := List.take_append_drop i Z
    rw [List.drop_eq_getElem_cons hi] at e
    rw [Sorted, ← e] at hZ
    obtain ⟨m1, m2, m3⟩ := List.pairwise_append.mp hZ
    refine ⟨fun x hx => m3 x hx _ List.mem_cons_self, fun x hx => ?_⟩
    rw [List.drop_eq_getElem_cons hi] at hx
    rcases List.mem_cons.mp hx with rfl | hx
    · exact hw.irrefl _
    · exact (List.pairwise_cons.mp m2).1 x hx
  rw [cuts]
  by_cases hlt : Y.length < X.length
  · rw [if_pos hlt]
    have hi : X.length / 2 < X.length := by omega
    have hp : m[a + X.length / 2]? = some X[X.length / 2] := by rw [sX _ hi, List.getElem?_eq_getElem hi]
    generalize hpe : X[X.length / 2] = p at hp
    obtain ⟨s, q1, q2, q3⟩ := bound_ok (go := fun x => answers c x p) (p := fun x => c x p) (fun _ => rfl) m (Y.length + 1) (a + X.length) Y (by omega) sY
    refine ⟨X.length / 2, s, ?_, by omega, q1, by omega, by omega, fun hw hsX hsY => ?_⟩
    · rw [bind_ok (get_ok hp), bind_ok q2, show a + X.length + s - (a + X.length) = s by omega]; rfl
    · obtain ⟨r1, r2⟩ := cutAt X _ hi hw hsX
      rw [hpe] at r1 r2
      obtain ⟨t1, t2⟩ := q3 (hsY.imp (fun {u v} huv hv => by
        by_contra hu
        have := not_lt_trans hw (by simpa using hu : c u p = false) huv
        rw [hv] at this
        exact nomatch this))
      exact ⟨fun x hx y hy => lt_of_lt_of_not hw (t1 y hy) (r2 x hx), fun x hx y hy => not_lt_trans hw (r1 x hx) (t2 y hy)⟩
  · rw [if_neg hlt]
    have hi : Y.length / 2 < Y.length := by omega
    have hp : m[a + X.length + Y.length / 2]? = some Y[Y.length / 2] := by rw [sY _ hi, List.getElem?_eq_getElem hi]
    generalize hpe : Y[Y.length / 2] = p at hp
    obtain ⟨s, q1, q2, q3⟩ := bound_ok (go := fun x => do pure (!(← answers c p x))) (p := fun x => !c p x) (fun _ => rfl) m (X.length + 1) a X
      (by omega) sX
    refine ⟨s, Y.length / 2, ?_, q1, by omega, by omega, by omega, fun hw hsX hsY => ?_⟩
    · rw [bind_ok (get_ok hp), bind_ok q2, show a + s - a = s by omega]; rfl
    · obtain ⟨r1, r2⟩ := cutAt Y _ hi hw hsY
      rw [hpe] at r1 r2
      obtain ⟨t1, t2⟩ := q3 (hsX.imp (fun {u v} huv hv => by
        by_contra hu
        have hu : c p u = true := by simpa using hu
        have := lt_of_lt_of_not hw hu huv
        simp [this] at hv))
      refine ⟨fun x hx y hy => lt_of_not_of_lt hw (r1 y hy) (by simpa using t2 x hx), fun x hx y hy => ?_⟩
      exact not_lt_trans hw (by simpa using t1 x hx) (r2 y hy)

end StableSort
end Pyincpp
