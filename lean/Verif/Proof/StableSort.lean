import Verif.Model.StableSort
import Verif.Proof.Loops

/-! # What the steps of `std::stable_sort` do to the places, for a comparator that answers -/

namespace Pyincpp
namespace StableSort

variable {α : Type} {left : α → α} {c : α → α → Bool}

/-- The elements of `X` are at the places from `p` on. -/
def Seg (m : List α) (p : Nat) (X : List α) : Prop := ∀ i, i < X.length → m[p + i]? = X[i]?

theorem Seg.nil {m : List α} {p : Nat} : Seg m p [] := fun i h => by simp at h

theorem seg_cons {m : List α} {p : Nat} {x : α} {X : List α} : Seg m p (x :: X) ↔ m[p]? = some x ∧ Seg m (p + 1) X := by
  constructor
  · intro h
    refine ⟨by simpa using h 0 (by simp), fun i hi => ?_⟩
    have := h (i + 1) (by simpa using hi)
    rw [show p + (i + 1) = p + 1 + i by omega] at this
    simpa using this
  · rintro ⟨h1, h2⟩ i hi
    obtain _ | i := i
    · simpa using h1
    · have := h2 i (by simpa using hi)
      rw [show p + (i + 1) = p + 1 + i by omega]
      simpa using this

theorem seg_append {m : List α} {p : Nat} {X Y : List α} : Seg m p (X ++ Y) ↔ Seg m p X ∧ Seg m (p + X.length) Y := by
  induction X generalizing p with
  | nil => simp [Seg.nil]
  | cons x X ih => rw [List.cons_append, seg_cons, seg_cons, ih, and_assoc, List.length_cons, show p + 1 + X.length = p + (X.length + 1) by omega]

theorem seg_single {m : List α} {p : Nat} {x : α} : Seg m p [x] ↔ m[p]? = some x := by rw [seg_cons]; simp [Seg.nil]

theorem Seg.of_eq {m m' : List α} {p : Nat} {X : List α} (h : Seg m p X) (e : ∀ q, p ≤ q → q < p + X.length → m'[q]? = m[q]?) : Seg m' p X :=
  fun i hi => (e (p + i) (by omega) (by omega)).trans (h i hi)

theorem Seg.length {m : List α} {p : Nat} {X : List α} (h : Seg m p X) (hX : X ≠ []) : p + X.length ≤ m.length := by
  have hp := List.length_pos_iff.mpr hX
  have := h (X.length - 1) (by omega)
  rw [List.getElem?_eq_getElem (show X.length - 1 < X.length by omega)] at this
  have := (List.getElem?_eq_some_iff.mp this).1
  omega

theorem lt_of_get {m : List α} {p : Nat} {x : α} (h : m[p]? = some x) : p < m.length := (List.getElem?_eq_some_iff.mp h).1

/-! ## Single steps -/

theorem bind_ok {β γ : Type} {p : Meth (List α) β} {f : β → Meth (List α) γ} {m m' : List α} {a : β} (h : p m = (.ok a, m')) :
    (p >>= f) m = f a m' := by
  change Meth.bind p f m = _
  rw [Meth.bind, h]

theorem get_ok {m : List α} {i : Nat} {x : α} (h : m[i]? = some x) : get i m = (.ok x, m) := by
  simp [get, vget, h]

theorem put_ok {m : List α} {i : Nat} (x : α) (h : i < m.length) : put i x m = (.ok (), m.set i x) := by
  simp [put, vset_ok h]

theorem out_ok {m : List α} {i : Nat} {x : α} (h : m[i]? = some x) : out left i m = (.ok x, m.set i (left x)) := by
  rw [out, bind_ok (get_ok h), bind_ok (put_ok _ (lt_of_get h))]; rfl

theorem move_ok {m : List α} {i j : Nat} {x : α} (h : m[j]? = some x) (hi : i < m.length) (hne : i ≠ j) :
    ∃ m', move left i j m = (.ok (), m') ∧ m'.length = m.length ∧ m'[i]? = some x ∧ ∀ q, q ≠ i → q ≠ j → m'[q]? = m[q]? := by
  refine ⟨(m.set i x).set j (left x), ?_, by simp, ?_, ?_⟩
  · rw [move, bind_ok (get_ok h), bind_ok (put_ok _ hi), put_ok _ (by simpa using lt_of_get h)]
  · rw [List.getElem?_set_ne (Ne.symm hne), List.getElem?_set_self hi]
  · intro q h1 h2
    rw [List.getElem?_set_ne (Ne.symm h2), List.getElem?_set_ne (Ne.symm h1)]

theorem moveRange_ok : ∀ (X : List α) (p r : Nat) (m : List α), Seg m p X → (r + X.length ≤ p ∨ p + X.length ≤ r) → r + X.length ≤ m.length →
    ∃ m', moveRange left p X.length r m = (.ok (), m') ∧ m'.length = m.length ∧ Seg m' r X ∧
      ∀ q, ¬ (r ≤ q ∧ q < r + X.length) → ¬ (p ≤ q ∧ q < p + X.length) → m'[q]? = m[q]?
  | [], p, r, m, _, _, _ => ⟨m, rfl, rfl, Seg.nil, fun _ _ _ => rfl⟩
  | x :: X, p, r, m, h, hd, hr => by
    rw [seg_cons] at h
    simp only [List.length_cons] at hd hr ⊢
    obtain ⟨m₁, e₁, l₁, g₁, f₁⟩ := move_ok (left := left) h.1 (i := r) (by omega) (by omega)
    obtain ⟨m₂, e₂, l₂, g₂, f₂⟩ := moveRange_ok X (p + 1) (r + 1) m₁ (h.2.of_eq (fun q _ _ => f₁ q (by omega) (by omega))) (by omega) (by omega)
    refine ⟨m₂, ?_, by omega, ?_, ?_⟩
    · rw [moveRange, bind_ok e₁, e₂]
    · rw [seg_cons]
      exact ⟨by rw [f₂ r (by omega) (by omega), g₁], g₂⟩
    · intro q h1 h2
      rw [f₂ q (by omega) (by omega), f₁ q (by omega) (by omega)]

theorem moveRangeBack_ok (p r : Nat) : ∀ (n : Nat) (X : List α) (m : List α), n = X.length → Seg m p X → (r + X.length ≤ p ∨ p < r) →
    r + X.length ≤ m.length →
    ∃ m', moveRangeBack left p n r m = (.ok (), m') ∧ m'.length = m.length ∧ Seg m' r X ∧
      ∀ q, ¬ (r ≤ q ∧ q < r + X.length) → ¬ (p ≤ q ∧ q < p + X.length) → m'[q]? = m[q]?
  | 0, X, m, hn, _, _, _ => by
    have : X = [] := List.eq_nil_of_length_eq_zero hn.symm
    subst this
    exact ⟨m, rfl, rfl, Seg.nil, fun _ _ _ => rfl⟩
  | n + 1, X, m, hn, h, hd, hr => by
    rcases List.eq_nil_or_concat X with rfl | ⟨X, x, rfl⟩
    · simp at hn
    rw [List.concat_eq_append] at *
    rw [seg_append, seg_single] at h
    simp only [List.length_append, List.length_singleton] at hn hd hr ⊢
    have hn : n = X.length := by omega
    subst hn
    obtain ⟨m₁, e₁, l₁, g₁, f₁⟩ := move_ok (left := left) h.2 (i := r + X.length) (by omega) (by omega)
    obtain ⟨m₂, e₂, l₂, g₂, f₂⟩ := moveRangeBack_ok p r X.length X m₁ rfl (h.1.of_eq (fun q _ _ => f₁ q (by omega) (by omega))) (by omega) (by omega)
    refine ⟨m₂, ?_, by omega, ?_, ?_⟩
    · rw [moveRangeBack, bind_ok e₁, e₂]
    · rw [seg_append, seg_single]
      exact ⟨g₂, by rw [f₂ (r + X.length) (by omega) (by omega), g₁]⟩
    · intro q h1 h2
      rw [f₂ q (by omega) (by omega), f₁ q (by omega) (by omega)]

/-! ## Merging -/

/-- What merging gives: an element of the second part comes first only if the comparator says so. -/
abbrev merged (c : α → α → Bool) (X Y : List α) : List α := X.merge Y (fun x y => !c y x)

/-- Merging from the end. -/
abbrev mergedBack (c : α → α → Bool) (X Y : List α) : List α := (Y.reverse.merge X.reverse (fun y x => !c y x)).reverse

theorem length_merged (X Y : List α) : (merged c X Y).length = X.length + Y.length := by simp [merged]

theorem length_mergedBack (X Y : List α) : (mergedBack c X Y).length = X.length + Y.length := by simp [mergedBack]; omega

theorem mergedBack_concat (X Y : List α) (x y : α) :
    mergedBack c (X ++ [x]) (Y ++ [y]) = if c y x then mergedBack c X (Y ++ [y]) ++ [x] else mergedBack c (X ++ [x]) Y ++ [y] := by
  simp only [mergedBack, List.reverse_append, List.reverse_cons, List.reverse_nil, List.nil_append, List.singleton_append]
  rw [List.cons_merge_cons]
  cases c y x <;> simp

variable (left c)

/-- The comparator, which answers. -/
def answers : α → α → Res Bool := fun x y => .ok (c x y)

theorem ask_ok {β : Type} (x y : α) (f : Bool → Meth (List α) β) (m : List α) : (ask (answers c) x y >>= f) m = f (c x y) m := rfl

theorem mergeInto_all : ∀ (k : Nat) (X Y : List α) (p₁ p₂ r : Nat) (m : List α), X.length + Y.length < k → Seg m p₁ X → Seg m p₂ Y →
    (r + X.length + Y.length ≤ p₁ ∨ p₁ + X.length ≤ r) → (r + X.length + Y.length ≤ p₂ ∨ p₂ + Y.length ≤ r) →
    (p₁ + X.length ≤ p₂ ∨ p₂ + Y.length ≤ p₁) → r + X.length + Y.length ≤ m.length →
    ∃ m', mergeInto left (answers c) true k p₁ (p₁ + X.length) p₂ (p₂ + Y.length) r m = (.ok (), m') ∧ m'.length = m.length ∧
      Seg m' r (merged c X Y) ∧ ∀ q, ¬ (r ≤ q ∧ q < r + X.length + Y.length) → ¬ (p₁ ≤ q ∧ q < p₁ + X.length) →
        ¬ (p₂ ≤ q ∧ q < p₂ + Y.length) → m'[q]? = m[q]?
  | 0, X, Y, p₁, p₂, r, m, hk, _, _, _, _, _, _ => by omega
  | k + 1, X, Y, p₁, p₂, r, m, hk, h₁, h₂, d₁, d₂, d₃, hr => by
    rw [mergeInto]
    rcases X with _ | ⟨x, X⟩
    · rw [if_neg (by simp)]
      obtain ⟨m₂, e₂, l₂, g₂, f₂⟩ := moveRange_ok (left := left) Y p₂ r m h₂ (by simpa using d₂) (by simpa using hr)
      refine ⟨m₂, ?_, l₂, by simpa [merged] using g₂, fun q a b d => f₂ q (by simpa using a) d⟩
      simpa [moveRange] using e₂
    rcases Y with _ | ⟨y, Y⟩
    · rw [if_neg (by simp)]
      obtain ⟨m₂, e₂, l₂, g₂, f₂⟩ := moveRange_ok (left := left) (x :: X) p₁ r m h₁ (by simpa using d₁) (by simpa using hr)
      refine ⟨m₂, ?_, l₂, by simpa [merged] using g₂, fun q a b d => f₂ q (by simpa using a) b⟩
      rw [show p₁ + (x :: X).length - p₁ = (x :: X).length by omega, bind_ok e₂]
      simp [moveRange]
    rw [if_pos (by simp)]
    have a₁ := seg_cons.mp h₁
    have a₂ := seg_cons.mp h₂
    rw [bind_ok (get_ok a₂.1), bind_ok (get_ok a₁.1), ask_ok]
    simp only [List.length_cons] at hk d₁ d₂ d₃ hr ⊢
    by_cases hc : c y x = true
    · simp only [hc, if_true]
      obtain ⟨m₁, e₁, l₁, g₁, f₁⟩ := move_ok (left := left) a₂.1 (i := r) (by omega) (by omega)
      obtain ⟨m₂, e₂, l₂, g₂, f₂⟩ := mergeInto_all k (x :: X) Y p₁ (p₂ + 1) (r + 1) m₁ (by simp only [List.length_cons]; omega)
        (h₁.of_eq (fun q _ _ => f₁ q (by simp only [List.length_cons] at *; omega) (by simp only [List.length_cons] at *; omega)))
        (a₂.2.of_eq (fun q _ _ => f₁ q (by omega) (by omega))) (by simp only [List.length_cons]; omega) (by simp only [List.length_cons]; omega)
        (by simp only [List.length_cons]; omega) (by simp only [List.length_cons]; omega)
      simp only [List.length_cons] at e₂ f₂
      refine ⟨m₂, ?_, by omega, ?_, ?_⟩
      · rw [bind_ok e₁, show p₂ + (Y.length + 1) = p₂ + 1 + Y.length by omega, e₂]
      · rw [merged, List.cons_merge_cons_neg _ _ _ (by simp [hc]), seg_cons]
        exact ⟨by rw [f₂ r (by omega) (by omega) (by omega), g₁], g₂⟩
      · intro q b1 b2 b3
        rw [f₂ q (by omega) (by omega) (by omega), f₁ q (by omega) (by omega)]
    · simp only [hc, Bool.false_eq_true, if_false]
      obtain ⟨m₁, e₁, l₁, g₁, f₁⟩ := move_ok (left := left) a₁.1 (i := r) (by omega) (by omega)
      obtain ⟨m₂, e₂, l₂, g₂, f₂⟩ := mergeInto_all k X (y :: Y) (p₁ + 1) p₂ (r + 1) m₁ (by simp only [List.length_cons]; omega)
        (a₁.2.of_eq (fun q _ _ => f₁ q (by omega) (by omega)))
        (h₂.of_eq (fun q _ _ => f₁ q (by simp only [List.length_cons] at *; omega) (by simp only [List.length_cons] at *; omega)))
        (by simp only [List.length_cons]; omega) (by simp only [List.length_cons]; omega)
        (by simp only [List.length_cons]; omega) (by simp only [List.length_cons]; omega)
      simp only [List.length_cons] at e₂ f₂
      refine ⟨m₂, ?_, by omega, ?_, ?_⟩
      · rw [bind_ok e₁, show p₁ + (X.length + 1) = p₁ + 1 + X.length by omega, e₂]
      · rw [merged, List.cons_merge_cons_pos _ _ _ (by simp [hc]), seg_cons]
        exact ⟨by rw [f₂ r (by omega) (by omega) (by omega), g₁], g₂⟩
      · intro q b1 b2 b3
        rw [f₂ q (by omega) (by omega) (by omega), f₁ q (by omega) (by omega)]

theorem mergeInto_rest : ∀ (k : Nat) (X Y : List α) (p₁ p₂ r : Nat) (m : List α), X.length + Y.length < k → Seg m p₁ X → Seg m p₂ Y →
    r + X.length = p₂ → p₂ + Y.length ≤ p₁ → p₂ + Y.length ≤ m.length →
    ∃ m', mergeInto left (answers c) false k p₁ (p₁ + X.length) p₂ (p₂ + Y.length) r m = (.ok (), m') ∧ m'.length = m.length ∧
      Seg m' r (merged c X Y) ∧ ∀ q, ¬ (r ≤ q ∧ q < p₂ + Y.length) → ¬ (p₁ ≤ q ∧ q < p₁ + X.length) → m'[q]? = m[q]?
  | 0, X, Y, p₁, p₂, r, m, hk, _, _, _, _, _ => by omega
  | k + 1, X, Y, p₁, p₂, r, m, hk, h₁, h₂, d₁, d₂, hr => by
    rw [mergeInto]
    rcases X with _ | ⟨x, X⟩
    · rw [if_neg (by simp)]
      refine ⟨m, by simp [moveRange], rfl, ?_, fun _ _ _ => rfl⟩
      simp only [List.length_nil, Nat.add_zero] at d₁
      simpa [merged, d₁] using h₂
    rcases Y with _ | ⟨y, Y⟩
    · rw [if_neg (by simp)]
      obtain ⟨m₂, e₂, l₂, g₂, f₂⟩ := moveRange_ok (left := left) (x :: X) p₁ r m h₁ (by simp only [List.length_cons, List.length_nil] at *; omega)
        (by simp only [List.length_cons, List.length_nil] at *; omega)
      refine ⟨m₂, ?_, l₂, by simpa [merged] using g₂, fun q hq hq' => f₂ q (by simp only [List.length_cons, List.length_nil] at *; omega) hq'⟩
      rw [show p₁ + (x :: X).length - p₁ = (x :: X).length by omega, bind_ok e₂]
      simp
    rw [if_pos (by simp)]
    have a₁ := seg_cons.mp h₁
    have a₂ := seg_cons.mp h₂
    rw [bind_ok (get_ok a₂.1), bind_ok (get_ok a₁.1), ask_ok]
    simp only [List.length_cons] at hk d₁ d₂ hr ⊢
    by_cases hc : c y x = true
    · simp only [hc, if_true]
      obtain ⟨m₁, e₁, l₁, g₁, f₁⟩ := move_ok (left := left) a₂.1 (i := r) (by omega) (by omega)
      obtain ⟨m₂, e₂, l₂, g₂, f₂⟩ := mergeInto_rest k (x :: X) Y p₁ (p₂ + 1) (r + 1) m₁ (by simp only [List.length_cons]; omega)
        (h₁.of_eq (fun q _ _ => f₁ q (by omega) (by omega))) (a₂.2.of_eq (fun q _ _ => f₁ q (by omega) (by omega)))
        (by simp only [List.length_cons]; omega) (by omega) (by omega)
      simp only [List.length_cons] at e₂ f₂
      refine ⟨m₂, ?_, by omega, ?_, ?_⟩
      · rw [bind_ok e₁, show p₂ + (Y.length + 1) = p₂ + 1 + Y.length by omega, e₂]
      · rw [merged, List.cons_merge_cons_neg _ _ _ (by simp [hc]), seg_cons]
        exact ⟨by rw [f₂ r (by omega) (by omega), g₁], g₂⟩
      · intro q hq hq'
        rw [f₂ q (by omega) (by omega), f₁ q (by omega) (by omega)]
    · simp only [hc, Bool.false_eq_true, if_false]
      obtain ⟨m₁, e₁, l₁, g₁, f₁⟩ := move_ok (left := left) a₁.1 (i := r) (by omega) (by omega)
      obtain ⟨m₂, e₂, l₂, g₂, f₂⟩ := mergeInto_rest k X (y :: Y) (p₁ + 1) p₂ (r + 1) m₁ (by simp only [List.length_cons]; omega)
        (a₁.2.of_eq (fun q _ _ => f₁ q (by omega) (by omega)))
        (h₂.of_eq (fun q _ _ => f₁ q (by simp only [List.length_cons] at *; omega) (by simp only [List.length_cons] at *; omega)))
        (by omega) (by simp only [List.length_cons]; omega) (by simp only [List.length_cons]; omega)
      simp only [List.length_cons] at e₂ f₂
      refine ⟨m₂, ?_, by omega, ?_, ?_⟩
      · rw [bind_ok e₁, show p₁ + (X.length + 1) = p₁ + 1 + X.length by omega, e₂]
      · rw [merged, List.cons_merge_cons_pos _ _ _ (by simp [hc]), seg_cons]
        exact ⟨by rw [f₂ r (by omega) (by omega), g₁], g₂⟩
      · intro q hq hq'
        rw [f₂ q (by omega) (by omega), f₁ q (by omega) (by omega)]

theorem mergeBack_ok (a buf : Nat) : ∀ (k : Nat) (X Y : List α) (m : List α), X.length + Y.length ≤ k → X ≠ [] → Y ≠ [] → Seg m a X → Seg m buf Y →
    a + X.length + Y.length ≤ buf →
    ∃ m', mergeBack left (answers c) a buf k X.length Y.length (a + X.length + Y.length) m = (.ok (), m') ∧ m'.length = m.length ∧
      Seg m' a (mergedBack c X Y) ∧ ∀ q, ¬ (a ≤ q ∧ q < a + X.length + Y.length) → q < buf → m'[q]? = m[q]?
  | 0, X, Y, m, hk, hX, hY, _, _, _ => absurd (List.eq_nil_of_length_eq_zero (by omega)) hX
  | k + 1, X, Y, m, hk, hX, hY, h₁, h₂, d => by
    have lb := h₂.length hY
    rcases List.eq_nil_or_concat X with rfl | ⟨X, x, rfl⟩
    · exact absurd rfl hX
    rcases List.eq_nil_or_concat Y with rfl | ⟨Y, y, rfl⟩
    · exact absurd rfl hY
    rw [List.concat_eq_append] at *
    rw [List.concat_eq_append] at *
    have a₁ := seg_append.mp h₁
    have a₂ := seg_append.mp h₂
    rw [seg_single] at a₁ a₂
    simp only [List.length_append, List.length_singleton] at hk d lb ⊢
    rw [mergeBack]
    simp only [Nat.add_sub_cancel]
    rw [bind_ok (get_ok a₂.2), bind_ok (get_ok a₁.2), ask_ok, mergedBack_concat]
    have er : a + (X.length + 1) + (Y.length + 1) - 1 = a + X.length + (Y.length + 1) := by omega
    rw [er]
    by_cases hc : c y x = true
    · simp only [hc, if_true]
      obtain ⟨m₁, e₁, l₁, g₁, f₁⟩ := move_ok (left := left) a₁.2 (i := a + X.length + (Y.length + 1)) (by omega) (by omega)
      rw [bind_ok e₁]
      have b₂ : Seg m₁ buf (Y ++ [y]) := h₂.of_eq (fun q _ _ => f₁ q (by omega) (by omega))
      rcases X with _ | ⟨x', X⟩
      · obtain ⟨m₂, e₂, l₂, g₂, f₂⟩ := moveRangeBack_ok (left := left) buf a (Y.length + 1) (Y ++ [y]) m₁ (by simp) b₂
          (Or.inl (by simp only [List.length_append, List.length_singleton, List.length_nil] at *; omega))
          (by simp only [List.length_append, List.length_singleton, List.length_nil] at *; omega)
        simp only [List.length_append, List.length_singleton, List.length_nil] at *
        refine ⟨m₂, ?_, by omega, ?_, ?_⟩
        · rw [if_pos trivial, show a + 0 + (Y.length + 1) - (Y.length + 1) = a by omega, e₂]
        · rw [seg_append, seg_single]
          refine ⟨by simpa [mergedBack] using g₂, ?_⟩
          rw [length_mergedBack, ← g₁, f₂ _ (by simp) (by simp; omega)]
          simp only [List.length_append, List.length_singleton, List.length_nil]
          congr 1; omega
        · intro q b1 b2
          rw [f₂ q (by omega) (by omega), f₁ q (by omega) (by omega)]
      · obtain ⟨m₂, e₂, l₂, g₂, f₂⟩ := mergeBack_ok a buf k (x' :: X) (Y ++ [y]) m₁
          (by simp only [List.length_append, List.length_singleton] at *; omega) (by simp) (by simp)
          (a₁.1.of_eq (fun q _ _ => f₁ q (by omega) (by omega))) b₂ (by simp only [List.length_append, List.length_singleton] at *; omega)
        simp only [List.length_append, List.length_singleton] at e₂ f₂
        refine ⟨m₂, ?_, by omega, ?_, ?_⟩
        · rw [if_neg (by simp), e₂]
        · rw [seg_append, seg_single]
          refine ⟨g₂, ?_⟩
          rw [length_mergedBack, ← g₁, f₂ _ (by simp; omega) (by simp only [List.length_append, List.length_singleton]; omega)]
          simp only [List.length_append, List.length_singleton]
          congr 1; omega
        · intro q b1 b2
          rw [f₂ q (by omega) (by omega), f₁ q (by omega) (by omega)]
    · simp only [hc, Bool.false_eq_true, if_false]
      obtain ⟨m₁, e₁, l₁, g₁, f₁⟩ := move_ok (left := left) a₂.2 (i := a + X.length + (Y.length + 1)) (by omega) (by omega)
      rw [bind_ok e₁]
      have b₁ : Seg m₁ a (X ++ [x]) := h₁.of_eq (fun q _ h => f₁ q (by simp at h; omega) (by simp at h; omega))
      rcases Y with _ | ⟨y', Y⟩
      · refine ⟨m₁, by rw [if_pos (by rfl)]; rfl, l₁, ?_, ?_⟩
        · rw [seg_append, seg_single]
          refine ⟨by simpa [mergedBack] using b₁, ?_⟩
          rw [length_mergedBack, ← g₁]
          simp only [List.length_append, List.length_singleton, List.length_nil]
          congr 1
        · intro q b1 b2
          rw [f₁ q (by omega) (by omega)]
      · obtain ⟨m₂, e₂, l₂, g₂, f₂⟩ := mergeBack_ok a buf k (X ++ [x]) (y' :: Y) m₁
          (by simp only [List.length_append, List.length_singleton] at *; omega) (by simp) (by simp) b₁
          (a₂.1.of_eq (fun q _ _ => f₁ q (by omega) (by omega))) (by simp only [List.length_append, List.length_singleton] at *; omega)
        simp only [List.length_append, List.length_singleton] at e₂ f₂
        refine ⟨m₂, ?_, by omega, ?_, ?_⟩
        · rw [if_neg (by simp), show a + X.length + ((y' :: Y).length + 1) = a + (X.length + 1) + (y' :: Y).length by omega, e₂]
        · rw [seg_append, seg_single]
          refine ⟨g₂, ?_⟩
          rw [length_mergedBack, ← g₁, f₂ _ (by simp only [List.length_append, List.length_singleton]; omega)
            (by simp only [List.length_append, List.length_singleton]; omega)]
          simp only [List.length_append, List.length_singleton]
          congr 1; omega
        · intro q b1 b2
          rw [f₂ q (by omega) (by omega), f₁ q (by omega) (by omega)]

/-! ## Insertion -/

/-- What inserting one more element into a part gives. -/
def inserted : List α → α → List α
  | [], x => [x]
  | f :: P, x => if c x f then x :: f :: P else mergedBack c (f :: P) [x]

theorem length_inserted (P : List α) (x : α) : (inserted c P x).length = P.length + 1 := by
  cases P with
  | nil => rfl
  | cons f P => rw [inserted]; split <;> simp; omega

theorem linearInsert_ok (val : α) (a : Nat) : ∀ (n : Nat) (f : α) (P : List α) (m : List α), n = P.length → c val f = false → Seg m a (f :: P) →
    a + P.length + 1 < m.length →
    ∃ m', linearInsert left (answers c) val (a + n + 1) m = (.ok (), m') ∧ m'.length = m.length ∧ Seg m' a (mergedBack c (f :: P) [val]) ∧
      ∀ q, ¬ (a ≤ q ∧ q < a + P.length + 2) → m'[q]? = m[q]? := by
  intro n
  induction n with
  | zero =>
    intro f P m hn hf h hl
    have : P = [] := List.eq_nil_of_length_eq_zero hn.symm
    subst this
    have h' := seg_single.mp h
    refine ⟨m.set (a + 1) val, ?_, by simp, ?_, ?_⟩
    · rw [linearInsert, bind_ok (get_ok (by simpa using h')), ask_ok]
      simp only [hf, Bool.false_eq_true, if_false]
      exact put_ok _ hl
    · have : mergedBack c [f] [val] = [f, val] := by
        simp [hf, mergedBack]
      rw [this, seg_cons, seg_single]
      exact ⟨by rw [List.getElem?_set_ne (by omega)]; exact h', List.getElem?_set_self hl⟩
    · intro q b
      rw [List.getElem?_set_ne (by simp at b; omega)]
  | succ n ih =>
    intro f P m hn hf h hl
    rcases List.eq_nil_or_concat P with rfl | ⟨P, y, rfl⟩
    · simp at hn
    rw [List.concat_eq_append] at *
    simp only [List.length_append, List.length_singleton] at hn hl ⊢
    have hn : n = P.length := by omega
    subst hn
    rw [← List.cons_append, seg_append, seg_single] at h
    simp only [List.length_cons] at h
    have emb : mergedBack c (f :: (P ++ [y])) [val] = if c val y then mergedBack c (f :: P) [val] ++ [y] else f :: P ++ [y] ++ [val] := by
      have := mergedBack_concat (c := c) (f :: P) [] y val
      simpa [mergedBack] using this
    rw [linearInsert, bind_ok (get_ok h.2), ask_ok, emb]
    by_cases hc : c val y = true
    · simp only [hc, if_true]
      obtain ⟨m₁, e₁, l₁, g₁, f₁⟩ := move_ok (left := left) h.2 (i := a + (P.length + 1) + 1) (by omega) (by omega)
      obtain ⟨m₂, e₂, l₂, g₂, f₂⟩ := ih f P m₁ rfl hf (h.1.of_eq (fun q _ b => f₁ q (by simp at b; omega) (by simp at b; omega))) (by omega)
      refine ⟨m₂, ?_, by omega, ?_, ?_⟩
      · rw [bind_ok e₁, ← Nat.add_assoc, e₂]
      · rw [seg_append, seg_single]
        refine ⟨g₂, ?_⟩
        rw [length_mergedBack, ← g₁]
        simp only [List.length_cons, List.length_nil]
        rw [f₂ _ (by omega)]
        congr 1
      · intro q b
        rw [f₂ q (by omega), f₁ q (by omega) (by omega)]
    · simp only [hc, Bool.false_eq_true, if_false]
      refine ⟨m.set (a + (P.length + 1) + 1) val, put_ok _ (by omega), by simp, ?_, ?_⟩
      · rw [seg_append, seg_append, seg_single, seg_single]
        refine ⟨⟨h.1.of_eq (fun q _ b => List.getElem?_set_ne (by simp at b; omega)), ?_⟩, ?_⟩
        · rw [List.getElem?_set_ne (by simp)]; exact h.2
        · simp only [List.length_append, List.length_cons, List.length_nil]
          rw [show a + (P.length + 1 + (0 + 1)) = a + (P.length + 1) + 1 by omega]
          exact List.getElem?_set_self (by omega)
      · intro q b
        rw [List.getElem?_set_ne (by omega)]

theorem insertAt_ok (a : Nat) (P : List α) (x : α) (m : List α) (hP : P ≠ []) (h : Seg m a P) (hx : m[a + P.length]? = some x) :
    ∃ m', insertAt left (answers c) a (a + P.length) m = (.ok (), m') ∧ m'.length = m.length ∧ Seg m' a (inserted c P x) ∧
      ∀ q, ¬ (a ≤ q ∧ q < a + P.length + 1) → m'[q]? = m[q]? := by
  rcases P with _ | ⟨f, P⟩
  · exact absurd rfl hP
  have hl := lt_of_get hx
  have hf := (seg_cons.mp h).1
  rw [insertAt, bind_ok (get_ok hx), bind_ok (get_ok hf), ask_ok, inserted]
  simp only [List.length_cons] at hl hx ⊢
  have h' : Seg (m.set (a + (P.length + 1)) (left x)) a (f :: P) :=
    h.of_eq (fun q _ b => List.getElem?_set_ne (by simp at b; omega))
  by_cases hc : c x f = true
  · simp only [hc, if_true]
    rw [bind_ok (out_ok hx)]
    obtain ⟨m₁, e₁, l₁, g₁, f₁⟩ := moveRangeBack_ok (left := left) a (a + 1) (P.length + 1) (f :: P) _ (by simp) h' (by omega)
      (by simp only [List.length_cons, List.length_set]; omega)
    simp only [List.length_set, List.length_cons] at l₁ f₁
    refine ⟨m₁.set a x, ?_, by simp; omega, ?_, ?_⟩
    · rw [show a + (P.length + 1) - a = P.length + 1 by omega, bind_ok e₁]
      exact put_ok _ (by omega)
    · rw [seg_cons]
      exact ⟨List.getElem?_set_self (by omega), g₁.of_eq (fun q _ _ => List.getElem?_set_ne (by omega))⟩
    · intro q b
      rw [List.getElem?_set_ne (by omega), f₁ q (by omega) (by omega), List.getElem?_set_ne (by omega)]
  · simp only [hc, Bool.false_eq_true, if_false]
    rw [bind_ok (out_ok hx)]
    obtain ⟨m₁, e₁, l₁, g₁, f₁⟩ := linearInsert_ok left c x a P.length f P _ rfl (by simpa using hc) h' (by simp; omega)
    refine ⟨m₁, by rw [← Nat.add_assoc]; exact e₁, by simpa using l₁, g₁, ?_⟩
    intro q b
    rw [f₁ q (by omega), List.getElem?_set_ne (by omega)]

theorem insertionLoop_ok (a : Nat) : ∀ (L P : List α) (m : List α), P ≠ [] → Seg m a (P ++ L) →
    ∃ m', insertionLoop left (answers c) a L.length (a + P.length) m = (.ok (), m') ∧ m'.length = m.length ∧ Seg m' a (L.foldl (inserted c) P) ∧
      ∀ q, ¬ (a ≤ q ∧ q < a + P.length + L.length) → m'[q]? = m[q]?
  | [], P, m, _, h => ⟨m, rfl, rfl, by simpa using h, fun _ _ => rfl⟩
  | x :: L, P, m, hP, h => by
    rw [seg_append, seg_cons] at h
    obtain ⟨m₁, e₁, l₁, g₁, f₁⟩ := insertAt_ok left c a P x m hP h.1 h.2.1
    have ll := length_inserted c P x
    obtain ⟨m₂, e₂, l₂, g₂, f₂⟩ := insertionLoop_ok a L (inserted c P x) m₁ (by intro e; rw [e] at ll; simp at ll) (by
      rw [seg_append, ll]
      exact ⟨g₁, h.2.2.of_eq (fun q _ _ => f₁ q (by omega))⟩)
    rw [ll] at e₂ f₂
    refine ⟨m₂, ?_, by omega, g₂, ?_⟩
    · rw [List.length_cons, insertionLoop, bind_ok e₁]; exact e₂
    · intro q b
      simp only [List.length_cons] at b
      rw [f₂ q (by omega), f₁ q (by omega)]

/-- What sorting a part by insertion gives. -/
def isorted (L : List α) : List α := L.foldl (inserted c) []

theorem insertionSort_ok (a : Nat) (L : List α) (m : List α) (h : Seg m a L) :
    ∃ m', insertionSort left (answers c) a (a + L.length) m = (.ok (), m') ∧ m'.length = m.length ∧ Seg m' a (isorted c L) ∧
      ∀ q, ¬ (a ≤ q ∧ q < a + L.length) → m'[q]? = m[q]? := by
  rcases L with _ | ⟨x, L⟩
  · exact ⟨m, by simp [insertionSort, insertionLoop], rfl, Seg.nil, fun _ _ => rfl⟩
  · obtain ⟨m', e, l, g, f⟩ := insertionLoop_ok left c a L [x] m (by simp) (by simpa using h)
    refine ⟨m', ?_, l, by simpa [isorted, inserted] using g, fun q b => f q (by simp only [List.length_cons, List.length_nil] at *; omega)⟩
    rw [insertionSort, show a + (x :: L).length - a - 1 = L.length by simp]
    exact e

end StableSort
end Pyincpp
