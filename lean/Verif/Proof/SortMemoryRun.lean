import Verif.Proof.SortMemory

/-! # `std::stable_sort` with less memory for the buffer: the merges and the whole -/

namespace Pyincpp
namespace StableSort

variable {α : Type} {left : α → α} {c : α → α → Bool}

theorem Merges.length {X Y Z : List α} (h : Merges c X Y Z) : Z.length = X.length + Y.length := by
  rw [h.perm.length_eq, List.length_append]

theorem Sorts.length {L R : List α} (h : Sorts c L R) : R.length = L.length := h.1.length_eq

/-- The pieces around the cuts. -/
theorem seg_cuts {m : List α} {a d₁ d₂ : Nat} {X Y : List α} (h : Seg m a (X ++ Y)) (h₁ : d₁ ≤ X.length) (h₂ : d₂ ≤ Y.length) :
    Seg m a (X.take d₁) ∧ Seg m (a + d₁) (X.drop d₁ ++ Y.take d₂) ∧ Seg m (a + X.length + d₂) (Y.drop d₂) := by
  have e : X ++ Y = X.take d₁ ++ ((X.drop d₁ ++ Y.take d₂) ++ Y.drop d₂) := by
    rw [List.append_assoc, List.take_append_drop, ← List.append_assoc, List.take_append_drop]
  rw [e, seg_append, seg_append] at h
  obtain ⟨s1, s2, s3⟩ := h
  have l1 : (X.take d₁).length = d₁ := by simp [h₁]
  have l2 : (X.drop d₁ ++ Y.take d₂).length = X.length - d₁ + d₂ := by simp [h₂]
  rw [l1] at s2 s3
  rw [l2, show a + d₁ + (X.length - d₁ + d₂) = a + X.length + d₂ by omega] at s3
  exact ⟨s1, s2, s3⟩

theorem mergePlain_ok : ∀ (k a : Nat) (X Y m : List α), X.length + Y.length < k → Seg m a (X ++ Y) →
    ∃ m' Z, mergePlain left (answers c) k a X.length Y.length m = (.ok (), m') ∧ m'.length = m.length ∧ Seg m' a Z ∧ Merges c X Y Z ∧
      ∀ q, ¬ (a ≤ q ∧ q < a + X.length + Y.length) → m'[q]? = m[q]? := by
  intro k
  induction k with
  | zero => intro _ _ _ _ h; omega
  | succ k ih =>
    intro a X Y m hk h
    rw [mergePlain]
    by_cases h0 : X.length = 0 ∨ Y.length = 0
    · rw [if_pos h0]
      rcases h0 with h0 | h0
      · have : X = [] := List.eq_nil_of_length_eq_zero h0
        subst this
        exact ⟨m, Y, rfl, rfl, h, merges_nil_left Y, fun _ _ => rfl⟩
      · have : Y = [] := List.eq_nil_of_length_eq_zero h0
        subst this
        exact ⟨m, X, rfl, rfl, by simpa using h, merges_nil_right X, fun _ _ => rfl⟩
    rw [if_neg h0]
    by_cases h2 : X.length + Y.length = 2
    · rw [if_pos h2]
      obtain ⟨x, rfl⟩ := List.length_eq_one_iff.mp (show X.length = 1 by omega)
      obtain ⟨y, rfl⟩ := List.length_eq_one_iff.mp (show Y.length = 1 by omega)
      have h' : Seg m a [x, y] := h
      rw [seg_cons, seg_single] at h'
      have hm := merges_two (c := c) x y
      rw [List.length_singleton, bind_ok (get_ok h'.2), bind_ok (get_ok h'.1), ask_ok, List.length_singleton]
      cases hc : c y x with
      | true =>
        rw [hc, if_pos rfl] at hm
        obtain ⟨m', e, l, g, f⟩ := swapPlaces_ok (left := left) h
        exact ⟨m', [y, x], by rw [if_pos rfl, e], l, g, hm, fun q hq => f q (by omega)⟩
      | false =>
        rw [hc, if_neg (by simp)] at hm
        exact ⟨m, [x, y], by rw [if_neg (by simp)]; rfl, rfl, h, hm, fun _ _ => rfl⟩
    rw [if_neg h2]
    obtain ⟨d₁, d₂, e₀, b₁, b₂, b₃, b₄, hc⟩ := cuts_ok (c := c) h (by omega) (by omega) h2
    rw [bind_ok e₀]
    dsimp only
    have hl := h.length (by intro hn; simp only [List.append_eq_nil_iff] at hn; rw [hn.1] at h0; simp at h0)
    rw [List.length_append] at hl
    obtain ⟨s1, s2, s3⟩ := seg_cuts h b₁ b₂
    have t1 : (X.take d₁).length = d₁ := by simp [b₁]
    have t2 : (Y.take d₂).length = d₂ := by simp [b₂]
    have t3 : (X.drop d₁).length = X.length - d₁ := by simp
    have t4 : (Y.drop d₂).length = Y.length - d₂ := by simp
    obtain ⟨m₁, e₁, l₁, g₁, f₁⟩ := rotatePlaces_ok (left := left) s2 (by omega)
    rw [t2, t3] at e₁ f₁
    rw [bind_ok e₁]
    rw [seg_append, t2] at g₁
    obtain ⟨m₂, Z₁, e₂, l₂, g₂, M₁, f₂⟩ := ih a (X.take d₁) (Y.take d₂) m₁ (by omega)
      (seg_append.mpr ⟨s1.of_eq (fun q _ _ => f₁ q (by omega)), by rw [t1]; exact g₁.1⟩)
    rw [t1, t2] at e₂ f₂
    rw [bind_ok e₂]
    obtain ⟨m₃, Z₂, e₃, l₃, g₃, M₂, f₃⟩ := ih (a + d₁ + d₂) (X.drop d₁) (Y.drop d₂) m₂ (by omega)
      (seg_append.mpr ⟨g₁.2.of_eq (fun q _ _ => f₂ q (by omega)), by
        rw [t3, show a + d₁ + d₂ + (X.length - d₁) = a + X.length + d₂ by omega]
        exact s3.of_eq (fun q _ _ => by rw [f₂ q (by omega), f₁ q (by omega)])⟩)
    rw [t3, t4] at e₃ f₃
    have lZ := M₁.length
    rw [t1, t2] at lZ
    refine ⟨m₃, Z₁ ++ Z₂, e₃, by omega, ?_, ?_, fun q hq => ?_⟩
    · rw [seg_append, lZ, ← Nat.add_assoc]
      exact ⟨g₂.of_eq (fun q _ _ => f₃ q (by omega)), g₃⟩
    · have := M₁.cut M₂ (by rw [List.take_append_drop, List.take_append_drop]; exact hc)
      rwa [List.take_append_drop, List.take_append_drop] at this
    · rw [f₃ q (by omega), f₂ q (by omega), f₁ q (by omega)]

theorem sortPlain_ok : ∀ (k a : Nat) (L m : List α), L.length < k → Seg m a L →
    ∃ m' R, sortPlain left (answers c) k a L.length m = (.ok (), m') ∧ m'.length = m.length ∧ Seg m' a R ∧ Sorts c L R ∧
      ∀ q, ¬ (a ≤ q ∧ q < a + L.length) → m'[q]? = m[q]? := by
  intro k
  induction k with
  | zero => intro _ _ _ h; omega
  | succ k ih =>
    intro a L m hk h
    rw [sortPlain]
    by_cases h15 : L.length < 15
    · rw [if_pos h15]
      obtain ⟨m', e, l, g, f⟩ := insertionSort_ok left c a L m h
      exact ⟨m', _, e, l, g, isorted_kept kept_sorts L, f⟩
    rw [if_neg h15]
    have e0 := List.take_append_drop (L.length / 2) L
    have t1 : (L.take (L.length / 2)).length = L.length / 2 := by simp; omega
    have t2 : (L.drop (L.length / 2)).length = L.length - L.length / 2 := by simp
    have hs := h
    rw [← e0, seg_append, t1] at hs
    obtain ⟨m₁, R₁, e₁, l₁, g₁, S₁, f₁⟩ := ih a (L.take (L.length / 2)) m (by omega) hs.1
    rw [t1] at e₁ f₁
    obtain ⟨m₂, R₂, e₂, l₂, g₂, S₂, f₂⟩ := ih (a + L.length / 2) (L.drop (L.length / 2)) m₁ (by omega) (hs.2.of_eq (fun q _ _ => f₁ q (by omega)))
    rw [t2] at e₂ f₂
    have r1 := S₁.length
    have r2 := S₂.length
    rw [t1] at r1
    rw [t2] at r2
    obtain ⟨m₃, Z, e₃, l₃, g₃, M, f₃⟩ := mergePlain_ok (left := left) (c := c) (L.length + 1) a R₁ R₂ m₂ (by omega)
      (seg_append.mpr ⟨g₁.of_eq (fun q _ _ => f₂ q (by omega)), by rw [r1]; exact g₂⟩)
    rw [r1, r2] at e₃ f₃
    refine ⟨m₃, Z, by rw [bind_ok e₁, bind_ok e₂, e₃], by omega, g₃, ?_, fun q hq => ?_⟩
    · have := sorts_merge S₁ S₂ M
      rwa [e0] at this
    · rw [f₃ q (by omega), f₂ q (by omega), f₁ q (by omega)]

theorem mergeBuf_ok {buf size a : Nat} {X Y m : List α} (h : Seg m a (X ++ Y)) (hs : X.length ≤ size ∨ Y.length ≤ size)
    (hb : a + X.length + Y.length ≤ buf) (hl : buf + size ≤ m.length) :
    ∃ m' Z, mergeBuf left (answers c) buf a X.length Y.length m = (.ok (), m') ∧ m'.length = m.length ∧ Seg m' a Z ∧ Merges c X Y Z ∧
      ∀ q, q < buf → ¬ (a ≤ q ∧ q < a + X.length + Y.length) → m'[q]? = m[q]? := by
  have hS := seg_append.mp h
  rw [mergeBuf]
  by_cases hle : X.length ≤ Y.length
  · rw [if_pos hle]
    obtain ⟨m₁, e₁, l₁, g₁, f₁⟩ := moveRange_ok (left := left) X a buf m hS.1 (by omega) (by omega)
    obtain ⟨m₂, e₂, l₂, g₂, f₂⟩ := mergeInto_rest left c (X.length + Y.length + 1) X Y buf (a + X.length) a m₁ (by omega) g₁
      (hS.2.of_eq (fun q _ _ => f₁ q (by omega) (by omega))) rfl (by omega) (by omega)
    refine ⟨m₂, _, by rw [bind_ok e₁, e₂], by omega, g₂, merges_merged X Y, fun q q1 q2 => ?_⟩
    rw [f₂ q (by omega) (by omega), f₁ q (by omega) (by omega)]
  · rw [if_neg hle]
    obtain ⟨m₁, e₁, l₁, g₁, f₁⟩ := moveRange_ok (left := left) Y (a + X.length) buf m hS.2 (by omega) (by omega)
    rw [bind_ok e₁, if_neg (by omega)]
    by_cases hY : Y.length = 0
    · rw [if_pos hY]
      have : Y = [] := List.eq_nil_of_length_eq_zero hY
      subst this
      refine ⟨m₁, X, rfl, l₁, hS.1.of_eq (fun q _ _ => f₁ q (by omega) (by simp)), merges_nil_right X, fun q q1 q2 => ?_⟩
      exact f₁ q (by omega) (by simp)
    · rw [if_neg hY]
      obtain ⟨m₂, e₂, l₂, g₂, f₂⟩ := mergeBack_ok left c a buf (X.length + Y.length + 1) X Y m₁ (by omega)
        (by intro hn; rw [hn] at hle; simp at hle) (by intro hn; rw [hn] at hY; simp at hY)
        (hS.1.of_eq (fun q _ _ => f₁ q (by omega) (by omega))) g₁ (by omega)
      refine ⟨m₂, _, e₂, by omega, g₂, merges_back X Y, fun q q1 q2 => ?_⟩
      rw [f₂ q (by omega) (by omega), f₁ q (by omega) (by omega)]

theorem mergeResize_ok {buf size : Nat} (hpos : 0 < size) : ∀ (k a : Nat) (X Y m : List α), X.length + Y.length < k → Seg m a (X ++ Y) →
    a + X.length + Y.length ≤ buf → buf + size ≤ m.length →
    ∃ m' Z, mergeResize left (answers c) buf size k a X.length Y.length m = (.ok (), m') ∧ m'.length = m.length ∧ Seg m' a Z ∧ Merges c X Y Z ∧
      ∀ q, q < buf → ¬ (a ≤ q ∧ q < a + X.length + Y.length) → m'[q]? = m[q]? := by
  intro k
  induction k with
  | zero => intro _ _ _ _ h; omega
  | succ k ih =>
    intro a X Y m hk h hb hl
    rw [mergeResize]
    by_cases h0 : X.length ≤ size ∨ Y.length ≤ size
    · rw [if_pos h0]
      exact mergeBuf_ok h h0 hb hl
    rw [if_neg h0]
    obtain ⟨d₁, d₂, e₀, b₁, b₂, b₃, b₄, hc⟩ := cuts_ok (c := c) h (by omega) (by omega) (by omega)
    rw [bind_ok e₀]
    dsimp only
    obtain ⟨s1, s2, s3⟩ := seg_cuts h b₁ b₂
    have t1 : (X.take d₁).length = d₁ := by simp [b₁]
    have t2 : (Y.take d₂).length = d₂ := by simp [b₂]
    have t3 : (X.drop d₁).length = X.length - d₁ := by simp
    have t4 : (Y.drop d₂).length = Y.length - d₂ := by simp
    obtain ⟨m₁, e₁, l₁, g₁, f₁⟩ := rotateBuf_ok (left := left) s2 (by omega) hl
    rw [t2, t3] at e₁ f₁
    rw [bind_ok e₁]
    rw [seg_append, t2] at g₁
    obtain ⟨m₂, Z₁, e₂, l₂, g₂, M₁, f₂⟩ := ih a (X.take d₁) (Y.take d₂) m₁ (by omega)
      (seg_append.mpr ⟨s1.of_eq (fun q _ _ => f₁ q (by omega) (by omega)), by rw [t1]; exact g₁.1⟩) (by omega) (by omega)
    rw [t1, t2] at e₂ f₂
    rw [bind_ok e₂]
    obtain ⟨m₃, Z₂, e₃, l₃, g₃, M₂, f₃⟩ := ih (a + d₁ + d₂) (X.drop d₁) (Y.drop d₂) m₂ (by omega)
      (seg_append.mpr ⟨g₁.2.of_eq (fun q _ _ => f₂ q (by omega) (by omega)), by
        rw [t3, show a + d₁ + d₂ + (X.length - d₁) = a + X.length + d₂ by omega]
        exact s3.of_eq (fun q _ _ => by rw [f₂ q (by omega) (by omega), f₁ q (by omega) (by omega)])⟩) (by omega) (by omega)
    rw [t3, t4] at e₃ f₃
    have lZ := M₁.length
    rw [t1, t2] at lZ
    refine ⟨m₃, Z₁ ++ Z₂, e₃, by omega, ?_, ?_, fun q q1 hq => ?_⟩
    · rw [seg_append, lZ, ← Nat.add_assoc]
      exact ⟨g₂.of_eq (fun q _ _ => f₃ q (by omega) (by omega)), g₃⟩
    · have := M₁.cut M₂ (by rw [List.take_append_drop, List.take_append_drop]; exact hc)
      rwa [List.take_append_drop, List.take_append_drop] at this
    · rw [f₃ q q1 (by omega), f₂ q q1 (by omega), f₁ q q1 (by omega)]

theorem sortBuf_ok {buf size a : Nat} {L m : List α} (h : Seg m a L) (hs : (L.length + 1) / 2 ≤ size) (hb : a + L.length ≤ buf)
    (hl : buf + size ≤ m.length) :
    ∃ m' R, sortBuf left (answers c) buf a L.length m = (.ok (), m') ∧ m'.length = m.length ∧ Seg m' a R ∧ Sorts c L R ∧
      ∀ q, q < buf → ¬ (a ≤ q ∧ q < a + L.length) → m'[q]? = m[q]? := by
  rw [sortBuf]
  have e0 := List.take_append_drop ((L.length + 1) / 2) L
  have t1 : (L.take ((L.length + 1) / 2)).length = (L.length + 1) / 2 := by simp; omega
  have t2 : (L.drop ((L.length + 1) / 2)).length = L.length - (L.length + 1) / 2 := by simp
  have hS := h
  rw [← e0, seg_append, t1] at hS
  obtain ⟨m₁, R₁, e₁, l₁, g₁, S₁, f₁⟩ := mergeSort_ok left (kept_sorts (c := c)) a buf (L.take ((L.length + 1) / 2)) m hS.1 (by omega) (by omega)
  rw [t1] at e₁ f₁
  obtain ⟨m₂, R₂, e₂, l₂, g₂, S₂, f₂⟩ := mergeSort_ok left (kept_sorts (c := c)) (a + (L.length + 1) / 2) buf (L.drop ((L.length + 1) / 2)) m₁
    (hS.2.of_eq (fun q _ _ => f₁ q (by omega) (by omega))) (by omega) (by omega)
  rw [t2] at e₂ f₂
  have r1 := S₁.length
  have r2 := S₂.length
  rw [t1] at r1
  rw [t2] at r2
  obtain ⟨m₃, Z, e₃, l₃, g₃, M, f₃⟩ := mergeBuf_ok (left := left) (c := c) (buf := buf) (size := size) (a := a) (X := R₁) (Y := R₂) (m := m₂)
    (seg_append.mpr ⟨g₁.of_eq (fun q _ _ => f₂ q (by omega) (by omega)), by rw [r1]; exact g₂⟩) (by omega) (by omega) (by omega)
  rw [r1, r2] at e₃ f₃
  rw [show a + (L.length + 1) / 2 + (L.length - (L.length + 1) / 2) = a + L.length by omega] at e₂
  refine ⟨m₃, Z, by rw [bind_ok e₁, bind_ok e₂, e₃], by omega, g₃, ?_, fun q q1 hq => ?_⟩
  · have := sorts_merge S₁ S₂ M
    rwa [e0] at this
  · rw [f₃ q q1 (by omega), f₂ q (by omega) (by omega), f₁ q (by omega) (by omega)]

theorem sortResize_ok {buf size : Nat} (hpos : 0 < size) : ∀ (k a : Nat) (L m : List α), L.length < k → Seg m a L → a + L.length ≤ buf →
    buf + size ≤ m.length →
    ∃ m' R, sortResize left (answers c) buf size k a L.length m = (.ok (), m') ∧ m'.length = m.length ∧ Seg m' a R ∧ Sorts c L R ∧
      ∀ q, q < buf → ¬ (a ≤ q ∧ q < a + L.length) → m'[q]? = m[q]? := by
  intro k
  induction k with
  | zero => intro _ _ _ h; omega
  | succ k ih =>
    intro a L m hk h hb hl
    rw [sortResize]
    by_cases hs : size < (L.length + 1) / 2
    · rw [if_pos hs]
      have e0 := List.take_append_drop ((L.length + 1) / 2) L
      have t1 : (L.take ((L.length + 1) / 2)).length = (L.length + 1) / 2 := by simp; omega
      have t2 : (L.drop ((L.length + 1) / 2)).length = L.length - (L.length + 1) / 2 := by simp
      have hS := h
      rw [← e0, seg_append, t1] at hS
      obtain ⟨m₁, R₁, e₁, l₁, g₁, S₁, f₁⟩ := ih a (L.take ((L.length + 1) / 2)) m (by omega) hS.1 (by omega) hl
      rw [t1] at e₁ f₁
      obtain ⟨m₂, R₂, e₂, l₂, g₂, S₂, f₂⟩ := ih (a + (L.length + 1) / 2) (L.drop ((L.length + 1) / 2)) m₁ (by omega)
        (hS.2.of_eq (fun q _ _ => f₁ q (by omega) (by omega))) (by omega) (by omega)
      rw [t2] at e₂ f₂
      have r1 := S₁.length
      have r2 := S₂.length
      rw [t1] at r1
      rw [t2] at r2
      obtain ⟨m₃, Z, e₃, l₃, g₃, M, f₃⟩ := mergeResize_ok (left := left) (c := c) (buf := buf) hpos (L.length + 1) a R₁ R₂ m₂ (by omega)
        (seg_append.mpr ⟨g₁.of_eq (fun q _ _ => f₂ q (by omega) (by omega)), by rw [r1]; exact g₂⟩) (by omega) (by omega)
      rw [r1, r2] at e₃ f₃
      refine ⟨m₃, Z, by rw [bind_ok e₁, bind_ok e₂, e₃], by omega, g₃, ?_, fun q q1 hq => ?_⟩
      · have := sorts_merge S₁ S₂ M
        rwa [e0] at this
      · rw [f₃ q q1 (by omega), f₂ q q1 (by omega), f₁ q q1 (by omega)]
    · rw [if_neg hs]
      exact sortBuf_ok h (by omega) hb hl

/-- The whole, whatever memory there is. -/
theorem runMem_ok (size : Nat) (v : List α) : ∃ R, runMem left (answers c) size v = (.ok (), R) ∧ Sorts c v R := by
  rcases v with _ | ⟨x, t⟩
  · exact ⟨[], rfl, kept_sorts.nil⟩
  simp only [runMem]
  generalize hv : x :: t = v
  have hpos : 0 < v.length := by rw [← hv]; simp
  by_cases h1 : (v.length + 1) / 2 ≤ size
  · rw [if_pos h1]
    exact run_ok left kept_sorts v
  rw [if_neg h1]
  by_cases h2 : size = 0
  · rw [if_pos h2]
    obtain ⟨m', R, e, l, g, S, -⟩ := sortPlain_ok (left := left) (c := c) (v.length + 1) 0 v v (by omega)
      (fun i _ => by rw [Nat.zero_add])
    refine ⟨R, ?_, S⟩
    rw [e]
    have := take_of_seg g
    rw [List.take_of_length_le (by rw [l, S.length])] at this
    rw [this]
  · rw [if_neg h2]
    obtain ⟨m', R, e, l, g, S, -⟩ := sortResize_ok (left := left) (c := c) (buf := v.length) (size := size) (by omega) (v.length + 1) 0 v
      (v ++ List.replicate size (left x)) (by omega) (fun i hi => by rw [Nat.zero_add, List.getElem?_append_left hi]) (by omega) (by simp)
    refine ⟨R, ?_, S⟩
    rw [e]
    have := take_of_seg g
    rw [S.length] at this
    dsimp only
    rw [this]

end StableSort
end Pyincpp
