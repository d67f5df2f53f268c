import Verif.Proof.StableSort

/-! # The passes of `std::stable_sort` and the whole of it -/

namespace Pyincpp
namespace StableSort

variable {α : Type} (left : α → α) {c : α → α → Bool}

/-- A relation between a part of the list and what it has become, that inserting and merging keep. -/
structure Kept (c : α → α → Bool) (G : List α → List α → Prop) : Prop where
  nil : G [] []
  ins : ∀ L P x, G L P → G (L ++ [x]) (inserted c P x)
  merge : ∀ L X L' Y, G L X → G L' Y → G (L ++ L') (merged c X Y)
  back : ∀ L X L' Y, G L X → G L' Y → G (L ++ L') (mergedBack c X Y)
  len : ∀ L R, G L R → R.length = L.length

/-- Parts of `s` elements, the last one perhaps shorter, each in the relation. -/
inductive Blocks (G : List α → List α → Prop) (s : Nat) : List α → List α → Prop
  | last (L R : List α) : R.length ≤ s → G L R → Blocks G s L R
  | more (L R L' R' : List α) : R.length = s → G L R → Blocks G s L' R' → Blocks G s (L ++ L') (R ++ R')

variable {G : List α → List α → Prop}

theorem Blocks.len (k : Kept c G) {s : Nat} {L R : List α} (h : Blocks G s L R) : R.length = L.length := by
  induction h with
  | last L R _ h => exact k.len _ _ h
  | more L R L' R' _ h _ ih => simp [k.len _ _ h, ih]

/-- At least one whole part. -/
theorem Blocks.first (k : Kept c G) {s : Nat} {L R : List α} (h : Blocks G s L R) (hs : s ≤ R.length) :
    ∃ L₁ R₁ L₂ R₂, L = L₁ ++ L₂ ∧ R = R₁ ++ R₂ ∧ R₁.length = s ∧ G L₁ R₁ ∧ Blocks G s L₂ R₂ := by
  cases h with
  | last L R hl h => exact ⟨L, R, [], [], by simp, by simp, by omega, h, .last _ _ (by simp) k.nil⟩
  | more L R L' R' hl h hb => exact ⟨L, R, L', R', rfl, rfl, hl, h, hb⟩

/-- Less than two whole parts. -/
theorem Blocks.two (k : Kept c G) {s : Nat} {L R : List α} (h : Blocks G s L R) (hs : R.length < 2 * s) :
    ∃ L₁ R₁ L₂ R₂, L = L₁ ++ L₂ ∧ R = R₁ ++ R₂ ∧ R₁.length = min R.length s ∧ G L₁ R₁ ∧ G L₂ R₂ := by
  cases h with
  | last L R hl h => exact ⟨L, R, [], [], by simp, by simp, by omega, h, k.nil⟩
  | more L R L' R' hl h hb =>
    cases hb with
    | last L' R' hl' h' => exact ⟨L, R, L', R', rfl, rfl, by simp; omega, h, h'⟩
    | more L' R' L'' R'' hl' h' _ => simp at hs; omega

theorem Blocks.whole (k : Kept c G) {s : Nat} {L R : List α} (h : Blocks G s L R) (hs : R.length ≤ s) : G L R := by
  cases h with
  | last L R hl h => exact h
  | more L R L' R' hl h hb =>
    have : R' = [] := List.eq_nil_of_length_eq_zero (by simp at hs; omega)
    subst this
    have : L' = [] := List.eq_nil_of_length_eq_zero (by have := hb.len k; simp at this; omega)
    subst this
    simpa using h

theorem isorted_kept (k : Kept c G) (L : List α) : G L (isorted c L) := by
  have : ∀ (L' L P : List α), G L P → G (L ++ L') (L'.foldl (inserted c) P) := by
    intro L'
    induction L' with
    | nil => intro L P h; simpa using h
    | cons x L' ih => intro L P h; have := ih (L ++ [x]) _ (k.ins L P x h); simpa using this
  simpa [isorted] using this L [] [] k.nil

theorem chunkSort_ok (k : Kept c G) : ∀ (n : Nat) (a : Nat) (L m : List α), L.length < n → Seg m a L →
    ∃ m' R, chunkSort left (answers c) n a (a + L.length) m = (.ok (), m') ∧ m'.length = m.length ∧ Seg m' a R ∧ Blocks G 7 L R ∧
      ∀ q, ¬ (a ≤ q ∧ q < a + L.length) → m'[q]? = m[q]?
  | 0, a, L, m, hn, _ => by omega
  | n + 1, a, L, m, hn, h => by
    rw [chunkSort]
    split
    · next h7 =>
      have h7 : 7 ≤ L.length := by omega
      have hL := List.take_append_drop 7 L
      have lt : (L.take 7).length = 7 := by simp; omega
      have ld : (L.drop 7).length = L.length - 7 := by simp
      rw [← hL, seg_append] at h
      obtain ⟨m₁, e₁, l₁, g₁, f₁⟩ := insertionSort_ok left c a (L.take 7) m h.1
      have k₁ := isorted_kept k (L.take 7)
      rw [lt] at e₁ f₁ h
      obtain ⟨m₂, R, e₂, l₂, g₂, b₂, f₂⟩ := chunkSort_ok k n (a + 7) (L.drop 7) m₁ (by omega) (h.2.of_eq (fun q _ _ => f₁ q (by omega)))
      have li : (isorted c (L.take 7)).length = 7 := by rw [k.len _ _ k₁, lt]
      refine ⟨m₂, isorted c (L.take 7) ++ R, ?_, by omega, ?_, ?_, ?_⟩
      · rw [bind_ok e₁, ← e₂, ld, show a + 7 + (L.length - 7) = a + L.length by omega]
      · rw [seg_append, li]
        exact ⟨g₁.of_eq (fun q _ _ => f₂ q (by omega)), g₂⟩
      · rw [← hL]
        have := Blocks.more _ _ _ _ li k₁ b₂
        rwa [List.take_append_drop] at this ⊢
      · intro q b
        rw [f₂ q (by omega), f₁ q (by omega)]
    · next h7 =>
      obtain ⟨m₁, e₁, l₁, g₁, f₁⟩ := insertionSort_ok left c a L m h
      have k₁ := isorted_kept k L
      exact ⟨m₁, isorted c L, e₁, l₁, g₁, .last _ _ (by have := k.len _ _ k₁; omega) k₁, f₁⟩

theorem mergePass_ok (k : Kept c G) (s : Nat) (hs : 0 < s) : ∀ (n : Nat) (a r : Nat) (L R m : List α), R.length < n → Blocks G s L R → Seg m a R →
    (r + R.length ≤ a ∨ a + R.length ≤ r) → r + R.length ≤ m.length →
    ∃ m' R', mergePass left (answers c) s n a (a + R.length) r m = (.ok (), m') ∧ m'.length = m.length ∧ Seg m' r R' ∧ Blocks G (2 * s) L R' ∧
      ∀ q, ¬ (r ≤ q ∧ q < r + R.length) → ¬ (a ≤ q ∧ q < a + R.length) → m'[q]? = m[q]?
  | 0, a, r, L, R, m, hn, _, _, _, _ => by omega
  | n + 1, a, r, L, R, m, hn, hb, h, hd, hr => by
    rw [mergePass]
    split
    · next h2 =>
      obtain ⟨L₁, R₁, L₂, R₂, rfl, rfl, q₁, k₁, hb⟩ := hb.first k (by omega)
      simp only [List.length_append] at h2 hn hd hr
      obtain ⟨L₂, R₂, L₃, R₃, rfl, rfl, q₂, k₂, hb⟩ := hb.first k (by omega)
      simp only [List.length_append] at h2 hn hd hr ⊢
      rw [seg_append, seg_append] at h
      rw [q₁, q₂] at hd hr hn h
      obtain ⟨m₁, e₁, l₁, g₁, f₁⟩ := mergeInto_all left c (2 * s + 1) R₁ R₂ a (a + s) r m (by omega) h.1 h.2.1 (by omega) (by omega) (by omega) (by omega)
      rw [q₁, q₂, show a + s + s = a + 2 * s by omega] at e₁
      rw [q₁, q₂] at f₁
      obtain ⟨m₂, R', e₂, l₂, g₂, b₂, f₂⟩ := mergePass_ok k s hs n (a + 2 * s) (r + 2 * s) L₃ R₃ m₁ (by omega) hb
        (by have := h.2.2.of_eq (m' := m₁) (fun q _ _ => f₁ q (by omega) (by omega) (by omega)); rwa [show a + 2 * s = a + s + s by omega])
        (by omega) (by omega)
      have lm := length_merged (c := c) R₁ R₂
      refine ⟨m₂, merged c R₁ R₂ ++ R', ?_, by omega, ?_, ?_, ?_⟩
      · rw [bind_ok e₁, ← e₂, q₁, q₂, show a + (s + (s + R₃.length)) = a + 2 * s + R₃.length by omega]
      · rw [seg_append, lm, q₁, q₂, show r + (s + s) = r + 2 * s by omega]
        exact ⟨g₁.of_eq (fun q _ _ => f₂ q (by omega) (by omega)), g₂⟩
      · rw [← List.append_assoc]
        exact .more _ _ _ _ (by omega) (k.merge _ _ _ _ k₁ k₂) b₂
      · intro q a1 a2
        rw [q₁, q₂] at a1 a2
        rw [f₂ q (by omega) (by omega), f₁ q (by omega) (by omega) (by omega)]
    · next h2 =>
      have h2 : R.length < 2 * s := by omega
      obtain ⟨L₁, R₁, L₂, R₂, rfl, rfl, q₁, k₁, k₂⟩ := hb.two k h2
      rw [seg_append] at h
      simp only [List.length_append] at h2 hn hd hr q₁ ⊢
      obtain ⟨m₁, e₁, l₁, g₁, f₁⟩ := mergeInto_all left c (R₁.length + R₂.length + 1) R₁ R₂ a (a + R₁.length) r m (by omega) h.1 h.2 (by omega) (by omega) (by omega) (by omega)
      have lm := length_merged (c := c) R₁ R₂
      refine ⟨m₁, merged c R₁ R₂, ?_, l₁, g₁, .last _ _ (by omega) (k.merge _ _ _ _ k₁ k₂), ?_⟩
      · rw [show a + (R₁.length + R₂.length) - a = R₁.length + R₂.length by omega, ← q₁, ← Nat.add_assoc a]
        exact e₁
      · intro q a1 a2
        rw [f₁ q (by omega) (by omega) (by omega)]

theorem mergeLoop_ok (k : Kept c G) (a buf : Nat) : ∀ (n s : Nat) (L R m : List α), 0 < s → R.length < n + s → Blocks G s L R → Seg m a R →
    a + R.length ≤ buf → buf + R.length ≤ m.length →
    ∃ m' R', mergeLoop left (answers c) a (a + R.length) buf (n + 1) s m = (.ok (), m') ∧ m'.length = m.length ∧ Seg m' a R' ∧ G L R' ∧
      ∀ q, ¬ (buf ≤ q ∧ q < buf + R.length) → ¬ (a ≤ q ∧ q < a + R.length) → m'[q]? = m[q]? := by
  intro n
  induction n with
  | zero =>
    intro s L R m hs hn hb h hd hl
    rw [mergeLoop, if_neg (by omega)]
    exact ⟨m, R, rfl, rfl, h, hb.whole k (by omega), fun _ _ _ => rfl⟩
  | succ n ih =>
    intro s L R m hs hn hb h hd hl
    rw [mergeLoop]
    split
    · next hlt =>
      obtain ⟨m₁, R₁, e₁, l₁, g₁, b₁, f₁⟩ := mergePass_ok left k s hs (R.length + 1) a buf L R m (by omega) hb h (by omega) hl
      have q₁ : R₁.length = R.length := by rw [b₁.len k, hb.len k]
      obtain ⟨m₂, R₂, e₂, l₂, g₂, b₂, f₂⟩ := mergePass_ok left k (2 * s) (by omega) (R.length + 1) buf a L R₁ m₁ (by omega) b₁ g₁ (by omega) (by omega)
      have q₂ : R₂.length = R.length := by rw [b₂.len k, hb.len k]
      rw [q₁] at e₂ f₂
      obtain ⟨m₃, R₃, e₃, l₃, g₃, b₃, f₃⟩ := ih (4 * s) L R₂ m₂ (by omega) (by omega) (by rw [show 4 * s = 2 * (2 * s) by omega]; exact b₂) g₂ (by omega)
        (by omega)
      rw [q₂] at e₃ f₃
      refine ⟨m₃, R₃, ?_, by omega, g₃, b₃, ?_⟩
      · rw [show a + R.length - a = R.length by omega, bind_ok e₁, bind_ok e₂]; exact e₃
      · intro q a1 a2
        rw [f₃ q (by omega) (by omega), f₂ q (by omega) (by omega), f₁ q (by omega) (by omega)]
    · next hlt => exact ⟨m, R, rfl, rfl, h, hb.whole k (by omega), fun _ _ _ => rfl⟩

theorem mergeSort_ok (k : Kept c G) (a buf : Nat) (L m : List α) (h : Seg m a L) (hd : a + L.length ≤ buf) (hl : buf + L.length ≤ m.length) :
    ∃ m' R, mergeSort left (answers c) a (a + L.length) buf m = (.ok (), m') ∧ m'.length = m.length ∧ Seg m' a R ∧ G L R ∧
      ∀ q, ¬ (buf ≤ q ∧ q < buf + L.length) → ¬ (a ≤ q ∧ q < a + L.length) → m'[q]? = m[q]? := by
  obtain ⟨m₁, R₁, e₁, l₁, g₁, b₁, f₁⟩ := chunkSort_ok left k (L.length + 1) a L m (by omega) h
  have q₁ := b₁.len k
  obtain ⟨m₂, R₂, e₂, l₂, g₂, b₂, f₂⟩ := mergeLoop_ok left k a buf L.length 7 L R₁ m₁ (by omega) (by omega) b₁ g₁ (by omega) (by omega)
  rw [q₁] at e₂ f₂
  refine ⟨m₂, R₂, ?_, by omega, g₂, b₂, ?_⟩
  · rw [mergeSort, show a + L.length - a = L.length by omega, bind_ok e₁]; exact e₂
  · intro q a1 a2
    rw [f₂ q (by omega) (by omega), f₁ q (by omega)]

theorem take_of_seg {m R : List α} (h : Seg m 0 R) : m.take R.length = R := by
  apply List.ext_getElem?
  intro q
  rw [List.getElem?_take]
  split
  · next hq => have := h q hq; rwa [Nat.zero_add] at this
  · next hq => rw [List.getElem?_eq_none (by omega)]

/-- The whole: for a comparator that answers, the call returns, and the list and the result are in the relation. -/
theorem run_ok (k : Kept c G) (v : List α) : ∃ R, run left (answers c) v = (.ok (), R) ∧ G v R := by
  rcases v with _ | ⟨x, t⟩
  · exact ⟨[], rfl, k.nil⟩
  simp only [run]
  generalize hv : x :: t = v
  have hpos : 0 < v.length := by rw [← hv]; simp
  obtain ⟨h, hh⟩ : ∃ h, h = (v.length + 1) / 2 := ⟨_, rfl⟩
  have h1 : h ≤ v.length := by omega
  have h2 : v.length - h ≤ h := by omega
  have h0 : 0 < h := by omega
  rw [halves, ← hh]
  have hV := List.take_append_drop h v
  have lt : (v.take h).length = h := by simp; omega
  have ld : (v.drop h).length = v.length - h := by simp
  have hm : (v ++ List.replicate h (left x)).length = v.length + h := by simp
  have sv : Seg (v ++ List.replicate h (left x)) 0 v := by
    intro i hi
    rw [Nat.zero_add, List.getElem?_append_left hi]
  generalize v ++ List.replicate h (left x) = m at hm sv
  rw [← hV, seg_append, lt, Nat.zero_add] at sv
  obtain ⟨m₁, R₁, e₁, l₁, g₁, b₁, f₁⟩ := mergeSort_ok left k 0 v.length (v.take h) m sv.1 (by omega) (by omega)
  have q₁ := k.len _ _ b₁
  rw [lt] at e₁ f₁ q₁
  rw [Nat.zero_add] at e₁ f₁
  obtain ⟨m₂, R₂, e₂, l₂, g₂, b₂, f₂⟩ := mergeSort_ok left k h v.length (v.drop h) m₁ (sv.2.of_eq (fun q _ _ => f₁ q (by omega) (by omega))) (by omega) (by omega)
  have q₂ := k.len _ _ b₂
  rw [ld] at e₂ f₂ q₂
  rw [show h + (v.length - h) = v.length by omega] at e₂ f₂
  have g₁' : Seg m₂ 0 R₁ := g₁.of_eq (fun q _ _ => f₂ q (by omega) (by omega))
  obtain ⟨m₃, R, e₃, g₃, b₃⟩ : ∃ m₃ R, mergeHalves left (answers c) h v.length m₂ = (.ok (), m₃) ∧ Seg m₃ 0 R ∧ G v R := by
    rw [mergeHalves]
    split
    · next hle =>
      obtain ⟨m₃, e₃, l₃, g₃, f₃⟩ := moveRange_ok (left := left) R₁ 0 v.length m₂ g₁' (by omega) (by omega)
      rw [q₁] at e₃ f₃
      obtain ⟨m₄, e₄, l₄, g₄, f₄⟩ := mergeInto_rest left c (v.length + 1) R₁ R₂ v.length h 0 m₃ (by omega) g₃
        (g₂.of_eq (fun q _ _ => f₃ q (by omega) (by omega))) (by omega) (by omega) (by omega)
      rw [q₁, q₂, show h + (v.length - h) = v.length by omega] at e₄
      refine ⟨m₄, merged c R₁ R₂, by rw [bind_ok e₃, e₄], g₄, ?_⟩
      rw [← hV]; exact k.merge _ _ _ _ b₁ b₂
    · next hle =>
      obtain ⟨m₃, e₃, l₃, g₃, f₃⟩ := moveRange_ok (left := left) R₂ h v.length m₂ g₂ (by omega) (by omega)
      rw [q₂] at e₃ f₃
      rw [bind_ok e₃, if_neg (by omega)]
      have g₁'' : Seg m₃ 0 R₁ := g₁'.of_eq (fun q _ _ => f₃ q (by omega) (by omega))
      split
      · next hz =>
        have : R₂ = [] := List.eq_nil_of_length_eq_zero (by omega)
        refine ⟨m₃, R₁, rfl, g₁'', ?_⟩
        have hd : v.drop h = [] := List.eq_nil_of_length_eq_zero (by omega)
        have : v.take h = v := by rw [hd, List.append_nil] at hV; exact hV
        rwa [this] at b₁
      · next hz =>
        obtain ⟨m₄, e₄, l₄, g₄, f₄⟩ := mergeBack_ok left c 0 v.length (v.length + 1) R₁ R₂ m₃ (by omega) (by intro e; rw [e] at q₁; simp at q₁; omega)
          (by intro e; rw [e] at q₂; simp at q₂; omega) g₁'' g₃ (by omega)
        rw [q₁, q₂, show 0 + h + (v.length - h) = v.length by omega] at e₄
        refine ⟨m₄, mergedBack c R₁ R₂, e₄, g₄, ?_⟩
        rw [← hV]; exact k.back _ _ _ _ b₁ b₂
  refine ⟨R, ?_, b₃⟩
  rw [bind_ok e₁, bind_ok e₂, e₃]
  have := k.len _ _ b₃
  rw [← this, take_of_seg g₃]

end StableSort
end Pyincpp
