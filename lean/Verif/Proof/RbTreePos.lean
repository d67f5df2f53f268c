import Verif.Proof.RbTree
import Verif.Proof.Tree

/-! # The trees under `std::set` and `std::map`: inserting, for any comparator and for an order -/

namespace Pyincpp
namespace BT

variable {α κ : Type} (key : α → κ) (c : κ → κ → Bool)

/-- The elements for which `c k` says no come first. -/
def Mono (k : κ) (t : BT α) : Prop := t.elems.Pairwise fun a b => c k (key a) = true → c k (key b) = true

theorem mono_split {p : α → Bool} : ∀ {L : List α}, L.Pairwise (fun a b => p a = true → p b = true) →
    ∃ A B, L = A ++ B ∧ (∀ a ∈ A, p a = false) ∧ ∀ b ∈ B, p b = true
  | [], _ => ⟨[], [], rfl, by simp, by simp⟩
  | x :: L, h => by
    rw [List.pairwise_cons] at h
    cases hx : p x with
    | true => exact ⟨[], x :: L, rfl, by simp, fun b hb => by
        rcases List.mem_cons.mp hb with hb | hb
        · rw [hb, hx]
        · exact h.1 b hb hx⟩
    | false =>
      obtain ⟨A, B, e, hA, hB⟩ := mono_split h.2
      refine ⟨x :: A, B, by rw [e]; rfl, fun a ha => ?_, hB⟩
      rcases List.mem_cons.mp ha with ha | ha
      · rw [ha, hx]
      · exact hA a ha

/-- Below the node `y` on the side that the comparator tells, there is no child, and it is the gap `g`. -/
def Gap (k : κ) (t : BT α) (first : Bool) (y g : Nat) : Prop :=
  (t = leaf ∧ y = 0 ∧ g = 0) ∨ ∃ x, t.elems[y]? = some x ∧
    ((first = true ∧ t.leftLeaf y = true ∧ g = y) ∨ (first = false ∧ c k (key x) = true ∧ t.leftLeaf y = true ∧ g = y) ∨
     (first = false ∧ c k (key x) = false ∧ t.rightLeaf y = true ∧ g = y + 1))

/-- What the functions that look for a place find out. -/
def Place (k : κ) (t : BT α) (g : Nat) : Pos → Prop
  | .there j => g = j ∧ ∃ x, t.elems[j]? = some x ∧ c (key x) k = false ∧ (Mono key c k t → c k (key x) = false)
  | .below first y => Gap key c k t first y g ∧ (∀ i x, g = i + 1 → t.elems[i]? = some x → c (key x) k = true) ∧
      (∀ x, Mono key c k t → t.elems[g]? = some x → c k (key x) = true)

theorem lt_size {t : BT α} {j : Nat} {x : α} (h : t.elems[j]? = some x) : j < t.size := (List.getElem?_eq_some_iff.mp h).1

theorem get_some {t : BT α} {j : Nat} (h : j < t.size) : ∃ x, t.elems[j]? = some x := ⟨t.elems[j]'h, List.getElem?_eq_getElem h⟩

theorem gap_le {k : κ} {t : BT α} {first : Bool} {y g : Nat} (h : Gap key c k t first y g) : g ≤ t.size := by
  rcases h with ⟨_, _, h⟩ | ⟨x, hx, ⟨_, _, h⟩ | ⟨_, _, _, h⟩ | ⟨_, _, _, h⟩⟩
  · omega
  all_goals (have := lt_size hx; omega)

/-- For any comparator. -/
theorem uniquePos_ok (k : κ) (t : BT α) (n : Nat) :
    ∃ pos g d, d ≤ t.height + 1 ∧ uniquePos key (Ans c) k t n = (.ok pos, n + d) ∧ Place key c k t g pos := by
  by_cases hL : t.isLeaf = true
  · have : t = leaf := elems_leaf.mp hL
    subst this
    exact ⟨.below false 0, 0, 0, by omega, rfl, Or.inl ⟨rfl, rfl, rfl⟩, by intro i x h; omega, by intro x _ h; simp [elems] at h⟩
  · have hL : t.isLeaf = false := by simpa using hL
    obtain ⟨j, comp, d, x, b1, b2, e, g1, g2, g3, hs⟩ := descend_ok key c k t hL 0 t.size n true
    rw [Nat.zero_add] at e
    have hM : Mono key c k t → (∀ i z, t.elems[i]? = some z → i < (if comp then j else j + 1) → c k (key z) = false) ∧
        (∀ i z, t.elems[i]? = some z → (if comp then j else j + 1) ≤ i → c k (key z) = true) := by
      intro hM
      obtain ⟨A, B, e, hA, hB⟩ := mono_split hM
      rw [hs A B e hA hB, e]
      refine ⟨fun i z hi hl => hA z ?_, fun i z hi hl => hB z ?_⟩
      · rw [List.getElem?_append_left hl] at hi
        exact List.mem_of_getElem? hi
      · rw [List.getElem?_append_right hl] at hi
        exact List.mem_of_getElem? hi
    cases comp with
    | true =>
      simp only [if_true] at g3 hM
      have hG : Gap key c k t false j j := Or.inr ⟨x, g1, Or.inr (Or.inl ⟨rfl, g2, g3, rfl⟩)⟩
      by_cases hj : j = 0
      · subst hj
        refine ⟨.below false 0, 0, d, by omega, ?_, hG, by intro i x h; omega, fun z m hz => (hM m).2 0 z hz (le_refl _)⟩
        rw [uniquePos, mb e]; rfl
      · obtain ⟨z, hz⟩ := get_some (t := t) (j := j - 1) (by omega)
        cases hc : c (key z) k with
        | true =>
          refine ⟨.below false j, j, d + 1, by omega, ?_, hG, fun i w hi hw => ?_, fun w m hw => (hM m).2 j w hw (le_refl _)⟩
          · rw [uniquePos, mb e]
            simp only [hj, and_false, if_false, if_true]
            rw [mb (keyAt_ok key hz _), mb (ask_ans _ _ _ _), hc, if_pos rfl]; rfl
          · rw [show i = j - 1 by omega, hz] at hw
            rw [← Option.some.inj hw, hc]
        | false =>
          refine ⟨.there (j - 1), j - 1, d + 1, by omega, ?_, rfl, z, hz, hc, fun m => (hM m).1 _ z hz (by omega)⟩
          rw [uniquePos, mb e]
          simp only [hj, and_false, if_false, if_true]
          rw [mb (keyAt_ok key hz _), mb (ask_ans _ _ _ _), hc, if_neg (by simp)]; rfl
    | false =>
      simp only [Bool.false_eq_true, if_false] at g3 hM
      have hG : Gap key c k t false j (j + 1) := Or.inr ⟨x, g1, Or.inr (Or.inr ⟨rfl, g2, g3, rfl⟩)⟩
      cases hc : c (key x) k with
      | true =>
        refine ⟨.below false j, j + 1, d + 1, by omega, ?_, hG, fun i w hi hw => ?_, fun w m hw => (hM m).2 _ w hw (le_refl _)⟩
        · rw [uniquePos, mb e]
          simp only [Bool.false_eq_true, false_and, if_false]
          rw [mb (keyAt_ok key g1 _), mb (ask_ans _ _ _ _), hc, if_pos rfl]; rfl
        · rw [show i = j by omega, g1] at hw
          rw [← Option.some.inj hw, hc]
      | false =>
        refine ⟨.there j, j, d + 1, by omega, ?_, rfl, x, g1, hc, fun _ => g2⟩
        rw [uniquePos, mb e]
        simp only [Bool.false_eq_true, false_and, if_false]
        rw [mb (keyAt_ok key g1 _), mb (ask_ans _ _ _ _), hc, if_neg (by simp)]; rfl

/-- For a comparator that does not say yes both ways. -/
theorem hintPos_ok (hA : ∀ a b, c a b = true → c b a = false) (pos : Nat) (k : κ) (t : BT α) (hpos : pos ≤ t.size) (n : Nat) :
    ∃ p g d, d ≤ t.height + 4 ∧ (pos = t.size → d ≤ t.height + 2) ∧
      (pos = t.size → (∀ x, t.elems[t.size - 1]? = some x → c (key x) k = true) → d ≤ 1) ∧
      hintPos key (Ans c) pos k t n = (.ok p, n + d) ∧ Place key c k t g p := by
  by_cases h0 : pos = t.size
  · by_cases hz : 0 < t.size
    · obtain ⟨x, hx⟩ := get_some (t := t) (j := t.size - 1) (by omega)
      cases hc : c (key x) k with
      | true =>
        refine ⟨.below false (t.size - 1), t.size, 1, by omega, by omega, fun _ _ => le_refl _, ?_, Or.inr ⟨x, hx, Or.inr (Or.inr ⟨rfl, hA _ _ hc, last_right ?_, by omega⟩)⟩, fun i w hi hw => ?_, fun w _ hw => ?_⟩
        · rw [hintPos, if_pos h0, if_pos hz, mb (keyAt_ok key hx _), mb (ask_ans _ _ _ _), hc, if_pos rfl]; rfl
        · cases t with
          | leaf => simp [size_leaf] at hz
          | node => rfl
        · rw [show i = t.size - 1 by omega, hx] at hw
          rw [← Option.some.inj hw, hc]
        · have := lt_size hw; omega
      | false =>
        obtain ⟨p, g, d, b, e, hp⟩ := uniquePos_ok key c k t (n + 1)
        refine ⟨p, g, d + 1, by omega, fun _ => by omega, fun _ h => ?_, ?_, hp⟩
        · rw [h x hx] at hc; exact nomatch hc
        · rw [hintPos, if_pos h0, if_pos hz, mb (keyAt_ok key hx _), mb (ask_ans _ _ _ _), hc, if_neg (by simp), e, show n + 1 + d = n + (d + 1) by omega]
    · obtain ⟨p, g, d, b, e, hp⟩ := uniquePos_ok key c k t n
      refine ⟨p, g, d, by omega, fun _ => by omega, fun _ _ => ?_, ?_, hp⟩
      · cases t with
        | leaf => rw [height] at b; exact b
        | node => rw [size_node] at hz; omega
      · rw [hintPos, if_pos h0, if_neg hz, e]
  · have hlt : pos < t.size := by omega
    have hnl : t.isLeaf = false := by
      cases t with
      | leaf => simp [size_leaf] at hlt
      | node => rfl
    obtain ⟨x, hx⟩ := get_some hlt
    cases h1 : c k (key x) with
    | true =>
      by_cases hp0 : pos = 0
      · subst hp0
        refine ⟨.below true 0, 0, 1, by omega, by omega, by omega, ?_, Or.inr ⟨x, hx, Or.inl ⟨rfl, first_left hnl, rfl⟩⟩, by intro i w h; omega, fun w _ hw => ?_⟩
        · rw [hintPos, if_neg h0, mb (keyAt_ok key hx _), mb (ask_ans _ _ _ _), h1, if_pos rfl, if_pos rfl]; rfl
        · rw [hx] at hw; rw [← Option.some.inj hw, h1]
      · obtain ⟨z, hz⟩ := get_some (t := t) (j := pos - 1) (by omega)
        cases h2 : c (key z) k with
        | true =>
          have P1 : ∀ i w, pos = i + 1 → t.elems[i]? = some w → c (key w) k = true := by
            intro i w hi hw
            rw [show i = pos - 1 by omega, hz] at hw
            rw [← Option.some.inj hw, h2]
          have P2 : ∀ w, Mono key c k t → t.elems[pos]? = some w → c k (key w) = true := by
            intro w _ hw
            rw [hx] at hw; rw [← Option.some.inj hw, h1]
          cases hr : t.rightLeaf (pos - 1) with
          | true =>
            refine ⟨.below false (pos - 1), pos, 2, by omega, by omega, by omega, ?_, Or.inr ⟨z, hz, Or.inr (Or.inr ⟨rfl, hA _ _ h2, hr, by omega⟩)⟩, P1, P2⟩
            rw [hintPos, if_neg h0, mb (keyAt_ok key hx _), mb (ask_ans _ _ _ _), h1, if_pos rfl, if_neg hp0, mb (keyAt_ok key hz _),
              mb (ask_ans _ _ _ _), h2, if_pos rfl, hr, if_pos rfl]; rfl
          | false =>
            have hl := neighbours (by omega : pos - 1 + 1 < t.size) hr
            rw [show pos - 1 + 1 = pos by omega] at hl
            refine ⟨.below true pos, pos, 2, by omega, by omega, by omega, ?_, Or.inr ⟨x, hx, Or.inl ⟨rfl, hl, rfl⟩⟩, P1, P2⟩
            rw [hintPos, if_neg h0, mb (keyAt_ok key hx _), mb (ask_ans _ _ _ _), h1, if_pos rfl, if_neg hp0, mb (keyAt_ok key hz _),
              mb (ask_ans _ _ _ _), h2, if_pos rfl, hr, if_neg (by simp)]; rfl
        | false =>
          obtain ⟨p, g, d, b, e, hp⟩ := uniquePos_ok key c k t (n + 1 + 1)
          refine ⟨p, g, d + 2, by omega, by omega, by omega, ?_, hp⟩
          rw [hintPos, if_neg h0, mb (keyAt_ok key hx _), mb (ask_ans _ _ _ _), h1, if_pos rfl, if_neg hp0, mb (keyAt_ok key hz _),
              mb (ask_ans _ _ _ _), h2, if_neg (by simp), e, show n + 1 + 1 + d = n + (d + 2) by omega]
    | false =>
      cases h2 : c (key x) k with
      | true =>
        have hP : ∀ i w, pos + 1 = i + 1 → t.elems[i]? = some w → c (key w) k = true := by
          intro i w hi hw
          rw [show i = pos by omega, hx] at hw
          rw [← Option.some.inj hw, h2]
        by_cases hp1 : pos = t.size - 1
        · refine ⟨.below false (t.size - 1), pos + 1, 2, by omega, by omega, by omega, ?_, Or.inr ⟨x, by rw [← hp1, hx], Or.inr (Or.inr ⟨rfl, h1, last_right hnl, by omega⟩)⟩, hP, fun w _ hw => ?_⟩
          · rw [hintPos, if_neg h0, mb (keyAt_ok key hx _), mb (ask_ans _ _ _ _), h1, if_neg (by simp), mb (ask_ans _ _ _ _), h2, if_pos rfl, if_pos hp1]; rfl
          · have := lt_size hw; omega
        · obtain ⟨z, hz⟩ := get_some (t := t) (j := pos + 1) (by omega)
          cases h3 : c k (key z) with
          | true =>
            have P2 : ∀ w, Mono key c k t → t.elems[pos + 1]? = some w → c k (key w) = true := by
              intro w _ hw
              rw [hz] at hw; rw [← Option.some.inj hw, h3]
            cases hr : t.rightLeaf pos with
            | true =>
              refine ⟨.below false pos, pos + 1, 3, by omega, by omega, by omega, ?_, Or.inr ⟨x, hx, Or.inr (Or.inr ⟨rfl, h1, hr, rfl⟩)⟩, hP, P2⟩
              rw [hintPos, if_neg h0, mb (keyAt_ok key hx _), mb (ask_ans _ _ _ _), h1, if_neg (by simp), mb (ask_ans _ _ _ _), h2, if_pos rfl, if_neg hp1,
                mb (keyAt_ok key hz _), mb (ask_ans _ _ _ _), h3, if_pos rfl, hr, if_pos rfl]; rfl
            | false =>
              have hl := neighbours (by omega : pos + 1 < t.size) hr
              refine ⟨.below true (pos + 1), pos + 1, 3, by omega, by omega, by omega, ?_, Or.inr ⟨z, hz, Or.inl ⟨rfl, hl, rfl⟩⟩, hP, P2⟩
              rw [hintPos, if_neg h0, mb (keyAt_ok key hx _), mb (ask_ans _ _ _ _), h1, if_neg (by simp), mb (ask_ans _ _ _ _), h2, if_pos rfl, if_neg hp1,
                mb (keyAt_ok key hz _), mb (ask_ans _ _ _ _), h3, if_pos rfl, hr, if_neg (by simp)]; rfl
          | false =>
            obtain ⟨p, g, d, b, e, hp⟩ := uniquePos_ok key c k t (n + 1 + 1 + 1)
            refine ⟨p, g, d + 3, by omega, by omega, by omega, ?_, hp⟩
            rw [hintPos, if_neg h0, mb (keyAt_ok key hx _), mb (ask_ans _ _ _ _), h1, if_neg (by simp), mb (ask_ans _ _ _ _), h2, if_pos rfl, if_neg hp1,
              mb (keyAt_ok key hz _), mb (ask_ans _ _ _ _), h3, if_neg (by simp), e, show n + 1 + 1 + 1 + d = n + (d + 3) by omega]
      | false =>
        refine ⟨.there pos, pos, 2, by omega, by omega, by omega, ?_, rfl, x, hx, h2, fun _ => h1⟩
        rw [hintPos, if_neg h0, mb (keyAt_ok key hx _), mb (ask_ans _ _ _ _), h1, if_neg (by simp), mb (ask_ans _ _ _ _), h2, if_neg (by simp)]; rfl

theorem link_ok {B : Balancer α} (hB : B.Keeps) (v : α) {t : BT α} {first : Bool} {y g : Nat} (h : Gap key c (key v) t first y g) (n : Nat) :
    ∃ t' d, d ≤ 1 ∧ link key (Ans c) B v first y t n = (.ok (t', g), n + d) ∧ t'.elems = t.elems.take g ++ v :: t.elems.drop g ∧ RB t' := by
  rcases h with ⟨h1, h2, h3⟩ | ⟨x, hx, h⟩
  · subst h1; subst h2; subst h3
    exact ⟨B.ins (node true leaf v leaf), 0, by omega, rfl, by rw [(hB.ins _).1]; rfl, (hB.ins _).2⟩
  · have hy := lt_size hx
    have hne : ¬ y = t.size := by omega
    rcases h with ⟨h1, h2, h3⟩ | ⟨h1, h2, h3, h4⟩ | ⟨h1, h2, h3, h4⟩
    · subst h1; subst h3
      obtain ⟨t', e, e'⟩ := hang_left v hy h2
      refine ⟨B.ins t', 0, by omega, ?_, by rw [(hB.ins _).1, e'], (hB.ins _).2⟩
      rw [link, if_neg hne]
      show (Meth.lift (hang v true t g) >>= _) n = _
      rw [e]; rfl
    · subst h1; subst h4
      obtain ⟨t', e, e'⟩ := hang_left v hy h3
      refine ⟨B.ins t', 1, by omega, ?_, by rw [(hB.ins _).1, e'], (hB.ins _).2⟩
      rw [link, if_neg hne, if_neg (by simp), mb (b := true) (n' := n + 1) (by rw [mb (keyAt_ok key hx _), ask_ans, h2]), e]; rfl
    · subst h1; subst h4
      obtain ⟨t', e, e'⟩ := hang_right v hy h3
      refine ⟨B.ins t', 1, by omega, ?_, by rw [(hB.ins _).1, e'], (hB.ins _).2⟩
      rw [link, if_neg hne, if_neg (by simp), mb (b := false) (n' := n + 1) (by rw [mb (keyAt_ok key hx _), ask_ans, h2]), e]; rfl

/-! ## For an order -/

theorem insert_between {lt : α → α → Bool} {v : α} : ∀ {A C : List α}, (∀ a ∈ A, lt a v = true) → (∀ b ∈ C, lt b v = false ∧ lt v b = true) →
    Tree.insert lt v (A ++ C) = (A ++ v :: C, true)
  | [], [], _, _ => rfl
  | [], b :: C, _, h => by
    have := h b (by simp)
    simp [Tree.insert, this.1, this.2]
  | a :: A, C, h, h' => by
    have ih := insert_between (lt := lt) (v := v) (A := A) (C := C) (fun a ha => h a (by simp [ha])) h'
    have := h a (by simp)
    simp [Tree.insert, this, ih]

theorem insert_there {lt : α → α → Bool} {v x : α} (h1 : lt x v = false) (h2 : lt v x = false) : ∀ {A C : List α}, (∀ a ∈ A, lt a v = true) →
    Tree.insert lt v (A ++ x :: C) = (A ++ x :: C, false)
  | [], C, _ => by simp [Tree.insert, h1, h2]
  | a :: A, C, h => by
    have ih := insert_there h1 h2 (A := A) (C := C) (fun a ha => h a (by simp [ha]))
    have := h a (by simp)
    simp [Tree.insert, this, ih]

/-- The order of the elements by their keys. -/
def byKey (a b : α) : Bool := c (key a) (key b)

variable {key c}

theorem byKey_weak (W : StrictWeak c) : StrictWeak (byKey key c) :=
  ⟨fun _ => W.irrefl _, fun _ _ _ => W.trans _ _ _, fun _ _ _ => W.incomp _ _ _⟩

theorem mono_of {k : κ} {t : BT α} (W : StrictWeak c) (h : Increasing (byKey key c) t.elems) : Mono key c k t :=
  List.Pairwise.imp (fun hab hk => W.trans _ _ _ hk hab) h

theorem inc_get {lt : α → α → Bool} {L : List α} (h : Increasing lt L) {i j : Nat} {x y : α} (hij : i < j) (hx : L[i]? = some x) (hy : L[j]? = some y) :
    lt x y = true := by
  obtain ⟨h1, rfl⟩ := List.getElem?_eq_some_iff.mp hx
  obtain ⟨h2, rfl⟩ := List.getElem?_eq_some_iff.mp hy
  exact List.pairwise_iff_getElem.mp h i j h1 h2 hij

theorem place_insert {v : α} {t : BT α} {g : Nat} {p : Pos} (W : StrictWeak c) (hI : Increasing (byKey key c) t.elems)
    (h : Place key c (key v) t g p) : Tree.insert (byKey key c) v t.elems =
      match p with
      | .there _ => (t.elems, false)
      | .below _ _ => (t.elems.take g ++ v :: t.elems.drop g, true) := by
  have hM := mono_of (k := key v) W hI
  cases p with
  | there j =>
    obtain ⟨rfl, x, hx, h1, h2⟩ := h
    have h2 := h2 hM
    have hj := lt_size hx
    have e : t.elems = t.elems.take g ++ x :: t.elems.drop (g + 1) := by
      obtain ⟨hg, rfl⟩ := List.getElem?_eq_some_iff.mp hx
      rw [← List.drop_eq_getElem_cons hg, List.take_append_drop]
    have : Tree.insert (byKey key c) v t.elems = (t.elems, false) := by
      rw [e]
      refine insert_there (lt := byKey key c) (v := v) (x := x) h1 h2 fun a ha => ?_
      obtain ⟨i, hi, rfl⟩ := List.getElem_of_mem ha
      have hi' : i < g := by rw [List.length_take] at hi; omega
      have hil : i < t.elems.length := by rw [List.length_take] at hi; omega
      have hlt := inc_get hI hi' (List.getElem?_eq_getElem hil) hx
      rw [List.getElem_take]
      exact StrictWeak.lt_of_lt_eqv W hlt ⟨h1, h2⟩
    exact this
  | below first y =>
    obtain ⟨hG, h1, h2⟩ := h
    have : Tree.insert (byKey key c) v (t.elems.take g ++ t.elems.drop g) = (t.elems.take g ++ v :: t.elems.drop g, true) := by
      refine insert_between (fun a ha => ?_) (fun b hb => ?_)
      · obtain ⟨i, hi, rfl⟩ := List.getElem_of_mem ha
        have hi' : i < g := by rw [List.length_take] at hi; omega
        rw [List.getElem_take]
        have hil : i < t.elems.length := by rw [List.length_take] at hi; omega
        by_cases e : g = i + 1
        · exact h1 i _ e (List.getElem?_eq_getElem hil)
        · have hg := gap_le key c hG
          obtain ⟨z, hz⟩ := get_some (t := t) (j := g - 1) (by omega)
          have hlt := inc_get hI (by omega : i < g - 1) (List.getElem?_eq_getElem hil) hz
          exact W.trans _ _ _ hlt (h1 (g - 1) z (by omega) hz)
      · obtain ⟨i, hi, rfl⟩ := List.getElem_of_mem hb
        rw [List.getElem_drop]
        have hil : g + i < t.elems.length := by rw [List.length_drop] at hi; omega
        have hlt : byKey key c v t.elems[g + i] = true := by
          obtain ⟨z, hz⟩ := get_some (t := t) (j := g) (by unfold size; omega)
          have hzk := h2 z hM hz
          by_cases e : i = 0
          · subst e
            obtain ⟨_, rfl⟩ := List.getElem?_eq_some_iff.mp hz
            exact hzk
          · exact W.trans _ _ _ hzk (inc_get hI (by omega : g < g + i) hz (List.getElem?_eq_getElem hil))
        exact ⟨StrictWeak.asymm (byKey_weak W) hlt, hlt⟩
    rw [List.take_append_drop] at this
    exact this

theorem insert_ok {B : Balancer α} (hB : B.Keeps) (W : StrictWeak c) (v : α) {t : BT α} (hR : RB t) (hI : Increasing (byKey key c) t.elems) (n : Nat) :
    ∃ t' d, d ≤ t.height + 2 ∧ insert key (Ans c) B v t n = (.ok (t', (Tree.insert (byKey key c) v t.elems).2), n + d) ∧
      t'.elems = (Tree.insert (byKey key c) v t.elems).1 ∧ RB t' := by
  obtain ⟨p, g, d, b, e, hp⟩ := uniquePos_ok key c (key v) t n
  have hpi := place_insert W hI hp
  cases p with
  | there j =>
    refine ⟨t, d, by omega, ?_, ?_, hR⟩
    · rw [insert, mb e, hpi]; rfl
    · rw [hpi]
  | below first y =>
    obtain ⟨t', d', b', e', h1, h2⟩ := link_ok key c hB v hp.1 (n + d)
    refine ⟨t', d + d', by omega, ?_, ?_, h2⟩
    · rw [insert, mb e, hpi]
      show (link key (Ans c) B v first y t >>= _) _ = _
      rw [mb e', show n + d + d' = n + (d + d') by omega]; rfl
    · rw [hpi, h1]

theorem insertHint_ok {B : Balancer α} (hB : B.Keeps) (W : StrictWeak c) (pos : Nat) (v : α) {t : BT α} (hpos : pos ≤ t.size) (hR : RB t)
    (hI : Increasing (byKey key c) t.elems) (n : Nat) :
    ∃ t' j d, d ≤ t.height + 5 ∧ (pos = t.size → d ≤ t.height + 3) ∧
      (pos = t.size → (∀ x ∈ t.elems, c (key x) (key v) = true) → d ≤ 2 ∧ j = t.size) ∧
      insertHint key (Ans c) B pos v t n = (.ok (t', j), n + d) ∧
      t'.elems = (Tree.insert (byKey key c) v t.elems).1 ∧ RB t' ∧ j < t'.size := by
  obtain ⟨p, g, d, b, bs, ba, e, hp⟩ := hintPos_ok key c (fun a b => StrictWeak.asymm W) pos (key v) t hpos n
  have hpi := place_insert W hI hp
  cases p with
  | there j =>
    refine ⟨t, j, d, by omega, fun h => by have := bs h; omega, fun h ha => ?_, ?_, ?_, hR, ?_⟩
    · obtain ⟨rfl, x, hx, h1, -⟩ := hp
      rw [ha x (List.mem_of_getElem? hx)] at h1; exact nomatch h1
    · rw [insertHint, mb e]; rfl
    · rw [hpi]
    · obtain ⟨rfl, x, hx, -⟩ := hp; exact lt_size hx
  | below first y =>
    obtain ⟨t', d', b', e', h1, h2⟩ := link_ok key c hB v hp.1 (n + d)
    have hg := gap_le key c hp.1
    refine ⟨t', g, d + d', by omega, fun h => by have := bs h; omega, fun h ha => ⟨?_, ?_⟩, ?_, ?_, h2, ?_⟩
    · have := ba h (fun x hx => ha x (List.mem_of_getElem? hx))
      omega
    · by_contra hne
      obtain ⟨z, hz⟩ := get_some (t := t) (j := g) (by omega)
      have q1 := hp.2.2 z (mono_of W hI) hz
      rw [StrictWeak.asymm W (ha z (List.mem_of_getElem? hz))] at q1; exact nomatch q1
    · rw [insertHint, mb e]
      show link key (Ans c) B v first y t _ = _
      rw [e', show n + d + d' = n + (d + d') by omega]
    · rw [hpi, h1]
    · unfold size; rw [h1]; unfold size at hg; simp; omega

theorem insert_size {lt : α → α → Bool} (v : α) : ∀ L : List α, (Tree.insert lt v L).1.length ≤ L.length + 1
  | [] => by simp [Tree.insert]
  | x :: L => by
    have := insert_size (lt := lt) v L
    unfold Tree.insert
    split
    · simp; omega
    · split <;> simp

theorem insertRange_ok {B : Balancer α} (hB : B.Keeps) (W : StrictWeak c) : ∀ (xs : List α) {t : BT α}, RB t → Increasing (byKey key c) t.elems → ∀ n,
    ∃ t' d, insertRange key (Ans c) B xs t n = (.ok t', n + d) ∧ t'.elems = Tree.insertAll (byKey key c) xs t.elems ∧ RB t' ∧
      d ≤ xs.length * (2 * Nat.log 2 (t.size + xs.length + 1) + 3) ∧ (Increasing (byKey key c) (t.elems ++ xs) → d ≤ 2 * xs.length)
  | [], t, hR, hI, n => ⟨t, 0, rfl, rfl, hR, by simp, fun _ => by simp⟩
  | x :: xs, t, hR, hI, n => by
    obtain ⟨t1, j, d, -, b2, b3, e, h1, h2, -⟩ := insertHint_ok hB W t.size x (le_refl _) hR hI n
    have hI1 : Increasing (byKey key c) t1.elems := by
      rw [h1]; exact (Tree.insert_mem (byKey_weak W) x t.elems hI).2.2.1
    obtain ⟨t2, d', e', h3, h4, b4, b5⟩ := insertRange_ok hB W xs h2 hI1 (n + d)
    refine ⟨t2, d + d', ?_, ?_, h4, ?_, fun hA => ?_⟩
    · rw [insertRange, mb e]
      show insertRange key (Ans c) B xs t1 _ = _
      rw [e', show n + d + d' = n + (d + d') by omega]
    · rw [h3, h1]; rfl
    · have hs : t1.size ≤ t.size + 1 := by unfold size; rw [h1]; exact insert_size _ _
      have hh := height_le hR
      have m1 : Nat.log 2 (t.size + 1) ≤ Nat.log 2 (t.size + (x :: xs).length + 1) := Nat.log_mono_right (by simp)
      have m2 : Nat.log 2 (t1.size + xs.length + 1) ≤ Nat.log 2 (t.size + (x :: xs).length + 1) := Nat.log_mono_right (by simp; omega)
      have q1 := b2 rfl
      have q2 : xs.length * (2 * Nat.log 2 (t1.size + xs.length + 1) + 3) ≤ xs.length * (2 * Nat.log 2 (t.size + (x :: xs).length + 1) + 3) :=
        Nat.mul_le_mul_left _ (by omega)
      rw [List.length_cons, Nat.succ_mul]
      rw [List.length_cons] at q2 m1
      omega
    · have hA' : Increasing (byKey key c) ((t.elems ++ [x]) ++ xs) := by simpa using hA
      have hlt : ∀ y ∈ t.elems, byKey key c y x = true := fun y hy => (List.pairwise_append.mp hA).2.2 y hy x (by simp)
      rw [Tree.insert_last (byKey_weak W) x _ hlt] at h1
      have q1 := (b3 rfl hlt).1
      have q2 := b5 (by rw [h1]; exact hA')
      simp; omega

theorem insertIter_ok {B : Balancer α} (hB : B.Keeps) (W : StrictWeak c) : ∀ (xs : List α) {t : BT α}, RB t →
    Increasing (byKey key c) (t.elems ++ xs) → ∀ n,
    ∃ t' d, insertIter key (Ans c) B xs t.size t n = (.ok t', n + d) ∧ t'.elems = t.elems ++ xs ∧ RB t' ∧ d ≤ 2 * xs.length
  | [], t, hR, _, n => ⟨t, 0, rfl, by simp, hR, by simp⟩
  | x :: xs, t, hR, hA, n => by
    have hI := (List.pairwise_append.mp hA).1
    obtain ⟨t1, j, d, -, b2, b3, e, h1, h2, -⟩ := insertHint_ok hB W t.size x (le_refl _) hR hI n
    have hlt : ∀ y ∈ t.elems, byKey key c y x = true := fun y hy => (List.pairwise_append.mp hA).2.2 y hy x (by simp)
    rw [Tree.insert_last (byKey_weak W) x _ hlt] at h1
    obtain ⟨q1, q2⟩ := b3 rfl hlt
    have hA' : Increasing (byKey key c) (t1.elems ++ xs) := by rw [h1]; simpa using hA
    obtain ⟨t2, d', e', h3, h4, b4⟩ := insertIter_ok hB W xs h2 hA' (n + d)
    refine ⟨t2, d + d', ?_, by rw [h3, h1]; simp, h4, by simp; omega⟩
    rw [insertIter, mb e]
    show insertIter key (Ans c) B xs (j + 1) t1 _ = _
    rw [q2, show t.size + 1 = t1.size by unfold size; rw [h1]; simp, e', show n + d + d' = n + (d + d') by omega]

end BT
end Pyincpp
