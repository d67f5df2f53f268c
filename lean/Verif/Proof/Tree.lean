import Verif.Spec.Set

/-! # Lemmas about the ordered containers -/

namespace Pyincpp

variable {α : Type} {lt : α → α → Bool}

theorem Eqv.symm {a b : α} (h : Eqv lt a b) : Eqv lt b a := ⟨h.2, h.1⟩

namespace StrictWeak

theorem eqv_refl (W : StrictWeak lt) (a : α) : Eqv lt a a := ⟨W.irrefl a, W.irrefl a⟩

theorem eqv_trans (W : StrictWeak lt) {a b c : α} (h : Eqv lt a b) (h' : Eqv lt b c) : Eqv lt a c :=
  W.incomp a b c h.1 h.2 h'.1 h'.2

theorem asymm (W : StrictWeak lt) {a b : α} (h : lt a b = true) : lt b a = false := by
  cases hb : lt b a with
  | false => rfl
  | true => have := W.trans a b a h hb; rw [W.irrefl] at this; cases this

theorem lt_of_eqv_lt (W : StrictWeak lt) {a b c : α} (h : Eqv lt a b) (h' : lt b c = true) : lt a c = true := by
  cases hac : lt a c with
  | true => rfl
  | false =>
    cases hca : lt c a with
    | true => have := W.trans b c a h' hca; rw [h.2] at this; cases this
    | false => have := (W.incomp b a c h.2 h.1 hac hca).1; rw [h'] at this; cases this

theorem lt_of_lt_eqv (W : StrictWeak lt) {a b c : α} (h : lt a b = true) (h' : Eqv lt b c) : lt a c = true := by
  cases hac : lt a c with
  | true => rfl
  | false =>
    cases hca : lt c a with
    | true => have := W.trans c a b hca h; rw [h'.2] at this; cases this
    | false => have := (W.incomp a c b hac hca h'.2 h'.1).1; rw [h] at this; cases this

theorem not_eqv_of_lt (_W : StrictWeak lt) {a b : α} (h : lt a b = true) : ¬ Eqv lt a b := fun e => by rw [e.1] at h; cases h

theorem not_eqv_of_gt (_W : StrictWeak lt) {a b : α} (h : lt b a = true) : ¬ Eqv lt a b := fun e => by rw [e.2] at h; cases h

end StrictWeak

theorem has_nil {x : α} : ¬ Has lt [] x := by rintro ⟨y, hy, -⟩; cases hy

theorem has_cons {x y : α} {ys : List α} : Has lt (y :: ys) x ↔ Eqv lt x y ∨ Has lt ys x := by
  unfold Has; simp

theorem not_has_of_lt (W : StrictWeak lt) {x : α} {ys : List α} (h : ∀ y ∈ ys, lt x y = true) : ¬ Has lt ys x := by
  rintro ⟨y, hy, e⟩; exact W.not_eqv_of_lt (h y hy) e

theorem not_has_of_gt (W : StrictWeak lt) {x : α} {ys : List α} (h : ∀ y ∈ ys, lt y x = true) : ¬ Has lt ys x := by
  rintro ⟨y, hy, e⟩; exact W.not_eqv_of_gt (h y hy) e

theorem Has.mem (W : StrictWeak lt) {s : List α} {x : α} (h : x ∈ s) : Has lt s x := ⟨x, h, W.eqv_refl x⟩

theorem Has.congr (W : StrictWeak lt) {s : List α} {x y : α} (h : Eqv lt x y) : Has lt s x ↔ Has lt s y :=
  ⟨fun ⟨z, hz, e⟩ => ⟨z, hz, W.eqv_trans h.symm e⟩, fun ⟨z, hz, e⟩ => ⟨z, hz, W.eqv_trans h e⟩⟩

theorem Increasing.cons {a : α} {as : List α} : Increasing lt (a :: as) ↔ (∀ b ∈ as, lt a b = true) ∧ Increasing lt as :=
  List.pairwise_cons

/-- In an increasing list equivalent members are equal. -/
theorem Increasing.eqv_eq (W : StrictWeak lt) {s : List α} (h : Increasing lt s) : ∀ {x y}, x ∈ s → y ∈ s → Eqv lt x y → x = y := by
  induction s with
  | nil => intro x y hx; cases hx
  | cons a as ih =>
    intro x y hx hy e
    rw [Increasing.cons] at h
    rcases List.mem_cons.1 hx with rfl | hx <;> rcases List.mem_cons.1 hy with rfl | hy
    · rfl
    · exact absurd e (W.not_eqv_of_lt (h.1 y ‹_›))
    · exact absurd e (W.not_eqv_of_gt (h.1 x ‹_›))
    · exact ih h.2 hx hy e

namespace Tree

theorem insert_mem (W : StrictWeak lt) (x : α) : ∀ (s : List α), Increasing lt s →
    (∀ y, y ∈ (insert lt x s).1 ↔ y ∈ s ∨ (y = x ∧ ¬ Has lt s x)) ∧
    ((insert lt x s).2 = true ↔ ¬ Has lt s x) ∧ Increasing lt (insert lt x s).1 ∧
    (insert lt x s).1.length = s.length + (if (insert lt x s).2 then 1 else 0) := by
  intro s
  induction s with
  | nil =>
    intro _
    refine ⟨fun y => ?_, ?_, ?_, rfl⟩
    · simp [insert, has_nil]
    · simp [insert, has_nil]
    · simp [insert, Increasing]
  | cons y ys ih =>
    intro h
    rw [Increasing.cons] at h
    obtain ⟨i1, i2, i3, i4⟩ := ih h.2
    unfold insert
    by_cases h1 : lt y x = true
    · rw [if_pos h1]
      have hh : Has lt (y :: ys) x ↔ Has lt ys x := by
        rw [has_cons]; exact ⟨fun e => e.resolve_left (W.not_eqv_of_gt h1), Or.inr⟩
      simp only
      refine ⟨fun z => ?_, by rw [hh]; exact i2, ?_, by rw [List.length_cons, List.length_cons, i4]; omega⟩
      · rw [List.mem_cons, List.mem_cons, i1, hh, or_assoc]
      · rw [Increasing.cons]
        refine ⟨fun z hz => ?_, i3⟩
        rcases (i1 z).1 hz with hz | ⟨rfl, -⟩
        · exact h.1 z hz
        · exact h1
    · rw [if_neg h1]
      by_cases h2 : lt x y = true
      · rw [if_pos h2]
        have hall : ∀ z ∈ y :: ys, lt x z = true := by
          intro z hz
          rcases List.mem_cons.1 hz with rfl | hz
          · exact h2
          · exact W.trans _ _ _ h2 (h.1 z hz)
        have hh : ¬ Has lt (y :: ys) x := not_has_of_lt W hall
        refine ⟨fun z => ?_, by simp [hh], ?_, by simp⟩
        · rw [List.mem_cons]; tauto
        · rw [Increasing.cons]; exact ⟨hall, Increasing.cons.2 h⟩
      · rw [if_neg h2]
        have hh : Has lt (y :: ys) x := has_cons.2 (.inl ⟨by simpa using h2, by simpa using h1⟩)
        refine ⟨fun z => ?_, by simp [hh], Increasing.cons.2 h, by simp⟩
        simp [hh]

open Classical in
theorem erase_mem (W : StrictWeak lt) (x : α) : ∀ (s : List α), Increasing lt s →
    (∀ y, y ∈ (erase lt x s).1 ↔ y ∈ s ∧ ¬ Eqv lt x y) ∧
    (erase lt x s).2 = (if Has lt s x then 1 else 0) ∧ Increasing lt (erase lt x s).1 ∧
    (erase lt x s).1.length + (erase lt x s).2 = s.length := by
  intro s
  induction s with
  | nil =>
    intro h
    refine ⟨fun y => ?_, ?_, h, rfl⟩
    · simp [erase]
    · rw [if_neg has_nil]; rfl
  | cons y ys ih =>
    intro h
    rw [Increasing.cons] at h
    obtain ⟨i1, i2, i3, i4⟩ := ih h.2
    unfold erase
    by_cases h1 : lt y x = true
    · rw [if_pos h1]
      have hh : Has lt (y :: ys) x ↔ Has lt ys x := by
        rw [has_cons]; exact ⟨fun e => e.resolve_left (W.not_eqv_of_gt h1), Or.inr⟩
      simp only
      refine ⟨fun z => ?_, by rw [i2]; simp only [hh], ?_, by rw [List.length_cons, List.length_cons]; omega⟩
      · rw [List.mem_cons, List.mem_cons, i1]
        constructor
        · rintro (rfl | ⟨a, b⟩)
          · exact ⟨.inl rfl, W.not_eqv_of_gt h1⟩
          · exact ⟨.inr a, b⟩
        · rintro ⟨rfl | a, b⟩
          · exact .inl rfl
          · exact .inr ⟨a, b⟩
      · rw [Increasing.cons]
        exact ⟨fun z hz => h.1 z ((i1 z).1 hz).1, i3⟩
    · rw [if_neg h1]
      by_cases h2 : lt x y = true
      · rw [if_pos h2]
        have hall : ∀ z ∈ y :: ys, lt x z = true := by
          intro z hz
          rcases List.mem_cons.1 hz with rfl | hz
          · exact h2
          · exact W.trans _ _ _ h2 (h.1 z hz)
        have hh : ¬ Has lt (y :: ys) x := not_has_of_lt W hall
        refine ⟨fun z => ⟨fun hz => ⟨hz, W.not_eqv_of_lt (hall z hz)⟩, fun hz => hz.1⟩, by rw [if_neg hh], Increasing.cons.2 h, by simp⟩
      · rw [if_neg h2]
        have e : Eqv lt x y := ⟨by simpa using h2, by simpa using h1⟩
        have hh : Has lt (y :: ys) x := has_cons.2 (.inl e)
        refine ⟨fun z => ?_, by rw [if_pos hh], h.2, by simp⟩
        simp only [List.mem_cons]
        constructor
        · intro hz; exact ⟨.inr hz, W.not_eqv_of_lt (W.lt_of_eqv_lt e (h.1 z hz))⟩
        · rintro ⟨rfl | hz, hn⟩
          · exact absurd e hn
          · exact hz

theorem find_spec (W : StrictWeak lt) (x : α) : ∀ (s : List α), Increasing lt s →
    (match find lt x s with
     | some i => ∃ y, s[i]? = some y ∧ Eqv lt x y
     | none => ¬ Has lt s x) := by
  intro s
  induction s with
  | nil => intro _; exact has_nil
  | cons y ys ih =>
    intro h
    rw [Increasing.cons] at h
    have ih := ih h.2
    unfold find
    by_cases h1 : lt y x = true
    · rw [if_pos h1]
      cases hf : find lt x ys with
      | none =>
        rw [hf] at ih
        simp only [Option.map_none]
        rw [has_cons]; rintro (e | e)
        · exact W.not_eqv_of_gt h1 e
        · exact ih e
      | some i =>
        rw [hf] at ih
        simpa using ih
    · rw [if_neg h1]
      by_cases h2 : lt x y = true
      · rw [if_pos h2]
        refine not_has_of_lt W (fun z hz => ?_)
        rcases List.mem_cons.1 hz with rfl | hz
        · exact h2
        · exact W.trans _ _ _ h2 (h.1 z hz)
      · rw [if_neg h2]
        exact ⟨y, rfl, by simpa using h2, by simpa using h1⟩

theorem find_none (W : StrictWeak lt) (x : α) (s : List α) (h : Increasing lt s) : find lt x s = none ↔ ¬ Has lt s x := by
  have := find_spec W x s h
  cases hf : find lt x s with
  | none => rw [hf] at this; simpa using this
  | some i =>
    rw [hf] at this
    obtain ⟨y, hy, e⟩ := this
    simp only [reduceCtorEq, false_iff, not_not]
    exact ⟨y, List.mem_of_getElem? hy, e⟩

theorem includes_iff (W : StrictWeak lt) : ∀ (t s : List α), Increasing lt t → Increasing lt s →
    (includes lt t s = true ↔ ∀ x ∈ s, Has lt t x) := by
  intro t
  induction t with
  | nil =>
    intro s _ _
    cases s with
    | nil => simp [includes]
    | cons b bs =>
      simp only [includes, Bool.false_eq_true, false_iff]
      intro h; exact has_nil (h b (by simp))
  | cons a as ih =>
    intro s ht hs
    rw [Increasing.cons] at ht
    cases s with
    | nil => simp [includes]
    | cons b bs =>
      have hs' := hs
      rw [Increasing.cons] at hs'
      unfold includes
      by_cases h1 : lt b a = true
      · rw [if_pos h1]
        simp only [Bool.false_eq_true, false_iff]
        intro h
        refine not_has_of_lt W (fun z hz => ?_) (h b (by simp))
        rcases List.mem_cons.1 hz with rfl | hz
        · exact h1
        · exact W.trans _ _ _ h1 (ht.1 z hz)
      · rw [if_neg h1]
        by_cases h2 : lt a b = true
        · rw [if_neg (by simp [h2]), ih (b :: bs) ht.2 hs]
          have hgt : ∀ x ∈ b :: bs, lt a x = true := by
            intro x hx
            rcases List.mem_cons.1 hx with rfl | hx
            · exact h2
            · exact W.trans _ _ _ h2 (hs'.1 x hx)
          exact forall₂_congr (fun x hx => by
            rw [has_cons]
            exact ⟨Or.inr, fun e => e.resolve_left (W.not_eqv_of_gt (hgt x hx))⟩)
        · have e : Eqv lt b a := ⟨by simpa using h1, by simpa using h2⟩
          rw [if_pos (by simpa using h2), ih bs ht.2 hs'.2]
          constructor
          · intro h x hx
            rcases List.mem_cons.1 hx with rfl | hx
            · exact has_cons.2 (.inl e)
            · exact has_cons.2 (.inr (h x hx))
          · intro h x hx
            rcases has_cons.1 (h x (by simp [hx])) with e' | e'
            · exact absurd e' (W.not_eqv_of_gt (W.lt_of_eqv_lt e.symm (hs'.1 x hx)))
            · exact e'

/-- The members of the result of a merge loop. -/
def Kept (lt : α → α → Bool) (l r b : Bool) (as cs : List α) (y : α) : Prop :=
  (l = true ∧ y ∈ as ∧ ¬ Has lt cs y) ∨ (r = true ∧ y ∈ cs ∧ ¬ Has lt as y) ∨ (b = true ∧ y ∈ as ∧ Has lt cs y)

theorem walk_spec (W : StrictWeak lt) (l r b : Bool) : ∀ (as cs : List α), Increasing lt as → Increasing lt cs →
    (∀ y, y ∈ walk lt l r b as cs ↔ Kept lt l r b as cs y) ∧ Increasing lt (walk lt l r b as cs) := by
  intro as
  induction as with
  | nil =>
    intro cs _ hc
    unfold walk Kept
    cases r
    · exact ⟨fun y => by simp, by simp [Increasing]⟩
    · exact ⟨fun y => by simp [has_nil], hc⟩
  | cons a as ih =>
    intro cs ha hc
    have ha' := ha
    rw [Increasing.cons] at ha'
    unfold walk
    induction cs with
    | nil =>
      unfold walkInner Kept
      cases l
      · exact ⟨fun y => by simp [has_nil], by simp [Increasing]⟩
      · exact ⟨fun y => by simp [has_nil], ha⟩
    | cons c cs ihc =>
      have hc' := hc
      rw [Increasing.cons] at hc'
      unfold walkInner
      by_cases h1 : lt a c = true
      · rw [if_pos h1]
        obtain ⟨m, inc⟩ := ih (c :: cs) ha'.2 hc
        have hac : ∀ y ∈ c :: cs, lt a y = true := by
          intro y hy
          rcases List.mem_cons.1 hy with rfl | hy
          · exact h1
          · exact W.trans _ _ _ h1 (hc'.1 y hy)
        have hna : ¬ Has lt (c :: cs) a := not_has_of_lt W hac
        have hlow : ∀ y ∈ walk lt l r b as (c :: cs), lt a y = true := by
          intro y hy
          rcases (m y).1 hy with ⟨-, h, -⟩ | ⟨-, h, -⟩ | ⟨-, h, -⟩
          · exact ha'.1 y h
          · exact hac y h
          · exact ha'.1 y h
        have key : ∀ y, Kept lt l r b (a :: as) (c :: cs) y ↔ (l = true ∧ y = a) ∨ Kept lt l r b as (c :: cs) y := by
          intro y
          unfold Kept
          have hr : y ∈ c :: cs → (¬ Has lt (a :: as) y ↔ ¬ Has lt as y) := by
            intro hy
            rw [has_cons]
            have : ¬ Eqv lt y a := W.not_eqv_of_gt (hac y hy)
            tauto
          rw [List.mem_cons (a := y) (b := a)]
          constructor
          · rintro (⟨h, rfl | h', h''⟩ | ⟨h, h', h''⟩ | ⟨h, rfl | h', h''⟩)
            · exact .inl ⟨h, rfl⟩
            · exact .inr (.inl ⟨h, h', h''⟩)
            · exact .inr (.inr (.inl ⟨h, h', (hr h').1 h''⟩))
            · exact absurd h'' hna
            · exact .inr (.inr (.inr ⟨h, h', h''⟩))
          · rintro (⟨h, rfl⟩ | ⟨h, h', h''⟩ | ⟨h, h', h''⟩ | ⟨h, h', h''⟩)
            · exact .inl ⟨h, .inl rfl, hna⟩
            · exact .inl ⟨h, .inr h', h''⟩
            · exact .inr (.inl ⟨h, h', (hr h').2 h''⟩)
            · exact .inr (.inr ⟨h, .inr h', h''⟩)
        cases l
        · simp only [Bool.false_eq_true, if_false]
          refine ⟨fun y => ?_, inc⟩
          rw [key, m]; simp
        · simp only [if_true]
          refine ⟨fun y => ?_, Increasing.cons.2 ⟨hlow, inc⟩⟩
          rw [key, List.mem_cons, m]; simp
      · rw [if_neg h1]
        by_cases h2 : lt c a = true
        · rw [if_pos h2]
          obtain ⟨m, inc⟩ := ihc hc'.2
          have hca : ∀ y ∈ a :: as, lt c y = true := by
            intro y hy
            rcases List.mem_cons.1 hy with rfl | hy
            · exact h2
            · exact W.trans _ _ _ h2 (ha'.1 y hy)
          have hnc : ¬ Has lt (a :: as) c := not_has_of_lt W hca
          have hlow : ∀ y ∈ walkInner lt l r b a as (walk lt l r b as) cs, lt c y = true := by
            intro y hy
            rcases (m y).1 hy with ⟨-, h, -⟩ | ⟨-, h, -⟩ | ⟨-, h, -⟩
            · exact hca y h
            · exact hc'.1 y h
            · exact hca y h
          have key : ∀ y, Kept lt l r b (a :: as) (c :: cs) y ↔ (r = true ∧ y = c) ∨ Kept lt l r b (a :: as) cs y := by
            intro y
            unfold Kept
            have hr : y ∈ a :: as → (Has lt (c :: cs) y ↔ Has lt cs y) := by
              intro hy
              rw [has_cons]
              have : ¬ Eqv lt y c := W.not_eqv_of_gt (hca y hy)
              tauto
            rw [List.mem_cons (a := y) (b := c)]
            constructor
            · rintro (⟨h, h', h''⟩ | ⟨h, rfl | h', h''⟩ | ⟨h, h', h''⟩)
              · exact .inr (.inl ⟨h, h', fun e => h'' ((hr h').2 e)⟩)
              · exact .inl ⟨h, rfl⟩
              · exact .inr (.inr (.inl ⟨h, h', h''⟩))
              · exact .inr (.inr (.inr ⟨h, h', (hr h').1 h''⟩))
            · rintro (⟨h, rfl⟩ | ⟨h, h', h''⟩ | ⟨h, h', h''⟩ | ⟨h, h', h''⟩)
              · exact .inr (.inl ⟨h, .inl rfl, hnc⟩)
              · exact .inl ⟨h, h', fun e => h'' ((hr h').1 e)⟩
              · exact .inr (.inl ⟨h, .inr h', h''⟩)
              · exact .inr (.inr ⟨h, h', (hr h').2 h''⟩)
          cases r
          · simp only [Bool.false_eq_true, if_false]
            refine ⟨fun y => ?_, inc⟩
            rw [key, m]; simp
          · simp only [if_true]
            refine ⟨fun y => ?_, Increasing.cons.2 ⟨hlow, inc⟩⟩
            rw [key, List.mem_cons, m]; simp
        · rw [if_neg h2]
          have e : Eqv lt a c := ⟨by simpa using h1, by simpa using h2⟩
          obtain ⟨m, inc⟩ := ih cs ha'.2 hc'.2
          have hac : ∀ y ∈ cs, lt a y = true := fun y hy => W.lt_of_eqv_lt e (hc'.1 y hy)
          have hca : ∀ y ∈ as, lt c y = true := fun y hy => W.lt_of_eqv_lt e.symm (ha'.1 y hy)
          have hlow : ∀ y ∈ walk lt l r b as cs, lt a y = true := by
            intro y hy
            rcases (m y).1 hy with ⟨-, h, -⟩ | ⟨-, h, -⟩ | ⟨-, h, -⟩
            · exact ha'.1 y h
            · exact hac y h
            · exact ha'.1 y h
          have key : ∀ y, Kept lt l r b (a :: as) (c :: cs) y ↔ (b = true ∧ y = a) ∨ Kept lt l r b as cs y := by
            intro y
            unfold Kept
            have r1 : y ∈ as → (Has lt (c :: cs) y ↔ Has lt cs y) := by
              intro hy
              rw [has_cons]
              have : ¬ Eqv lt y c := W.not_eqv_of_gt (hca y hy)
              tauto
            have r2 : y ∈ cs → (Has lt (a :: as) y ↔ Has lt as y) := by
              intro hy
              rw [has_cons]
              have : ¬ Eqv lt y a := W.not_eqv_of_gt (hac y hy)
              tauto
            have ha1 : Has lt (c :: cs) a := has_cons.2 (.inl e)
            have hc1 : Has lt (a :: as) c := has_cons.2 (.inl e.symm)
            rw [List.mem_cons (a := y) (b := c), List.mem_cons (a := y) (b := a)]
            constructor
            · rintro (⟨h, rfl | h', h''⟩ | ⟨h, rfl | h', h''⟩ | ⟨h, rfl | h', h''⟩)
              · exact absurd ha1 h''
              · exact .inr (.inl ⟨h, h', fun e => h'' ((r1 h').2 e)⟩)
              · exact absurd hc1 h''
              · exact .inr (.inr (.inl ⟨h, h', fun e => h'' ((r2 h').2 e)⟩))
              · exact .inl ⟨h, rfl⟩
              · exact .inr (.inr (.inr ⟨h, h', (r1 h').1 h''⟩))
            · rintro (⟨h, rfl⟩ | ⟨h, h', h''⟩ | ⟨h, h', h''⟩ | ⟨h, h', h''⟩)
              · exact .inr (.inr ⟨h, .inl rfl, ha1⟩)
              · exact .inl ⟨h, .inr h', fun e => h'' ((r1 h').1 e)⟩
              · exact .inr (.inl ⟨h, .inr h', fun e => h'' ((r2 h').1 e)⟩)
              · exact .inr (.inr ⟨h, .inr h', (r1 h').2 h''⟩)
          cases b
          · simp only [Bool.false_eq_true, if_false]
            refine ⟨fun y => ?_, inc⟩
            rw [key, m]; simp
          · simp only [if_true]
            refine ⟨fun y => ?_, Increasing.cons.2 ⟨hlow, inc⟩⟩
            rw [key, List.mem_cons, m]; simp

theorem insert_last (_W : StrictWeak lt) (x : α) : ∀ (s : List α), (∀ y ∈ s, lt y x = true) → insert lt x s = (s ++ [x], true) := by
  intro s
  induction s with
  | nil => intro _; rfl
  | cons y ys ih =>
    intro h
    unfold insert
    rw [if_pos (h y (by simp)), ih (fun z hz => h z (by simp [hz]))]
    rfl

/-- Inserting the elements of an increasing range behind smaller ones appends them. -/
theorem insertAll_increasing (W : StrictWeak lt) : ∀ (xs s : List α), Increasing lt (s ++ xs) → insertAll lt xs s = s ++ xs := by
  intro xs
  induction xs with
  | nil => intro s _; simp [insertAll]
  | cons x xs ih =>
    intro s h
    unfold insertAll
    rw [List.foldl_cons]
    have h1 : ∀ y ∈ s, lt y x = true := by
      intro y hy
      exact (List.pairwise_append.1 h).2.2 y hy x (by simp)
    rw [insert_last W x s h1]
    have := ih (s ++ [x]) (by simpa using h)
    unfold insertAll at this
    rw [this]; simp

theorem insertAll_spec (W : StrictWeak lt) : ∀ (xs s : List α), Increasing lt s →
    Increasing lt (insertAll lt xs s) ∧ (∀ y, Has lt (insertAll lt xs s) y ↔ Has lt s y ∨ Has lt xs y) ∧
    (∀ y ∈ s, y ∈ insertAll lt xs s) ∧ (∀ y ∈ insertAll lt xs s, y ∈ s ∨ y ∈ xs) := by
  intro xs
  induction xs with
  | nil => intro s h; exact ⟨h, fun y => by simp [insertAll, has_nil], fun y hy => hy, fun y hy => .inl hy⟩
  | cons x xs ih =>
    intro s h
    obtain ⟨m, -, inc, -⟩ := insert_mem W x s h
    obtain ⟨i1, i2, i3, i4⟩ := ih (insert lt x s).1 inc
    have e : insertAll lt (x :: xs) s = insertAll lt xs (insert lt x s).1 := rfl
    rw [e]
    refine ⟨i1, fun y => ?_, fun y hy => i3 y ((m y).2 (.inl hy)), fun y hy => ?_⟩
    · rw [i2, has_cons]
      have : Has lt (insert lt x s).1 y ↔ Has lt s y ∨ Eqv lt y x := by
        constructor
        · rintro ⟨z, hz, ez⟩
          rcases (m z).1 hz with hz | ⟨rfl, -⟩
          · exact .inl ⟨z, hz, ez⟩
          · exact .inr ez
        · rintro (⟨z, hz, ez⟩ | ez)
          · exact ⟨z, (m z).2 (.inl hz), ez⟩
          · by_cases hx : Has lt s x
            · obtain ⟨w, hw, ew⟩ := hx
              exact ⟨w, (m w).2 (.inl hw), W.eqv_trans ez ew⟩
            · exact ⟨x, (m x).2 (.inr ⟨rfl, hx⟩), ez⟩
      rw [this]; tauto
    · rcases i4 y hy with hy | hy
      · rcases (m y).1 hy with hy | ⟨rfl, -⟩
        · exact .inl hy
        · exact .inr (by simp)
      · exact .inr (by simp [hy])

end Tree
end Pyincpp

namespace Pyincpp

variable {α : Type} {lt : α → α → Bool}

namespace Tree

theorem includes_length : ∀ (t s : List α), includes lt t s = true → s.length ≤ t.length := by
  intro t
  induction t with
  | nil => intro s h; cases s with
    | nil => simp
    | cons b bs => simp [includes] at h
  | cons a as ih =>
    intro s h
    cases s with
    | nil => simp
    | cons b bs =>
      unfold includes at h
      split at h
      · cases h
      · split at h
        · have := ih bs h; simp; omega
        · have := ih (b :: bs) h; simp at this ⊢; omega

theorem includes_swap : ∀ (t s : List α), includes lt t s = true → s.length = t.length → includes lt s t = true := by
  intro t
  induction t with
  | nil => intro s h _; cases s with
    | nil => rfl
    | cons b bs => simp [includes] at h
  | cons a as ih =>
    intro s h hl
    cases s with
    | nil => simp at hl
    | cons b bs =>
      unfold includes at h
      split at h
      · cases h
      · rename_i h1
        split at h
        · rename_i h2
          unfold includes
          rw [if_neg (by simpa using h2), if_pos (by simpa using h1)]
          exact ih bs h (by simpa using hl)
        · have := includes_length _ _ h
          simp at this hl; omega

end Tree

section linear

variable {α : Type} [LinearOrder α]

theorem ltOf_strictWeak : StrictWeak (ltOf : α → α → Bool) where
  irrefl a := by simp [ltOf]
  trans a b c := by simp only [ltOf, decide_eq_true_eq]; exact lt_trans
  incomp a b c := by
    simp only [ltOf, decide_eq_false_iff_not, not_lt]
    intro h1 h2 h3 h4
    exact ⟨le_trans h3 h1, le_trans h2 h4⟩

theorem eqv_ltOf {a b : α} : Eqv ltOf a b ↔ a = b := by
  simp only [Eqv, ltOf, decide_eq_false_iff_not, not_lt]
  exact ⟨fun h => le_antisymm h.2 h.1, fun h => by subst h; exact ⟨le_refl _, le_refl _⟩⟩

theorem has_ltOf {s : List α} {x : α} : Has ltOf s x ↔ x ∈ s := by
  simp [Has, eqv_ltOf]

theorem increasing_ltOf {s : List α} : Increasing ltOf s ↔ s.Pairwise (· < ·) := by
  simp [Increasing, ltOf]

theorem Increasing.nodup {s : List α} (h : Increasing ltOf s) : s.Nodup :=
  (increasing_ltOf.1 h).imp (fun h => ne_of_lt h)

theorem Increasing.card {s : List α} (h : Increasing ltOf s) : s.toFinset.card = s.length :=
  List.toFinset_card_of_nodup h.nodup

/-- A set of a linearly ordered type is determined by its members. -/
theorem Increasing.ext {s t : List α} (hs : Increasing ltOf s) (ht : Increasing ltOf t) (h : ∀ x, x ∈ s ↔ x ∈ t) : s = t := by
  have hp : s.Perm t := (List.perm_ext_iff_of_nodup hs.nodup ht.nodup).2 h
  exact hp.eq_of_pairwise (fun a b _ _ h1 h2 => absurd h1 (not_lt_of_gt h2)) (increasing_ltOf.1 hs) (increasing_ltOf.1 ht)

end linear

end Pyincpp
