import Verif.Model.Compare
import Verif.Spec.Compare
import Verif.Props.IntBasic
import Verif.Props.Fraction
import Verif.Props.Set

/-! # C64, C65: the order of sequences, and which types of the library can be keys -/

namespace Pyincpp
namespace Cmp
variable {α : Type} {lt : α → α → Bool}

/-- The comparison of elements that never fails. -/
def pureLt (lt : α → α → Bool) (a b : α) : Res Bool := .ok (lt a b)

/-- The result of `<=>` as a function. -/
def lex3 (lt : α → α → Bool) : List α → List α → Ordering
  | [], [] => .eq
  | [], _ :: _ => .lt
  | _ :: _, [] => .gt
  | a :: as, b :: bs => if lt a b then .lt else if lt b a then .gt else lex3 lt as bs

theorem lexCmp_eq (l m : List α) : lexCmp (synth (pureLt lt)) l m = .ok (some (lex3 lt l m)) := by
  induction l generalizing m with
  | nil => cases m <;> rfl
  | cons a as ih =>
    cases m with
    | nil => rfl
    | cons b bs =>
      have e : synth (pureLt lt) a b = .ok (some (if lt a b then .lt else if lt b a then .gt else .eq)) := by
        unfold synth pureLt
        cases lt a b <;> cases lt b a <;> rfl
      unfold lexCmp lex3
      rw [e, Res.ok_bind, ih]
      cases lt a b <;> cases lt b a <;> rfl

theorem lex3_swap (W : StrictWeak lt) (l m : List α) : lex3 lt m l = (lex3 lt l m).swap := by
  induction l generalizing m with
  | nil => cases m <;> rfl
  | cons a as ih =>
    cases m with
    | nil => rfl
    | cons b bs =>
      unfold lex3
      cases h1 : lt a b <;> cases h2 : lt b a <;> simp [ih]
      have := W.trans _ _ _ h1 h2
      simp [W.irrefl] at this

theorem lex3_lt_iff (l m : List α) : lex3 lt l m = .lt ↔ LexBefore lt l m := by
  induction l generalizing m with
  | nil =>
    cases m with
    | nil =>
      simp only [lex3, LexBefore]
      constructor
      · intro h; cases h
      · rintro ⟨i, -, ⟨h1, h2⟩ | ⟨a, b, h, -⟩⟩
        · simp at h2
        · simp at h
    | cons b bs => exact ⟨fun _ => ⟨0, by simp, .inl ⟨rfl, by simp⟩⟩, fun _ => rfl⟩
  | cons a as ih =>
    cases m with
    | nil =>
      simp only [lex3, LexBefore]
      constructor
      · intro h; cases h
      · rintro ⟨i, -, ⟨h1, h2⟩ | ⟨a, b, -, h, -⟩⟩
        · simp at h2
        · simp at h
    | cons b bs =>
      unfold lex3
      cases h1 : lt a b
      · cases h2 : lt b a
        · simp only [Bool.false_eq_true, if_false]
          rw [ih]
          constructor
          · rintro ⟨i, hi, h⟩
            refine ⟨i + 1, fun j hj => ?_, ?_⟩
            · cases j with
              | zero => exact ⟨a, b, rfl, rfl, by simp [equivBy, h1, h2]⟩
              | succ j => simpa using hi j (by omega)
            · simpa using h
          · rintro ⟨i, hi, h⟩
            cases i with
            | zero =>
              rcases h with ⟨h, -⟩ | ⟨x, y, hx, hy, h⟩
              · simp at h
              · simp only [List.getElem?_cons_zero, Option.some.injEq] at hx hy
                subst hx hy
                simp [h1] at h
            | succ i =>
              refine ⟨i, fun j hj => by simpa using hi (j + 1) (by omega), by simpa using h⟩
        · simp only [Bool.false_eq_true, if_false, if_true]
          constructor
          · intro h; cases h
          · rintro ⟨i, hi, h⟩
            cases i with
            | zero =>
              rcases h with ⟨h, -⟩ | ⟨x, y, hx, hy, h⟩
              · simp at h
              · simp only [List.getElem?_cons_zero, Option.some.injEq] at hx hy
                subst hx hy
                simp [h1] at h
            | succ i =>
              obtain ⟨x, y, hx, hy, h⟩ := hi 0 (by omega)
              simp only [List.getElem?_cons_zero, Option.some.injEq] at hx hy
              subst hx hy
              simp [equivBy, h2] at h
      · simp only [if_true, true_iff]
        exact ⟨0, by simp, .inr ⟨a, b, rfl, rfl, h1⟩⟩

theorem lex3_eq_iff (l m : List α) : lex3 lt l m = .eq ↔ LexEquiv lt l m := by
  induction l generalizing m with
  | nil => cases m <;> simp [lex3, LexEquiv]
  | cons a as ih =>
    cases m with
    | nil => simp [lex3, LexEquiv]
    | cons b bs =>
      unfold lex3
      cases h1 : lt a b
      · cases h2 : lt b a
        · simp only [Bool.false_eq_true, if_false]
          rw [ih]
          constructor
          · rintro ⟨hl, h⟩
            refine ⟨by simp [hl], fun j x y hx hy => ?_⟩
            cases j with
            | zero =>
              simp only [List.getElem?_cons_zero, Option.some.injEq] at hx hy
              subst hx hy
              simp [equivBy, h1, h2]
            | succ j => exact h j x y (by simpa using hx) (by simpa using hy)
          · rintro ⟨hl, h⟩
            exact ⟨by simpa using hl, fun j x y hx hy => h (j + 1) x y (by simpa using hx) (by simpa using hy)⟩
        · simp only [Bool.false_eq_true, if_false, if_true]
          constructor
          · intro h; cases h
          · rintro ⟨-, h⟩
            have := h 0 a b rfl rfl
            simp [equivBy, h2] at this
      · simp only [if_true]
        constructor
        · intro h; cases h
        · rintro ⟨-, h⟩
          have := h 0 a b rfl rfl
          simp [equivBy, h1] at this

/-- The order on sequences. -/
def lexLt (lt : α → α → Bool) (l m : List α) : Bool := lex3 lt l m == .lt

theorem lex3_trans (W : StrictWeak lt) (l m n : List α) :
    (lex3 lt l m = .eq → lex3 lt l n = lex3 lt m n) ∧ (lex3 lt m n = .eq → lex3 lt l n = lex3 lt l m) ∧
    (lex3 lt l m = .lt → lex3 lt m n = .lt → lex3 lt l n = .lt) := by
  induction l generalizing m n with
  | nil => cases m <;> cases n <;> simp [lex3]
  | cons a as ih =>
    cases m with
    | nil => cases n <;> simp [lex3]
    | cons b bs =>
      cases n with
      | nil => simp [lex3]
      | cons c cs =>
        obtain ⟨i1, i2, i3⟩ := ih bs cs
        have I := W.incomp
        have T := W.trans
        have asym : ∀ x y, lt x y = true → lt y x = false := fun x y h => by
          cases h' : lt y x
          · rfl
          · have := T _ _ _ h h'
            simp [W.irrefl] at this
        have el : ∀ x y z, lt x y = false → lt y x = false → lt x z = lt y z := fun x y z h h' => by
          cases k : lt x z <;> cases k' : lt y z <;> try rfl
          · cases k2 : lt z x
            · have := I _ _ _ h' h k k2
              simp [k'] at this
            · have := T _ _ _ k' k2
              simp [h'] at this
          · cases k2 : lt z y
            · have := I _ _ _ h h' k' k2
              simp [k] at this
            · have := T _ _ _ k k2
              simp [h] at this
        have er : ∀ x y z, lt x y = false → lt y x = false → lt z x = lt z y := fun x y z h h' => by
          cases k : lt z x <;> cases k' : lt z y <;> try rfl
          · cases k2 : lt x z
            · have := I _ _ _ h' h k2 k
              simp [k'] at this
            · have := T _ _ _ k2 k'
              simp [h] at this
          · cases k2 : lt y z
            · have := I _ _ _ h h' k2 k'
              simp [k] at this
            · have := T _ _ _ k2 k
              simp [h'] at this
        unfold lex3
        refine ⟨fun h => ?_, fun h => ?_, fun h h' => ?_⟩
        · cases h1 : lt a b <;> simp only [h1, if_true, Bool.false_eq_true, if_false] at h
          · cases h2 : lt b a <;> simp only [h2, if_true, Bool.false_eq_true, if_false] at h
            · rw [el a b c h1 h2, er a b c h1 h2, i1 h]
            · cases h
          · cases h
        · cases h1 : lt b c <;> simp only [h1, if_true, Bool.false_eq_true, if_false] at h
          · cases h2 : lt c b <;> simp only [h2, if_true, Bool.false_eq_true, if_false] at h
            · rw [el b c a h1 h2, er b c a h1 h2, i2 h]
            · cases h
          · cases h
        · cases h1 : lt a b
          · cases h2 : lt b a
            · simp only [h1, h2, Bool.false_eq_true, if_false] at h
              rw [el a b c h1 h2, er a b c h1 h2]
              cases h3 : lt b c
              · cases h4 : lt c b
                · simp only [h3, h4, Bool.false_eq_true, if_false] at h' ⊢
                  exact i3 h h'
                · simp [h3, h4] at h'
              · simp
            · simp [h1, h2] at h
          · cases h3 : lt b c
            · cases h4 : lt c b
              · rw [← er b c a h3 h4, h1]; simp
              · simp [h3, h4] at h'
            · rw [T _ _ _ h1 h3]; simp

theorem lexLt_strictWeak (W : StrictWeak lt) : StrictWeak (lexLt lt) where
  irrefl l := by
    have := lex3_swap W l l
    unfold lexLt
    cases h : lex3 lt l l <;> simp_all
  trans l m n h h' := by
    unfold lexLt at *
    simp only [beq_iff_eq] at *
    exact (lex3_trans W l m n).2.2 h h'
  incomp l m n h1 h2 h3 h4 := by
    unfold lexLt at *
    have e1 : lex3 lt l m = .eq := by
      have := lex3_swap W l m
      cases h : lex3 lt l m <;> simp_all
    have e2 : lex3 lt m n = .eq := by
      have := lex3_swap W m n
      cases h : lex3 lt m n <;> simp_all
    have e3 : lex3 lt l n = .eq := by rw [(lex3_trans W l m n).1 e1, e2]
    rw [lex3_swap W l n, e3]
    simp

theorem lexLt_strictTotal (W : StrictTotal lt) : StrictTotal (lexLt lt) where
  toStrictWeak := lexLt_strictWeak W.toStrictWeak
  eq_of_equiv l m h := by
    have e : lex3 lt l m = .eq := by
      have := lex3_swap W.toStrictWeak l m
      unfold equivBy lexLt at h
      cases h' : lex3 lt l m <;> simp_all
    obtain ⟨hl, h⟩ := (lex3_eq_iff l m).1 e
    refine List.ext_getElem hl fun j h1 h2 => ?_
    exact W.eq_of_equiv _ _ (h j _ _ (List.getElem?_eq_getElem h1) (List.getElem?_eq_getElem h2))

theorem eqLoop_eq [DecidableEq α] : ∀ l m : List α, l.length = m.length → eqLoop (fun a b => decide (a = b)) l m = decide (l = m)
  | [], [], _ => by simp [eqLoop]
  | a :: as, b :: bs, h => by
    unfold eqLoop
    rw [eqLoop_eq as bs (by simpa using h)]
    by_cases e : a = b <;> simp [e]

end Cmp

open Cmp

section C64
variable {α : Type} {lt : α → α → Bool}

/-- C64 for `List` and `Deque` (their `<=>` is the same algorithm): for elements with a strict weak order, `<` is the order of
dictionaries, `>` its converse, `<=` and `>=` their negations. -/
theorem C64_seq_less_partial (W : StrictWeak lt) (l m : List α) :
    (∃ b, Cmp.lss (synth (pureLt lt)) l m = .ok b ∧ (b = true ↔ LexBefore lt l m)) ∧
    (∃ b, Cmp.gtr (synth (pureLt lt)) l m = .ok b ∧ (b = true ↔ LexBefore lt m l)) ∧
    (∃ b, Cmp.le (synth (pureLt lt)) l m = .ok b ∧ (b = true ↔ ¬ LexBefore lt m l)) ∧
    (∃ b, Cmp.ge (synth (pureLt lt)) l m = .ok b ∧ (b = true ↔ ¬ LexBefore lt l m)) := by
  rw [← lex3_lt_iff, ← lex3_lt_iff, lex3_swap W l m]
  unfold Cmp.lss Cmp.gtr Cmp.le Cmp.ge
  rw [lexCmp_eq]
  refine ⟨⟨_, rfl, ?_⟩, ⟨_, rfl, ?_⟩, ⟨_, rfl, ?_⟩, ⟨_, rfl, ?_⟩⟩ <;> cases lex3 lt l m <;> decide

/-- C64: if moreover only equal elements are equivalent, exactly one of `l < m`, `l == m`, `l > m` holds, and `==` is equality of
the sequences. -/
theorem C64_seq_equal [DecidableEq α] (W : StrictTotal lt) (l m : List α) :
    Cmp.seqEq (fun a b => decide (a = b)) l m = decide (l = m) ∧
    (Cmp.seqEq (fun a b => decide (a = b)) l m = true ↔
      Cmp.lss (synth (pureLt lt)) l m = .ok false ∧ Cmp.gtr (synth (pureLt lt)) l m = .ok false) ∧
    ¬ (Cmp.lss (synth (pureLt lt)) l m = .ok true ∧ Cmp.gtr (synth (pureLt lt)) l m = .ok true) := by
  have e : Cmp.seqEq (fun a b => decide (a = b)) l m = decide (l = m) := by
    unfold seqEq
    by_cases h : l.length = m.length
    · rw [eqLoop_eq l m h]; simp [h]
    · have : l ≠ m := fun h' => h (by rw [h'])
      simp [h, this]
  have h3 : l = m ↔ lex3 lt l m = .eq := by
    constructor
    · rintro rfl
      have := lex3_swap W.toStrictWeak l l
      cases h : lex3 lt l l <;> simp_all
    · intro h
      apply (lexLt_strictTotal W).eq_of_equiv
      unfold equivBy lexLt
      rw [lex3_swap W.toStrictWeak l m, h]
      decide
  rw [e]
  unfold Cmp.lss Cmp.gtr
  rw [lexCmp_eq]
  simp only [decide_eq_true_eq, h3]
  refine ⟨trivial, ?_, ?_⟩ <;> cases lex3 lt l m <;> decide

/-- C64: `<` on sequences is again a strict weak (total) order, so sequences of sequences compare in the same way. -/
theorem C64_seq_order : (StrictWeak lt → StrictWeak (lexLt lt)) ∧ (StrictTotal lt → StrictTotal (lexLt lt)) ∧
    ∀ l m : List α, Cmp.lss (synth (pureLt lt)) l m = pureLt (lexLt lt) l m := by
  refine ⟨lexLt_strictWeak, lexLt_strictTotal, fun l m => ?_⟩
  unfold Cmp.lss
  rw [lexCmp_eq]
  show Res.ok _ = Res.ok _
  unfold lexLt
  cases lex3 lt l m <;> rfl

end C64

theorem intLt_total : StrictTotal (fun a b : Int => decide (a < b)) where
  irrefl := by simp
  trans := by simp only [decide_eq_true_eq]; omega
  incomp := by simp only [decide_eq_false_iff_not]; omega
  eq_of_equiv a b := by simp only [equivBy, Bool.and_eq_true, Bool.not_eq_true', decide_eq_false_iff_not]; omega

example : LexBefore (fun a b : Int => decide (a < b)) [1, 2] [1, 2, 0] ∧
    Cmp.lss (synth (pureLt (fun a b : Int => decide (a < b)))) [1, 2] [1, 2, 0] = .ok true ∧
    Cmp.gtr (synth (pureLt (fun a b : Int => decide (a < b)))) [2] [1, 7] = .ok true :=
  ⟨(lex3_lt_iff _ _).1 (by decide), by decide, by decide⟩

theorem byteLt_total : StrictTotal (fun a b : UInt8 => decide (a < b)) where
  irrefl := by simp
  trans a b c := by simp only [decide_eq_true_eq, UInt8.lt_iff_toNat_lt]; omega
  incomp a b c := by simp only [decide_eq_false_iff_not, UInt8.lt_iff_toNat_lt]; omega
  eq_of_equiv a b := by
    simp only [equivBy, Bool.and_eq_true, Bool.not_eq_true', decide_eq_false_iff_not, UInt8.lt_iff_toNat_lt]
    intro h
    exact UInt8.toNat_inj.1 (by omega)

namespace Str

theorem memcmp_spec : ∀ s t : List UInt8, ∃ c, memcmp (min s.length t.length) s t = .ok c ∧
    (lex3 (fun a b : UInt8 => decide (a < b)) s t = if c < 0 then .lt else if 0 < c then .gt else
      if s.length < t.length then .lt else if t.length < s.length then .gt else .eq)
  | [], t => by
    refine ⟨0, by simp [memcmp], ?_⟩
    cases t <;> simp [lex3]
  | a :: s, [] => ⟨0, by simp [memcmp], by simp [lex3]⟩
  | a :: s, b :: t => by
    obtain ⟨c, h1, h2⟩ := memcmp_spec s t
    have e : min (a :: s).length (b :: t).length = min s.length t.length + 1 := by simp
    rw [e]
    unfold memcmp lex3
    by_cases h : a < b
    · exact ⟨-1, by simp [h], by simp [h]⟩
    · by_cases h' : b < a
      · exact ⟨1, by simp [h, h'], by simp [h, h']⟩
      · refine ⟨c, by simpa [h, h'] using h1, ?_⟩
        simpa [h, h'] using h2

theorem compare_spec (s t : List UInt8) : ∃ c, compare s t = .ok c ∧
    lex3 (fun a b : UInt8 => decide (a < b)) s t = if c < 0 then .lt else if 0 < c then .gt else .eq := by
  obtain ⟨c, h1, h2⟩ := memcmp_spec s t
  unfold compare
  rw [h1, Res.ok_bind]
  by_cases h : c = 0
  · rw [if_pos h]
    refine ⟨_, rfl, ?_⟩
    rw [h2, h]
    unfold INT_MIN INT_MAX
    rcases Nat.lt_trichotomy s.length t.length with hl | hl | hl
    · rw [if_neg (by omega), if_neg (by omega), if_pos hl, if_pos (by omega)]
    · rw [if_neg (by omega), if_neg (by omega), if_neg (by omega), if_neg (by omega), if_neg (by omega), if_neg (by omega)]
    · rw [if_neg (by omega), if_neg (by omega), if_neg (by omega), if_pos hl, if_neg (by omega), if_pos (by omega)]
  · rw [if_neg h]
    refine ⟨_, rfl, ?_⟩
    rw [h2]
    rcases Int.lt_trichotomy c 0 with hc | hc | hc
    · simp [hc]
    · exact absurd hc h
    · rw [if_neg (by omega), if_pos hc, if_neg (by omega), if_pos hc]

end Str

/-- C64 for `Str`: the order of dictionaries on bytes as numbers 0..255; `==` is equality. -/
theorem C64_str (s t : List UInt8) :
    (∃ b, Str.lss s t = .ok b ∧ (b = true ↔ LexBefore (fun a b : UInt8 => decide (a < b)) s t)) ∧
    (∃ b, Str.gtr s t = .ok b ∧ (b = true ↔ LexBefore (fun a b : UInt8 => decide (a < b)) t s)) ∧
    (∃ b, Str.le s t = .ok b ∧ (b = true ↔ s = t ∨ LexBefore (fun a b : UInt8 => decide (a < b)) s t)) ∧
    (∃ b, Str.ge s t = .ok b ∧ (b = true ↔ s = t ∨ LexBefore (fun a b : UInt8 => decide (a < b)) t s)) ∧
    Str.eq s t = .ok (decide (s = t)) := by
  have W := byteLt_total
  obtain ⟨c, h1, h2⟩ := Str.compare_spec s t
  have h3 : s = t ↔ c = 0 := by
    have : s = t ↔ lex3 (fun a b : UInt8 => decide (a < b)) s t = .eq := by
      constructor
      · rintro rfl
        have := lex3_swap W.toStrictWeak s s
        revert this
        cases lex3 (fun a b : UInt8 => decide (a < b)) s s <;> decide
      · intro h
        apply (lexLt_strictTotal W).eq_of_equiv
        unfold equivBy lexLt
        rw [lex3_swap W.toStrictWeak s t, h]
        decide
    rw [this, h2]
    split
    · simp; omega
    · split
      · simp; omega
      · simp; omega
  rw [← lex3_lt_iff, ← lex3_lt_iff, lex3_swap W.toStrictWeak s t, h2]
  refine ⟨?_, ?_, ?_, ?_, ?_⟩
  · unfold Str.lss; rw [h1]; refine ⟨_, rfl, ?_⟩
    rw [decide_eq_true_eq]; split <;> [skip; split] <;> simp <;> omega
  · unfold Str.gtr; rw [h1]; refine ⟨_, rfl, ?_⟩
    rw [decide_eq_true_eq]; split <;> [skip; split] <;> simp <;> omega
  · rw [h3]; unfold Str.le; rw [h1]; refine ⟨_, rfl, ?_⟩
    rw [decide_eq_true_eq]; split <;> [skip; split] <;> simp <;> omega
  · rw [h3]; unfold Str.ge; rw [h1]; refine ⟨_, rfl, ?_⟩
    rw [decide_eq_true_eq]; split <;> [skip; split] <;> simp <;> omega
  · unfold Str.eq
    obtain ⟨c', k1, k2⟩ := Str.memcmp_spec s t
    by_cases hl : s.length = t.length
    · rw [if_pos hl]
      rw [hl, Nat.min_self] at k1
      rw [hl, k1, Res.ok_bind]
      show Res.ok _ = Res.ok _
      congr 1
      rw [decide_eq_decide, h3]
      rw [h2] at k2
      simp only [hl, Nat.lt_irrefl, if_false] at k2
      by_cases a1 : c < 0 <;> by_cases a2 : 0 < c <;> by_cases a3 : c' < 0 <;> by_cases a4 : 0 < c' <;>
        simp [a1, a2, a3, a4] at k2 <;> omega
    · rw [if_neg hl]
      have : s ≠ t := fun h => hl (by rw [h])
      simp [this]

example : Str.lss [97] [97, 0] = .ok true ∧ Str.gtr [200] [65, 66] = .ok true := by decide

/-- C64 fails for elements whose `<` is not such an order: neither of the lists `[{1}]` and `[{2}]` of sets is less than the
other, both are `<=` the other, and they are not equal. -/
theorem C64_set_elements_not : ∃ l m : List (List Int),
    (∀ s ∈ l ++ m, Increasing (fun a b : Int => decide (a < b)) s) ∧ l ≠ m ∧
    Cmp.seqEq (PSet.eq (α := Int)) l m = false ∧
    Cmp.lss (synth (pureLt (PSet.lss (fun a b : Int => decide (a < b))))) l m = .ok false ∧
    Cmp.gtr (synth (pureLt (PSet.lss (fun a b : Int => decide (a < b))))) l m = .ok false ∧
    Cmp.le (synth (pureLt (PSet.lss (fun a b : Int => decide (a < b))))) l m = .ok true := by
  refine ⟨[[1]], [[2]], ?_, by decide, by decide, by decide, by decide, by decide⟩
  intro s hs
  simp only [List.cons_append, List.nil_append, List.mem_cons, List.not_mem_nil, or_false] at hs
  rcases hs with rfl | rfl <;> exact List.pairwise_singleton _ _

/-- C64 fails for `List<double>` holding NaN: the list is neither less than, nor greater than, nor equal to itself. -/
theorem C64_double_not : ∃ l : List Dbl, Cmp.seqEq Dbl.eq l l = false ∧ Cmp.le Cmp.ofDbl l l = .ok false ∧
    Cmp.ge Cmp.ofDbl l l = .ok false :=
  ⟨[.nan], by decide, by decide, by decide⟩

/-- The `double` that is an extended number: ⊥ and ⊤ are the infinities. -/
def ofExt : WithBot (WithTop ℚ) → Dbl
  | ⊥ => .inf true
  | (⊤ : WithTop ℚ) => .inf false
  | ((q : ℚ) : WithTop ℚ) => .fin q

theorem ofExt_lt (a b : WithBot (WithTop ℚ)) : Dbl.lt (ofExt a) (ofExt b) = decide (a < b) := by
  induction a with
  | bot => induction b with
    | bot => simp [ofExt, Dbl.lt]
    | coe b => induction b <;> simp [ofExt, Dbl.lt]
  | coe a => induction a with
    | top => induction b with
      | bot => simp [ofExt, Dbl.lt]
      | coe b => induction b <;> simp [ofExt, Dbl.lt]
    | coe a => induction b with
      | bot => simp [ofExt, Dbl.lt]
      | coe b => induction b with
        | top => simpa [ofExt, Dbl.lt] using WithBot.coe_lt_coe.2 (WithTop.coe_lt_top a)
        | coe b => simp [ofExt, Dbl.lt]

theorem ofExt_eq (a b : WithBot (WithTop ℚ)) : Dbl.eq (ofExt a) (ofExt b) = decide (a = b) := by
  induction a with
  | bot => induction b with
    | bot => simp [ofExt, Dbl.eq]
    | coe b => induction b <;> simp [ofExt, Dbl.eq]
  | coe a => induction a with
    | top => induction b with
      | bot => simp [ofExt, Dbl.eq]
      | coe b => induction b <;> simp [ofExt, Dbl.eq]
    | coe a => induction b with
      | bot => simp [ofExt, Dbl.eq]
      | coe b => induction b <;> simp [ofExt, Dbl.eq]

theorem ofExt_cmp (a b : WithBot (WithTop ℚ)) : Cmp.ofDbl (ofExt a) (ofExt b) = synth (pureLt fun a b => decide (a < b)) a b := by
  unfold Cmp.ofDbl synth pureLt
  rw [ofExt_lt, ofExt_lt, ofExt_eq]
  rcases lt_trichotomy a b with h | h | h
  · simp [h]
  · subst h; simp
  · simp [h, not_lt_of_gt h]

theorem ofExt_lexCmp : ∀ l m : List (WithBot (WithTop ℚ)),
    lexCmp Cmp.ofDbl (l.map ofExt) (m.map ofExt) = lexCmp (synth (pureLt fun a b => decide (a < b))) l m
  | [], [] => rfl
  | [], _ :: _ => rfl
  | _ :: _, [] => rfl
  | a :: as, b :: bs => by simp only [List.map_cons, lexCmp, ofExt_cmp, ofExt_lexCmp as bs]

theorem ofExt_eqLoop : ∀ l m : List (WithBot (WithTop ℚ)), eqLoop Dbl.eq (l.map ofExt) (m.map ofExt) = eqLoop (fun a b => decide (a = b)) l m
  | [], _ => by simp [eqLoop]
  | _ :: _, [] => rfl
  | a :: as, b :: bs => by simp only [List.map_cons, eqLoop, ofExt_eq, ofExt_eqLoop as bs]

/-- C64 for `List<double>` without NaN, infinite elements included: `<` is the order of dictionaries on the numbers, and `==` is equality. -/
theorem C64_double_partial (l m : List (WithBot (WithTop ℚ))) :
    (∃ b, Cmp.lss Cmp.ofDbl (l.map ofExt) (m.map ofExt) = .ok b ∧ (b = true ↔ LexBefore (fun a b => decide (a < b)) l m)) ∧
    (∃ b, Cmp.gtr Cmp.ofDbl (l.map ofExt) (m.map ofExt) = .ok b ∧ (b = true ↔ LexBefore (fun a b => decide (a < b)) m l)) ∧
    (∃ b, Cmp.le Cmp.ofDbl (l.map ofExt) (m.map ofExt) = .ok b ∧ (b = true ↔ ¬ LexBefore (fun a b => decide (a < b)) m l)) ∧
    (∃ b, Cmp.ge Cmp.ofDbl (l.map ofExt) (m.map ofExt) = .ok b ∧ (b = true ↔ ¬ LexBefore (fun a b => decide (a < b)) l m)) ∧
    Cmp.seqEq Dbl.eq (l.map ofExt) (m.map ofExt) = decide (l = m) := by
  have W : StrictTotal (fun a b : WithBot (WithTop ℚ) => decide (a < b)) :=
    { irrefl := by simp
      trans := fun a b c h h' => by simp only [decide_eq_true_eq] at *; exact lt_trans h h'
      incomp := fun a b c h1 h2 h3 h4 => by
        simp only [decide_eq_false_iff_not, not_lt] at *
        exact ⟨le_trans h3 h1, le_trans h2 h4⟩
      eq_of_equiv := fun a b h => by simp [equivBy] at h; exact le_antisymm h.2 h.1 }
  have H := C64_seq_less_partial W.toStrictWeak l m
  have H2 := (C64_seq_equal W l m).1
  unfold Cmp.lss Cmp.gtr Cmp.le Cmp.ge seqEq at *
  rw [ofExt_lexCmp, ofExt_eqLoop, List.length_map, List.length_map]
  exact ⟨H.1, H.2.1, H.2.2.1, H.2.2.2, H2⟩

/-- `[1, inf] < [inf]`. -/
example : Cmp.lss Cmp.ofDbl ([((1 : ℚ) : WithTop ℚ), (⊤ : WithTop ℚ)].map ofExt) ([(⊤ : WithTop ℚ)].map ofExt) = .ok true := by
  decide +kernel

/-! ## C65 -/

/-- C65 for `Int`: on the values of the class, `<` is the total order of the integers. -/
theorem C65_int : ∃ lt : ℤ → ℤ → Bool, StrictTotal lt ∧ ∀ x y : ℤ, BInt.lt (enc x) (enc y) = .ok (lt x y) :=
  ⟨fun a b => decide (a < b), intLt_total, fun x y => (C09_order x y).2.1⟩

/-- C65 for `Str`. -/
theorem C65_str : ∃ lt : List UInt8 → List UInt8 → Bool, StrictTotal lt ∧ ∀ s t, Str.lss s t = .ok (lt s t) := by
  refine ⟨lexLt (fun a b : UInt8 => decide (a < b)), lexLt_strictTotal byteLt_total, fun s t => ?_⟩
  obtain ⟨c, h1, h2⟩ := Str.compare_spec s t
  unfold Str.lss lexLt
  rw [h1, h2]
  show Res.ok _ = Res.ok _
  congr 1
  split <;> [skip; split] <;> simp <;> omega

/-- C65 for `List<T>` and `Deque<T>`, for every `T` with such an order, hence also for lists of lists and so on. -/
theorem C65_seq {α : Type} (lt : α → α → Bool) (W : StrictTotal lt) :
    ∃ lt' : List α → List α → Bool, StrictTotal lt' ∧ ∀ l m, Cmp.lss (synth (pureLt lt)) l m = .ok (lt' l m) :=
  ⟨lexLt lt, lexLt_strictTotal W, C64_seq_order.2.2⟩

example : StrictTotal (lexLt (lexLt (fun a b : Int => decide (a < b)))) :=
  lexLt_strictTotal (lexLt_strictTotal intLt_total)

/-- C65 for `Fraction`: on the fractions with both parts up to 32767. Missing: larger ones, whose comparison can
overflow (`C65_fraction_not`). -/
theorem C65_fraction_partial : ∃ lt : Frac → Frac → Bool,
    (∀ x y : Frac, x.Valid → y.Valid → |x.num| ≤ 32767 → x.den ≤ 32767 → |y.num| ≤ 32767 → y.den ≤ 32767 →
      Frac.lss x y = .ok (lt x y)) ∧
    StrictWeak lt ∧ ∀ x y : Frac, x.Valid → y.Valid → equivBy lt x y = true → x = y := by
  refine ⟨fun x y => decide (x.val < y.val), fun x y hx hy a b c d => ?_, ⟨?_, ?_, ?_⟩, ?_⟩
  · refine ((C52_less_partial hx hy).1 ⟨?_, ?_, ?_⟩).1
    all_goals
      have := abs_le.1 a
      have := abs_le.1 c
      have := hx.pos
      have := hy.pos
      have h1 : |x.num * y.den| ≤ 32767 * 32767 := by
        rw [abs_mul]; exact mul_le_mul a (by rw [abs_of_pos hy.pos]; exact d) (abs_nonneg _) (by norm_num)
      have h2 : |x.den * y.num| ≤ 32767 * 32767 := by
        rw [abs_mul]; exact mul_le_mul (by rw [abs_of_pos hx.pos]; exact b) c (abs_nonneg _) (by norm_num)
      rw [abs_le] at h1 h2
      unfold IsInt INT_MIN INT_MAX
      omega
  · intro a; simp
  · intro a b c; simp only [decide_eq_true_eq]; exact lt_trans
  · intro a b c; simp only [decide_eq_false_iff_not, not_lt]
    intro h1 h2 h3 h4
    exact ⟨le_trans h3 h1, le_trans h2 h4⟩
  · intro x y hx hy h
    simp only [equivBy, Bool.and_eq_true, Bool.not_eq_true', decide_eq_false_iff_not, not_lt] at h
    exact (C49_unique hx hy).1 (le_antisymm h.2 h.1)

example : Frac.lss ⟨1, 3⟩ ⟨1, 2⟩ = .ok true ∧ (⟨1, 3⟩ : Frac).Valid :=
  ⟨by decide, ⟨by decide, isCoprime_one_left, by decide, by decide⟩⟩

/-- C65 fails for `Fraction`: comparing two keys can overflow. -/
theorem C65_fraction_not : ∃ x y : Frac, x.Valid ∧ y.Valid ∧ Frac.lss x y = .ub .overflow := C52_less_not

/-- C65 fails for `Set<T>`: `<` means proper subset, and being incomparable is not transitive. -/
theorem C65_set_not : ¬ StrictWeak (PSet.lss (fun a b : Int => decide (a < b))) := by
  intro W
  have := (W.incomp [1] [2] [1, 3] (by decide) (by decide) (by decide) (by decide)).1
  revert this
  decide

/-- What follows for a `Set<Set<int>>` holding `{1}`: it claims to contain `{2}`, and `{2}` cannot be added. (With one element the
search is a single comparison in each direction, whatever the shape of the tree.) -/
theorem C65_set_of_sets_not :
    PSet.contains (PSet.lss (fun a b : Int => decide (a < b))) [[1]] [2] = true ∧
    PSet.add (PSet.lss (fun a b : Int => decide (a < b))) [2] [[1]] = (.ok false, [[1]]) := by
  decide

end Pyincpp
