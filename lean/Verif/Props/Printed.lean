import Verif.Spec.Printed
import Verif.Props.IntBasic
import Verif.Props.TuplePrint
import Verif.Props.FractionStream
import Verif.Props.DoubleText

/-! # C105: different values print differently -/

namespace Pyincpp
open BInt

variable {α β : Type}

theorem span_unique {p : α → Prop} {a b r r' : List α} (ha : ∀ c ∈ a, p c) (hb : ∀ c ∈ b, p c)
    (hr : ∀ c t, r = c :: t → ¬ p c) (hr' : ∀ c t, r' = c :: t → ¬ p c) (h : a ++ r = b ++ r') : a = b ∧ r = r' := by
  induction a generalizing b with
  | nil =>
    cases b with
    | nil => exact ⟨rfl, h⟩
    | cons y b => exact absurd (hb y (by simp)) (hr y (b ++ r') h)
  | cons x a ih =>
    cases b with
    | nil => exact absurd (ha x (by simp)) (hr' x (a ++ r) h.symm)
    | cons y b =>
      rw [List.cons_append, List.cons_append, List.cons.injEq] at h
      obtain ⟨h1, h2⟩ := ih (fun c hc => ha c (by simp [hc])) (fun c hc => hb c (by simp [hc])) h.2
      exact ⟨by rw [h.1, h1], h2⟩

theorem ends_nil : EndsElem [] := fun c t h => by cases h
theorem ends_cons {c : UInt8} (h : IsEnd c) (t : List UInt8) : EndsElem (c :: t) := fun _ _ e => by cases e; exact h

/-- C105: what `Clear` is for. Values whose texts can be told apart have different texts. -/
theorem C105_different {P : α → Prop} {shown : α → List UInt8} (h : Clear P shown) {x y : α} (hx : P x) (hy : P y) :
    shown x = shown y ↔ x = y :=
  ⟨fun e => (h.apart x y [] [] hx hy ends_nil ends_nil (by rw [e])).1, fun e => e ▸ rfl⟩

theorem numeral_chars (z : ℤ) : ∀ c ∈ numeral z, IsDigit c ∨ c = 45 := by
  intro c hc
  unfold numeral at hc
  split at hc
  · rcases List.mem_cons.1 hc with rfl | hc
    · exact .inr rfl
    · exact .inl (natNumeral_digits _ c hc)
  · exact .inl (natNumeral_digits _ c hc)

theorem numeral_ne_nil (z : ℤ) : numeral z ≠ [] := by
  unfold numeral
  split
  · simp
  · exact natNumeral_ne_nil _

theorem numeral_injective : Function.Injective numeral := by
  intro a b h
  obtain ⟨t, h1, h2⟩ := C02_print_parse a
  obtain ⟨t', h1', h2'⟩ := C02_print_parse b
  rw [C01_print_canonical] at h1 h1'
  have e1 := Res.ok.inj h1
  have e2 := Res.ok.inj h1'
  rw [← e1, h, e2, h2'] at h2
  exact (enc_injective (Res.ok.inj h2)).symm

theorem not_end_of_digit {c : UInt8} (h : IsDigit c ∨ c = 45 ∨ c = 47) : ¬ IsEnd c := by
  unfold IsEnd
  rintro (rfl | rfl | rfl | rfl | rfl | rfl) <;> revert h <;> unfold IsDigit <;> decide

theorem clear_of_chars {P : α → Prop} {shown : α → List UInt8} (hne : ∀ x, P x → shown x ≠ [])
    (hch : ∀ x, P x → ∀ c ∈ shown x, IsDigit c ∨ c = 45 ∨ c = 47) (hinj : ∀ x y, P x → P y → shown x = shown y → x = y) :
    Clear P shown where
  start x hx := by
    cases e : shown x with
    | nil => exact absurd e (hne x hx)
    | cons c t => exact ⟨c, t, rfl, not_end_of_digit (hch x hx c (by rw [e]; simp))⟩
  apart x y r r' hx hy hr hr' h := by
    obtain ⟨h1, h2⟩ := span_unique (hch x hx) (hch y hy)
      (fun c t e h => not_end_of_digit h (hr c t e)) (fun c t e h => not_end_of_digit h (hr' c t e)) h
    exact ⟨hinj x y hx hy h1, h2⟩

/-- C105 for `Int` (and `int`): the printed texts can be told apart. -/
theorem C105_int : (∀ z, BInt.print (enc z) = .ok (numeral z)) ∧ Clear (fun _ => True) numeral :=
  ⟨C01_print_canonical, clear_of_chars (fun z _ => numeral_ne_nil z)
    (fun z _ c hc => (numeral_chars z c hc).imp id .inl) (fun _ _ _ _ h => numeral_injective h)⟩

/-- C105 for `Fraction`. -/
theorem C105_fraction : Clear Frac.Valid Frac.print := by
  refine clear_of_chars (fun x _ => ?_) (fun x _ c hc => ?_) (fun x y hx hy h => ?_)
  · rw [C54_print]
    split
    · exact numeral_ne_nil _
    · simp
  · rw [C54_print] at hc
    split at hc
    · exact (numeral_chars _ c hc).imp id .inl
    · rcases List.mem_append.1 hc with hc | hc
      · exact (numeral_chars _ c hc).imp id .inl
      · rcases List.mem_cons.1 hc with rfl | hc
        · exact .inr (.inr rfl)
        · exact (numeral_chars _ c hc).imp id .inl
  · have h1 := C54_round_trip hx [] [] (by simp) (by simp [Stops]) ⟨0, 1⟩ 1 (by simp)
    have h2 := C54_round_trip hy [] [] (by simp) (by simp [Stops]) ⟨0, 1⟩ 1 (by simp)
    rw [h] at h1
    rw [h1] at h2
    exact (Prod.mk.inj (Prod.mk.inj h2).2).1

/-- C105 for `Str` on its own: the quotes do no harm. -/
theorem C105_str (s t : List UInt8) : Str.print s = Str.print t ↔ s = t := by
  rw [C60_str, C60_str]
  simp

/-- C105 for `Str` within containers: strings without a quote. Missing: the others, for which it is false
(`C105_str_not`). -/
theorem C105_str_partial : Clear (fun s => 34 ∉ s) Str.print where
  start s _ := ⟨34, s ++ [34], C60_str s, by unfold IsEnd; decide⟩
  apart s t r r' hs ht _ _ h := by
    rw [C60_str, C60_str, List.cons_append, List.cons_append, List.cons.injEq, List.append_assoc, List.append_assoc] at h
    obtain ⟨h1, h2⟩ := span_unique (p := fun c => c ≠ 34) (fun c hc e => hs (e ▸ hc)) (fun c hc e => ht (e ▸ hc))
      (fun c t e => by rw [List.singleton_append, List.cons.injEq] at e; simp [e.1])
      (fun c t e => by rw [List.singleton_append, List.cons.injEq] at e; simp [e.1]) h.2
    exact ⟨h1, by simpa using h2⟩

/-- The texts behind the first element of a range. -/
theorem elems_cons (shown : α → List UInt8) (x : α) (l : List α) :
    List.intercalate [44, 32] ((x :: l).map shown) =
      shown x ++ (if l = [] then [] else 44 :: 32 :: List.intercalate [44, 32] (l.map shown)) := by
  cases l <;> simp [List.intercalate]

theorem bracketed_clear {P : α → Prop} {shown : α → List UInt8} (h : Clear P shown) {o c : UInt8} (ho : ¬ IsEnd o) (hc : IsEnd c)
    (hc' : c ≠ 44) : Clear (fun l : List α => ∀ x ∈ l, P x) (fun l => Bracketed o c (l.map shown)) where
  start l _ := ⟨o, _, rfl, ho⟩
  apart l l' r r' hl hl' _ _ e := by
    have key : ∀ (l l' : List α) (r r' : List UInt8), (∀ x ∈ l, P x) → (∀ x ∈ l', P x) →
        List.intercalate [44, 32] (l.map shown) ++ c :: r = List.intercalate [44, 32] (l'.map shown) ++ c :: r' →
        l = l' ∧ r = r' := by
      intro l
      induction l with
      | nil =>
        intro l' r r' _ hl' e
        cases l' with
        | nil => exact ⟨rfl, by simpa [List.intercalate] using e⟩
        | cons y l' =>
          obtain ⟨d, t, h1, h2⟩ := h.start y (hl' y (by simp))
          rw [elems_cons, h1] at e
          have : c = d := by simpa [List.intercalate] using (List.cons.inj (by simpa [List.intercalate] using e)).1
          exact absurd (this ▸ hc) h2
      | cons x l ih =>
        intro l' r r' hl hl' e
        cases l' with
        | nil =>
          obtain ⟨d, t, h1, h2⟩ := h.start x (hl x (by simp))
          rw [elems_cons, h1] at e
          have : d = c := (List.cons.inj (by simpa [List.intercalate] using e)).1
          exact absurd (this ▸ hc) h2
        | cons y l' =>
          rw [elems_cons, elems_cons, List.append_assoc, List.append_assoc] at e
          have hE : ∀ (m : List α) (q : List UInt8),
              EndsElem ((if m = [] then [] else 44 :: 32 :: List.intercalate [44, 32] (m.map shown)) ++ c :: q) := by
            intro m q
            split
            · exact ends_cons hc q
            · exact ends_cons (.inl rfl) _
          obtain ⟨h1, h2⟩ := h.apart x y _ _ (hl x (by simp)) (hl' y (by simp)) (hE _ _) (hE _ _) e
          rw [h1]
          by_cases c1 : l = [] <;> by_cases c2 : l' = []
          · subst c1 c2
            exact ⟨rfl, by simpa using h2⟩
          · rw [if_pos c1, if_neg c2] at h2
            exact absurd (List.cons.inj h2).1 hc'
          · rw [if_neg c1, if_pos c2] at h2
            exact absurd (List.cons.inj h2).1.symm hc'
          · rw [if_neg c1, if_neg c2] at h2
            have h3 := (List.cons.inj (List.cons.inj h2).2).2
            obtain ⟨h4, h5⟩ := ih l' r r' (fun x hx => hl x (by simp [hx])) (fun x hx => hl' x (by simp [hx])) h3
            exact ⟨by rw [h4], h5⟩
    unfold Bracketed at e
    rw [List.cons_append, List.cons_append, List.append_assoc, List.append_assoc, List.cons.injEq] at e
    exact key l l' r r' hl hl' e.2

/-- C105 for `List`, `Deque` and `Set`: if the texts of the elements can be told apart, so can those of the containers;
therefore also of containers of containers, to any depth. -/
theorem C105_sequence {P : α → Prop} {shown : α → List UInt8} (h : Clear P shown) :
    (∃ f, (∀ l, Lst.print shown l = .ok (f l)) ∧ Clear (fun l : List α => ∀ x ∈ l, P x) f) ∧
    (∃ f, (∀ l, Dq.print shown l = .ok (f l)) ∧ Clear (fun l : List α => ∀ x ∈ l, P x) f) ∧
    (∃ f, (∀ l, PSet.print shown l = .ok (f l)) ∧ Clear (fun l : List α => ∀ x ∈ l, P x) f) := by
  refine ⟨⟨_, fun l => ?_, bracketed_clear h (o := 91) (c := 93) ?_ ?_ ?_⟩, ⟨_, fun l => ?_, bracketed_clear h (o := 60) (c := 62) ?_ ?_ ?_⟩,
    ⟨_, fun l => ?_, bracketed_clear h (o := 123) (c := 125) ?_ ?_ ?_⟩⟩
  all_goals first
    | exact (C60_containers shown shown shown l []).1
    | exact (C60_containers shown shown shown l []).2.1
    | exact (C60_containers shown shown shown l []).2.2.1
    | (unfold IsEnd; decide)
    | decide

theorem pair_clear {P : α → Prop} {Q : β → Prop} {key : α → List UInt8} {val : β → List UInt8} (hk : Clear P key) (hv : Clear Q val) :
    Clear (fun p : α × β => P p.1 ∧ Q p.2) (fun p => key p.1 ++ 58 :: 32 :: val p.2) where
  start p hp := by
    obtain ⟨c, t, h1, h2⟩ := hk.start p.1 hp.1
    exact ⟨c, t ++ 58 :: 32 :: val p.2, by rw [h1]; rfl, h2⟩
  apart p q r r' hp hq hr hr' h := by
    rw [List.append_assoc, List.append_assoc] at h
    obtain ⟨h1, h2⟩ := hk.apart p.1 q.1 _ _ hp.1 hq.1 (ends_cons (.inr (.inl rfl)) _) (ends_cons (.inr (.inl rfl)) _) h
    obtain ⟨h3, h4⟩ := hv.apart p.2 q.2 r r' hp.2 hq.2 hr hr' (List.cons.inj (List.cons.inj h2).2).2
    exact ⟨Prod.ext h1 h3, h4⟩

/-- C105 for `Dict`. -/
theorem C105_dict {P : α → Prop} {Q : β → Prop} {key : α → List UInt8} {val : β → List UInt8} (hk : Clear P key) (hv : Clear Q val) :
    ∃ f, (∀ d, PDict.print key val d = .ok (f d)) ∧ Clear (fun d : List (α × β) => ∀ p ∈ d, P p.1 ∧ Q p.2) f :=
  ⟨_, fun d => (C60_containers key key val [] d).2.2.2,
    bracketed_clear (pair_clear hk hv) (o := 123) (c := 125) (by unfold IsEnd; decide) (by unfold IsEnd; decide) (by decide)⟩

section Tuple
variable {ι : Type} {El : ι → Type}

/-- All elements of a tuple have the property. -/
def Tup.All (P : (t : ι) → El t → Prop) : {ts : List ι} → Tup El ts → Prop
  | _, .nil => True
  | t :: _, .cons a x => P t a ∧ Tup.All P x

theorem size_eq_one {t : ι} {ts : List ι} (x : Tup El (t :: ts)) (h : ts.length ≤ 2147483646) : (x.size == 1) = ts.isEmpty := by
  have : wrap32 (1 + (ts.length : ℤ)) = 1 + ts.length := wrap32_eq (by unfold IsInt INT_MIN INT_MAX; omega)
  unfold Tup.size
  simp only [this]
  cases ts
  · rfl
  · simp only [List.length_cons, List.isEmpty_cons, beq_eq_false_iff_ne]
    push_cast
    omega

theorem tuple_elems {P : (t : ι) → El t → Prop} {shown : (t : ι) → El t → List UInt8} (h : ∀ t, Clear (P t) (shown t)) :
    ∀ {ts : List ι}, ts.length ≤ 2147483647 → ∀ (x y : Tup El ts) (r r' : List UInt8), x.All P → y.All P →
      Tup.printElems shown x ++ 41 :: r = Tup.printElems shown y ++ 41 :: r' → x = y ∧ r = r'
  | [], _, .nil, .nil, r, r', _, _, e => ⟨rfl, by simpa [Tup.printElems] using e⟩
  | t :: ts, hlen, .cons a x, .cons b y, r, r', hx, hy, e => by
    have hlen' : ts.length ≤ 2147483646 := by rw [List.length_cons] at hlen; omega
    simp only [Tup.printElems, size_eq_one _ hlen', List.append_assoc] at e
    have hE : ∀ (z : Tup El ts) (q : List UInt8),
        EndsElem ((if ts.isEmpty = true then [] else [44, 32]) ++ (Tup.printElems shown z ++ 41 :: q)) := by
      intro z q
      cases ts with
      | nil => cases z; exact ends_cons (by unfold IsEnd; decide) _
      | cons u us => exact ends_cons (.inl rfl) _
    obtain ⟨h1, h2⟩ := (h t).apart a b _ _ hx.1 hy.1 (hE x r) (hE y r') e
    obtain ⟨h3, h4⟩ := tuple_elems h (by omega) x y r r' hx.2 hy.2 (List.append_cancel_left h2)
    exact ⟨by rw [h1, h3], h4⟩

/-- C105 for `Tuple`, of any element types whose texts can be told apart. -/
theorem C105_tuple {P : (t : ι) → El t → Prop} {shown : (t : ι) → El t → List UInt8} (h : ∀ t, Clear (P t) (shown t))
    (ts : List ι) (hts : ts.length ≤ 2147483647) : Clear (Tup.All P) (Tup.print shown (ts := ts)) where
  start x _ := by
    refine ⟨40, (Tup.print shown x).tail, ?_, by unfold IsEnd; decide⟩
    match ts, x with
    | [], .nil => rfl
    | [_], .cons _ .nil => rfl
    | _ :: _ :: _, .cons _ (.cons _ _) => rfl
  apart x y r r' hx hy _ _ e := by
    match ts, x, y, hts, hx, hy, e with
    | [], .nil, .nil, _, _, _, e => exact ⟨rfl, List.append_cancel_left e⟩
    | [t], .cons a .nil, .cons b .nil, _, hx, hy, e =>
      simp only [Tup.print, List.append_assoc, List.cons_append, List.cons.injEq, true_and] at e
      obtain ⟨h1, h2⟩ := (h t).apart a b _ _ hx.1 hy.1 (ends_cons (.inl rfl) _) (ends_cons (.inl rfl) _) e
      exact ⟨by rw [h1], by simpa using h2⟩
    | t :: u :: us, .cons a (.cons b x), .cons a' (.cons b' y), hts, hx, hy, e =>
      simp only [Tup.print, List.append_assoc, List.cons_append, List.cons.injEq, true_and, List.nil_append] at e
      exact tuple_elems h hts _ _ r r' hx hy e

end Tuple

/-- C105, put together: dictionaries from integers to lists of sets of fractions. -/
example : ∃ f : List (ℤ × List (List Frac)) → List UInt8,
    Clear (fun d => ∀ p ∈ d, True ∧ ∀ s ∈ p.2, ∀ x ∈ s, x.Valid) f := by
  obtain ⟨-, -, f, -, hf⟩ := C105_sequence C105_fraction
  obtain ⟨⟨g, -, hg⟩, -⟩ := C105_sequence hf
  obtain ⟨k, -, hk⟩ := C105_dict C105_int.2 hg
  exact ⟨k, hk⟩

/-- C105 is false of the code for strings within containers, whose quotes are not marked: the list of the one string
`a", "b` prints as that of the two strings `a` and `b`. -/
theorem C105_str_not : Lst.print Str.print [[97, 34, 44, 32, 34, 98]] = Lst.print Str.print [[97], [98]] := by decide

theorem bracketed_strings (l : List (List UInt8)) (hl : l ≠ []) :
    Bracketed 91 93 (l.map Str.print) = 91 :: 34 :: (glue [34, 44, 32, 34] l ++ [34, 93]) := by
  unfold Bracketed
  rw [List.cons.injEq]
  refine ⟨rfl, ?_⟩
  induction l with
  | nil => exact absurd rfl hl
  | cons a l ih =>
    rw [elems_cons]
    cases l with
    | nil => simp [glue, C60_str]
    | cons b l =>
      have := ih (by simp)
      rw [if_neg (by simp), C60_str]
      simp only [glue, List.cons_append, List.append_assoc, List.nil_append, this]

/-- C105, lists of strings, exactly: two lists that are not empty print the same if and only if joining them with `", "` (with
the quotes) gives the same. -/
theorem C105_str_exact (l m : List (List UInt8)) (hl : l ≠ []) (hm : m ≠ []) :
    Lst.print Str.print l = Lst.print Str.print m ↔ glue [34, 44, 32, 34] l = glue [34, 44, 32, 34] m := by
  rw [(C60_containers Str.print Str.print Str.print l []).1, (C60_containers Str.print Str.print Str.print m []).1, Res.ok.injEq,
    bracketed_strings l hl, bracketed_strings m hm]
  simp

/-- C105 is false of the code for `Complex`: it prints six digits, so that 1 and its successor print the same. -/
theorem C105_complex_not : ∃ a b : Dbl, a ≠ b ∧ Cx.print Dbl.text ⟨a, .fin 0⟩ = Cx.print Dbl.text ⟨b, .fin 0⟩ := by
  exact ⟨.fin 1, .fin (1 + 1 / 2 ^ 52), by decide +kernel, by decide +kernel⟩

end Pyincpp
