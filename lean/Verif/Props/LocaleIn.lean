import Verif.Model.LocaleIn
import Verif.Props.Locale
import Verif.Props.FractionStream

/-! # C110: reading in the locale of the printing -/

namespace Pyincpp
namespace Locale

variable {L : Locale}

/-- The characters of the locale cannot be taken for those of a number, nor the separator for `/`. -/
structure Usual (L : Locale) : Prop where
  sep_digit : ¬ IsDigit L.sep
  point_digit : ¬ IsDigit L.point
  sep_minus : L.sep ≠ 45
  point_minus : L.point ≠ 45
  sep_slash : L.sep ≠ 47

theorem scan_digits (h : L.Usual) (done : List (List UInt8)) (ds t : List UInt8) (hd : ∀ c ∈ ds, IsDigit c) :
    ∀ cur, L.scan done cur (ds ++ t) = L.scan done (cur ++ ds) t := by
  induction ds with
  | nil => intro cur; simp
  | cons c ds ih =>
    intro cur
    have hc := hd c (by simp)
    have h1 : L.isSep c = false := by
      unfold isSep
      have : (c == L.sep) = false := by
        rw [beq_eq_false_iff_ne]
        rintro rfl
        exact h.sep_digit hc
      rw [this, Bool.and_false]
    have h2 : c ≠ L.point := by rintro rfl; exact h.point_digit hc
    rw [List.cons_append, scan, h1, if_neg (by simp), if_pos ⟨h2, (IStream.isDigit_iff c).2 hc⟩, ih (fun x hx => hd x (by simp [hx]))]
    simp

theorem scan_group (h : L.Usual) (hu : L.used = true) (n : ℕ) : ∀ (gs : List ℕ) (ds : List UInt8) (t : List UInt8), ds.length = n →
    ds ≠ [] → (∀ c ∈ ds, IsDigit c) → gs ≠ [] → ∃ (f : List (List UInt8)) (last : List UInt8), last ≠ [] ∧
      (last :: f).reverse.flatten = ds ∧ verify gs ((last :: f).map List.length) = true ∧
      L.scan [] [] (group L.sep gs ds ++ t) = L.scan f last t := by
  induction n using Nat.strong_induction_on with
  | _ n ih =>
    intro gs ds t hn hne hd hgs
    obtain ⟨g, gs', rfl⟩ := List.exists_cons_of_ne_nil hgs
    by_cases hg : 0 < g ∧ g < 127 ∧ g < ds.length
    · have hl : (ds.take (ds.length - g)).length = ds.length - g := by rw [List.length_take]; omega
      have hr : (ds.drop (ds.length - g)).length = g := by rw [List.length_drop]; omega
      obtain ⟨f, last, h1, h2, h3, h4⟩ := ih (ds.length - g) (by omega) (if gs' = [] then [g] else gs') (ds.take (ds.length - g))
        (L.sep :: ds.drop (ds.length - g) ++ t) hl (by rw [← List.length_pos_iff]; omega) (fun c hc => hd c (List.mem_of_mem_take hc))
        (by split <;> simp_all)
      refine ⟨last :: f, ds.drop (ds.length - g), by rw [← List.length_pos_iff]; omega, ?_, ?_, ?_⟩
      · rw [List.reverse_cons, List.flatten_append, h2]
        simp
      · rw [List.map_cons, List.map_cons, verify, hr, ← List.map_cons, h3]
        · simp
        · simp
      · unfold group
        rw [if_pos hg, List.append_assoc, h4, List.cons_append, scan, if_pos (by unfold isSep; rw [hu]; simp), if_neg h1,
          scan_digits h _ _ _ (fun c hc => hd c (List.mem_of_mem_drop hc)), List.nil_append]
    · refine ⟨[], ds, hne, by simp, ?_, ?_⟩
      · simp [verify]
        omega
      · rw [group_plain, scan_digits h _ _ _ hd]
        · simp
        · rintro ⟨a, b, e, h1⟩
          cases e
          exact hg h1

/-- What follows a number cannot be taken for a part of it. -/
def Ends (L : Locale) (rest : List UInt8) : Prop := ∀ c r, rest = c :: r → ¬ IsDigit c ∧ (L.used = true → c ≠ L.sep)

theorem scan_end {rest : List UInt8} (h : L.Ends rest) (done : List (List UInt8)) (cur : List UInt8) :
    L.scan done cur rest = (cur :: done, true, rest) := by
  cases rest with
  | nil => rfl
  | cons c r =>
    obtain ⟨h1, h2⟩ := h c r rfl
    have h3 : L.isSep c = false := by
      unfold isSep
      cases hu : L.used with
      | false => rfl
      | true => simpa using h2 hu
    rw [scan, h3, if_neg (by simp), if_neg (fun hc => h1 ((IStream.isDigit_iff c).1 hc.2))]

theorem scan_text (h : L.Usual) {ds rest : List UInt8} (hr : L.Ends rest) (hne : ds ≠ []) (hd : ∀ c ∈ ds, IsDigit c) :
    ∃ gs : List (List UInt8), gs.reverse.flatten = ds ∧ (1 < gs.length → verify L.grouping (gs.map List.length) = true) ∧
      L.scan [] [] (group L.sep L.grouping ds ++ rest) = (gs, true, rest) := by
  cases hu : L.used with
  | true =>
    obtain ⟨f, last, -, h2, h3, h4⟩ := scan_group h hu _ L.grouping ds rest rfl hne hd (by rintro e; unfold used at hu; rw [e] at hu; cases hu)
    exact ⟨last :: f, h2, fun _ => h3, by rw [h4, scan_end hr]⟩
  | false =>
    refine ⟨[ds], by simp, fun h1 => absurd h1 (by simp), ?_⟩
    rw [group_plain, scan_digits h _ _ _ hd, scan_end hr, List.nil_append]
    rintro ⟨g, t, e, h1, h2, -⟩
    unfold used at hu
    rw [e] at hu
    simp at hu
    omega

theorem group_head (sep : UInt8) (n : ℕ) : ∀ (gs : List ℕ) (c : UInt8) (t : List UInt8), (c :: t).length = n →
    ∃ u, group sep gs (c :: t) = c :: u := by
  induction n using Nat.strong_induction_on with
  | _ n ih =>
    intro gs c t hn
    by_cases hg : ∃ g t', gs = g :: t' ∧ 0 < g ∧ g < 127 ∧ g < (c :: t).length
    · obtain ⟨g, t', rfl, h1, h2, h3⟩ := hg
      obtain ⟨m, hm⟩ : ∃ m, (c :: t).length - g = m + 1 := ⟨(c :: t).length - g - 1, by omega⟩
      obtain ⟨u, hu⟩ := ih ((c :: t.take m).length) (by simp at hm hn ⊢; omega) (if t' = [] then [g] else t') c (t.take m) rfl
      unfold group
      rw [if_pos ⟨h1, h2, h3⟩, hm, List.take_succ_cons, hu]
      exact ⟨_, rfl⟩
    · rw [group_plain hg]
      exact ⟨t, rfl⟩

theorem intText_head (L : Locale) (z : ℤ) : ∃ c u, L.intText z = c :: u ∧ (IsDigit c ∨ c = 45) := by
  unfold intText
  rw [Frac.toDigits_numeral]
  split
  · exact ⟨45, _, rfl, .inr rfl⟩
  · obtain ⟨c, t, e⟩ := List.exists_cons_of_ne_nil (natNumeral_ne_nil z.natAbs)
    obtain ⟨u, hu⟩ := group_head L.sep _ L.grouping c t rfl
    rw [e, hu]
    exact ⟨c, u, rfl, .inl (natNumeral_digits z.natAbs c (by rw [e]; simp))⟩

/-- Reading the text of an `int` in the locale it has been printed in. -/
theorem readInt_text (h : L.Usual) {z : ℤ} (hz : IsInt z) {rest : List UInt8} (hr : L.Ends rest) :
    L.readInt ⟨L.intText z ++ rest, false, false⟩ = (some z, ⟨rest, rest.isEmpty, false⟩) := by
  have hlo : ¬ z < INT_MIN := by have := hz.1; omega
  have hhi : ¬ INT_MAX < z := by have := hz.2; omega
  obtain ⟨gs, h1, h2, h3⟩ := scan_text h hr (natNumeral_ne_nil z.natAbs) (natNumeral_digits z.natAbs)
  have hdv : IStream.digitsValue (natNumeral z.natAbs) = z.natAbs := denote_natNumeral _
  have hem : (natNumeral z.natAbs).isEmpty = false := by rw [List.isEmpty_eq_false_iff]; exact natNumeral_ne_nil _
  have hv : (decide (1 < gs.length) && !verify L.grouping (gs.map List.length)) = false := by
    by_cases hl : 1 < gs.length
    · rw [h2 hl]; simp
    · simp [hl]
  unfold intText
  rw [Frac.toDigits_numeral]
  by_cases hneg : z < 0
  · rw [if_pos hneg]
    have hs : IStream.sentry ⟨[45] ++ group L.sep L.grouping (natNumeral z.natAbs) ++ rest, false, false⟩ =
        (true, ⟨45 :: (group L.sep L.grouping (natNumeral z.natAbs) ++ rest), false, false⟩) := IStream.sentry_cons _ rfl
    unfold readInt
    rw [hs]
    have hsep : L.isSep 45 = false := by
      unfold isSep
      have : ((45 : UInt8) == L.sep) = false := by rw [beq_eq_false_iff_ne]; exact h.sep_minus.symm
      rw [this, Bool.and_false]
    have hpt : ((45 : UInt8) != L.point) = true := by rw [bne_iff_ne]; exact h.point_minus.symm
    have hsg : (((45 : UInt8) == 45 || (45 : UInt8) == 43) && !L.isSep 45 && (45 : UInt8) != L.point) = true := by rw [hsep, hpt]; rfl
    simp only [List.headD_cons, hsg, if_true, List.drop_succ_cons, List.drop_zero, h3, h1, hem, hv, hdv, Bool.or_false]
    rw [if_neg (by simp), if_pos (show (true && (45 : UInt8) == 45) = true from rfl), show -((z.natAbs : ℕ) : ℤ) = z by omega, if_neg hlo, if_neg hhi]
  · rw [if_neg hneg, List.nil_append]
    obtain ⟨c, t, e⟩ := List.exists_cons_of_ne_nil (natNumeral_ne_nil z.natAbs)
    have hc : IsDigit c := natNumeral_digits z.natAbs c (by rw [e]; simp)
    obtain ⟨u, hu⟩ := group_head L.sep _ L.grouping c t rfl
    rw [← e] at hu
    have hs : IStream.sentry ⟨group L.sep L.grouping (natNumeral z.natAbs) ++ rest, false, false⟩ =
        (true, ⟨group L.sep L.grouping (natNumeral z.natAbs) ++ rest, false, false⟩) := by
      rw [hu]
      refine IStream.sentry_cons _ (IStream.isSpace_false ?_)
      unfold IsDigit at hc
      omega
    have hh : (group L.sep L.grouping (natNumeral z.natAbs) ++ rest).headD 0 = c := by rw [hu]; rfl
    unfold readInt
    rw [hs]
    obtain ⟨n1, n2⟩ := IStream.digit_ne hc
    have hsg : ((c == 45 || c == 43) && !L.isSep c && c != L.point) = false := by
      simp [n1, n2]
    simp only [hh, hsg, Bool.false_and, Bool.false_eq_true, if_false, h3, h1, hem, hv, hdv, Bool.or_false]
    rw [if_neg (by simp), show ((z.natAbs : ℕ) : ℤ) = z by omega, if_neg hlo, if_neg hhi]

theorem ends_of_stops {rest : List UInt8} (hr : Stops rest) (hs : L.used = true → ∀ c r, rest = c :: r → c ≠ L.sep) : L.Ends rest := by
  intro c r e
  refine ⟨fun hc => ?_, fun hu => hs hu c r e⟩
  have := hr c r e
  unfold IsDigit at hc
  omega

/-- Without groups, the digits up to the point are scanned. -/
theorem scan_unused (hu : L.used = false) (hp : ¬ IsDigit L.point) (l : List UInt8) : ∀ cur,
    L.scan [] cur l = ([cur ++ l.takeWhile IStream.isDigit], true, l.dropWhile IStream.isDigit) := by
  have hs : ∀ c, L.isSep c = false := fun c => by unfold isSep; rw [hu]; rfl
  induction l with
  | nil => intro cur; simp [scan]
  | cons c t ih =>
    intro cur
    rw [scan, hs, if_neg (by simp)]
    by_cases hd : IStream.isDigit c = true
    · rw [if_pos ⟨by rintro rfl; exact hp ((IStream.isDigit_iff _).1 hd), hd⟩, ih]
      simp [hd]
    · rw [if_neg (fun h => hd h.2)]
      simp [hd]

theorem readInt_unused (hu : L.used = false) (hp : ¬ IsDigit L.point) (h1 : L.point ≠ 45) (h2 : L.point ≠ 43) (s : IStream) :
    L.readInt s = s.readInt := by
  have hs : ∀ c, L.isSep c = false := fun c => by unfold isSep; rw [hu]; rfl
  unfold readInt IStream.readInt
  rcases s.sentry with ⟨b, s⟩
  cases b with
  | false => rfl
  | true =>
    simp only [scan_unused hu hp, hs]
    have hh : ∀ c : UInt8, c ≠ 0 → (s.buf.headD 0 == c) = (s.buf.head? == some c) := by
      intro c hc
      cases s.buf with
      | nil => simpa using hc.symm
      | cons => simp
    have hsg : ((s.buf.headD 0 == 45 || s.buf.headD 0 == 43) && !false && s.buf.headD 0 != L.point) =
        (s.buf.head? == some 45 || s.buf.head? == some 43) := by
      rw [← hh 45 (by decide), ← hh 43 (by decide)]
      by_cases c1 : s.buf.headD 0 = 45
      · rw [c1]; simpa using h1.symm
      · by_cases c2 : s.buf.headD 0 = 43
        · rw [c2]; simpa using h2.symm
        · simp only [beq_eq_false_iff_ne.2 c1, beq_eq_false_iff_ne.2 c2]
          rfl
    have hng : ((s.buf.head? == some 45 || s.buf.head? == some 43) && s.buf.headD 0 == 45) = (s.buf.head? == some 45) := by
      rw [hh 45 (by decide)]
      cases s.buf.head? == some 45 <;> simp
    simp only [hsg, hng]
    simp

end Locale

namespace Frac

variable {L : Locale} {x : Frac}

theorem parse_text (h : L.Usual) (hx : x.Valid) {rest : List UInt8} (hr : Stops rest) (hs : L.used = true → ∀ c r, rest = c :: r → c ≠ L.sep) :
    parseWith L.readInt ⟨printIn L x ++ rest, false, false⟩ = (.ok x, ⟨rest, rest.isEmpty, rest.isEmpty⟩) := by
  have hn := (bound_of_abs hx.num_le).1
  have hd := (bound_of_abs hx.abs_den).1
  have he := Locale.ends_of_stops hr hs
  obtain ⟨p1, p2⟩ := peek_stops hr
  have peek : ∀ (z : ℤ) (t : List UInt8), startsNumber (IStream.peek ⟨L.intText z ++ t, false, false⟩).1 = true ∧
      (IStream.peek ⟨L.intText z ++ t, false, false⟩).2 = ⟨L.intText z ++ t, false, false⟩ := by
    intro z t
    obtain ⟨c, u, e, hc⟩ := L.intText_head z
    rw [e]
    refine ⟨starts_digit ?_, rfl⟩
    rcases hc with hc | hc
    · exact .inl hc
    · exact .inr (.inr hc)
  unfold printIn
  by_cases h1 : x.den = 1
  · rw [if_pos h1]
    obtain ⟨q1, q2⟩ := peek x.num rest
    unfold parseWith
    simp only [q1, Bool.true_eq_false, if_false, q2, Locale.readInt_text h hn he, p1, p2, if_true]
    have : ofInt x.num = .ok x := by
      have := make_self hx
      rw [h1] at this
      exact this
    rw [this]
  · rw [if_neg h1, List.append_assoc, List.append_assoc]
    obtain ⟨q1, q2⟩ := peek x.num ([47] ++ (L.intText x.den ++ rest))
    obtain ⟨r1, r2⟩ := peek x.den rest
    have hslash : L.Ends ([47] ++ (L.intText x.den ++ rest)) := by
      intro c r e
      cases e
      exact ⟨by decide, fun _ => h.sep_slash.symm⟩
    have hm : make x.num x.den = .ok x := make_self hx
    have hlt : ¬ (0x20 < (IStream.peek ⟨rest, rest.isEmpty, false⟩).1) := by omega
    unfold parseWith
    simp only [q1, Bool.true_eq_false, if_false, q2, Locale.readInt_text h hn hslash]
    have e1 : IStream.peek ⟨[47] ++ (L.intText x.den ++ rest), ([47] ++ (L.intText x.den ++ rest)).isEmpty, false⟩ =
        (47, ⟨47 :: (L.intText x.den ++ rest), false, false⟩) := rfl
    rw [e1]
    have e2 : IStream.readChar ⟨47 :: (L.intText x.den ++ rest), false, false⟩ = (some 47, ⟨L.intText x.den ++ rest, false, false⟩) :=
      IStream.readChar_cons _ (by decide)
    simp only [e2]
    unfold parseDenWith
    simp only [r1, Bool.true_eq_false, if_false, r2, Locale.readInt_text h hd he, ne_eq, not_true_eq_false, hlt, p2, hm]
    rfl

end Frac

/-- C110: a fraction printed in a locale and read in the same locale is the same fraction, after blanks and in front of the end of the
text or a blank that is not the separator. -/
theorem C110_round_trip_partial (L : Locale) (h : L.Usual) {x : Frac} (hx : x.Valid) (bl rest : List UInt8)
    (hbl : ∀ b ∈ bl, b.toNat ≤ 0x20) (hr : Stops rest) (hs : L.used = true → ∀ c r, rest = c :: r → c ≠ L.sep) (y : Frac) :
    ∀ k, bl.length < k →
      Frac.inputIn L k (y, ⟨bl ++ (Frac.printIn L x ++ rest), false, false⟩) = (.ok (), (x, ⟨rest, rest.isEmpty, rest.isEmpty⟩)) := by
  intro k hk
  have hb : IStream.skipBlanks k ⟨bl ++ (Frac.printIn L x ++ rest), false, false⟩ = .ok ⟨Frac.printIn L x ++ rest, false, false⟩ := by
    obtain ⟨c, u, e, hc⟩ := L.intText_head x.num
    obtain ⟨v, hv⟩ : ∃ v, Frac.printIn L x = c :: v := by
      unfold Frac.printIn
      rw [e]
      split <;> exact ⟨_, rfl⟩
    rw [hv]
    refine IStream.skipBlanks_ok _ ?_ bl hbl k hk
    rcases hc with hc | rfl
    · unfold IsDigit at hc; omega
    · decide
  unfold Frac.inputIn
  rw [Meth.get_bind]
  simp only [hb, Meth.lift_ok_bind, Meth.set_bind, Frac.parse_text h hx hr hs]
  rfl

/-- C110: without groups and with a point that is no sign or digit, reading is what it is in the classic locale. -/
theorem C110_ungrouped (L : Locale) (hu : L.used = false) (hp : ¬ IsDigit L.point) (h1 : L.point ≠ 45) (h2 : L.point ≠ 43) (k : ℕ) :
    Frac.inputIn L k = Frac.input k := by
  have : L.readInt = IStream.readInt := funext (Locale.readInt_unused hu hp h1 h2)
  unfold Frac.inputIn
  rw [this]
  rfl

example (k : ℕ) : Frac.inputIn .classic k = Frac.input k := C110_ungrouped _ rfl (by decide) (by decide) (by decide) k

theorem Locale.group_split (sep : UInt8) (n : ℕ) : ∀ (g : ℕ) (t : List ℕ) (ds : List UInt8), ds.length = n → (∀ c ∈ ds, IsDigit c) →
    0 < g → g < 127 → g < ds.length → ∃ first w, Locale.group sep (g :: t) ds = first ++ sep :: w ∧ first ≠ [] ∧ first <+: ds ∧
      ∃ c u, w = c :: u ∧ IsDigit c := by
  induction n using Nat.strong_induction_on with
  | _ n ih =>
    intro g t ds hn hd h1 h2 h3
    have hl : (ds.take (ds.length - g)).length = ds.length - g := by rw [List.length_take]; omega
    have hg : Locale.group sep (g :: t) ds = Locale.group sep (if t = [] then [g] else t) (ds.take (ds.length - g)) ++
        sep :: ds.drop (ds.length - g) := by
      rw [Locale.group, if_pos ⟨h1, h2, h3⟩]
    by_cases hin : ∃ g' t', (if t = [] then [g] else t) = g' :: t' ∧ 0 < g' ∧ g' < 127 ∧ g' < (ds.take (ds.length - g)).length
    · obtain ⟨g', t', e, a1, a2, a3⟩ := hin
      obtain ⟨first, w, e1, e2, e3, c, u, rfl, e5⟩ := ih (ds.length - g) (by omega) g' t' _ hl (fun c hc => hd c (List.mem_of_mem_take hc)) a1 a2 a3
      refine ⟨first, c :: u ++ sep :: ds.drop (ds.length - g), ?_, e2, e3.trans (List.take_prefix _ _), c, _, rfl, e5⟩
      rw [hg, e, e1]
      simp
    · rw [Locale.group_plain hin] at hg
      obtain ⟨c, u, e⟩ := List.exists_cons_of_ne_nil (show ds.drop (ds.length - g) ≠ [] by rw [← List.length_pos_iff, List.length_drop]; omega)
      refine ⟨_, _, hg, by rw [← List.length_pos_iff]; omega, List.take_prefix _ _, c, u, e, hd c (List.mem_of_mem_drop (i := ds.length - g) ?_)⟩
      rw [e]
      simp

theorem denoteNat_prefix {a ds : List UInt8} (h : a <+: ds) : denoteNat a ≤ denoteNat ds := by
  obtain ⟨b, rfl⟩ := h
  unfold denoteNat
  rw [List.foldl_append]
  generalize List.foldl _ 0 a = n
  induction b generalizing n with
  | nil => exact le_rfl
  | cons c b ih =>
    rw [List.foldl_cons]
    exact le_trans (by omega) (ih _)

/-- The text of a grouped number begins with a literal and the separator. -/
theorem Locale.intText_split {L : Locale} {z : ℤ} (hz : IsInt z) (h : L.Groups (digitsOf z).length) : ∃ t w y, L.intText z = t ++ L.sep :: w ∧
    Literal t y ∧ IsInt y ∧ ∃ c u, w = c :: u ∧ IsDigit c := by
  obtain ⟨g, gs, e, h1, h2, h3⟩ := h
  have ed : digitsOf z = natNumeral z.natAbs := Frac.toDigits_numeral _
  rw [ed] at h3
  obtain ⟨first, w, e1, e2, e3, e4⟩ := Locale.group_split L.sep _ g gs (natNumeral z.natAbs) rfl (natNumeral_digits _) h1 h2 h3
  have hd : ∀ c ∈ first, IsDigit c := fun c hc => natNumeral_digits z.natAbs c (e3.subset hc)
  have hv := denoteNat_prefix e3
  rw [denote_natNumeral] at hv
  unfold Locale.intText
  rw [Frac.toDigits_numeral, e, e1]
  by_cases hneg : z < 0
  · rw [if_pos hneg]
    refine ⟨45 :: first, w, _, rfl, Literal.minus first e2 hd, ⟨?_, ?_⟩, e4⟩
    · have := hz.1; omega
    · have := hz.2; unfold INT_MAX at *; omega
  · rw [if_neg hneg]
    refine ⟨first, w, _, rfl, Literal.plain first e2 hd, ⟨?_, ?_⟩, e4⟩
    · have := hz.1; unfold INT_MIN at *; omega
    · have := hz.2; omega

/-- C110, reading in the classic locale what has been printed in another: if the separator is not a blank, a digit or `/`, a grouped
text is refused; the others are read back (`C109_fraction_exact`, `C54_round_trip`). -/
theorem C110_classic_refuses (L : Locale) (h1 : 0x20 < L.sep.toNat) (h2 : ¬ IsDigit L.sep) (h3 : L.sep ≠ 47) {x : Frac} (hx : x.Valid)
    (hg : Frac.printIn L x ≠ Frac.print x) (rest : List UInt8) :
    (Frac.parse ⟨Frac.printIn L x ++ rest, false, false⟩).1 = .throw "Error: Wrong fraction literal." := by
  have hn := (Frac.bound_of_abs hx.num_le).1
  have hd := (Frac.bound_of_abs hx.abs_den).1
  have hsd : IStream.isDigit L.sep = false := by
    rw [Bool.eq_false_iff]
    exact fun h => h2 ((IStream.isDigit_iff _).1 h)
  rw [ne_eq, C109_fraction_exact, not_and_or, not_or, not_not, not_not] at hg
  by_cases hgn : L.Groups (digitsOf x.num).length
  · obtain ⟨t, w, y, e, hl, hy, c, u, rfl, hc⟩ := Locale.intText_split hn hgn
    obtain ⟨v, hv⟩ : ∃ v, Frac.printIn L x ++ rest = t ++ L.sep :: (c :: v) := by
      unfold Frac.printIn
      rw [e]
      split <;> simp
    rw [hv, Frac.parse_num hl hy h1 hsd]
    unfold Frac.parseDen
    have : Frac.startsNumber (IStream.peek ⟨c :: v, false, false⟩).1 = true := Frac.starts_digit (.inl hc)
    simp only [this, Bool.true_eq_false, if_false, ne_eq, h3, not_false_eq_true, if_true]
    rfl
  · obtain ⟨g1, g2⟩ := hg.resolve_left hgn
    obtain ⟨t, w, y, e, hl, hy, c, u, rfl, hc⟩ := Locale.intText_split hd g2
    have en : L.intText x.num = numeral x.num := by rw [(Locale.intText_iff L x.num).2 hgn, Frac.intText_eq]
    unfold Frac.printIn
    rw [if_neg g1, en, e, List.append_assoc, List.append_assoc, List.singleton_append,
      Frac.parse_num (literal_numeral _) hn (by decide) (by decide), List.append_assoc]
    obtain ⟨s', hs'⟩ := (Frac.parseDen_lit (z := x.num) (c := 47) (rest := L.sep :: (c :: u) ++ rest) hl hy
      (by intro c' r' e; cases e; exact hsd)).1 (.inr ⟨_, _, rfl, h1⟩)
    rw [hs']
    rfl

theorem Frac.inputIn_ok {L : Locale} {c : UInt8} {t : List UInt8} (hc : 0x20 < c.toNat) {x y : Frac} {s : IStream}
    (h : Frac.parseWith L.readInt ⟨c :: t, false, false⟩ = (.ok y, s)) {k : ℕ} (hk : 0 < k) :
    Frac.inputIn L k (x, ⟨c :: t, false, false⟩) = (.ok (), (y, s)) := by
  have hb : IStream.skipBlanks k ⟨c :: t, false, false⟩ = .ok ⟨c :: t, false, false⟩ :=
    IStream.skipBlanks_ok t hc [] (by simp) k hk
  unfold Frac.inputIn
  rw [Meth.get_bind]
  simp only [hb, Meth.lift_ok_bind, Meth.set_bind, h]
  rfl

/-- C110 fails if the separator is a blank: 1 and 234 printed with a blank between are read as one number. -/
theorem C110_blank_not : Locale.Usual ⟨44, 32, [3]⟩ ∧
    Frac.printIn ⟨44, 32, [3]⟩ ⟨1, 1⟩ ++ 32 :: Frac.printIn ⟨44, 32, [3]⟩ ⟨234, 1⟩ = [49, 32, 50, 51, 52] ∧
    (∀ k, 0 < k → Frac.inputIn ⟨44, 32, [3]⟩ k (⟨5, 1⟩, ⟨[49, 32, 50, 51, 52], false, false⟩) = (.ok (), (⟨1234, 1⟩, ⟨[], true, true⟩))) := by
  have d1 : (Nat.toDigits 10 (1 : ℤ).natAbs).map (fun c => c.toNat.toUInt8) = [49] := by decide +kernel
  have d2 : (Nat.toDigits 10 (234 : ℤ).natAbs).map (fun c => c.toNat.toUInt8) = [50, 51, 52] := by decide +kernel
  refine ⟨⟨by decide, by decide, by decide, by decide, by decide⟩, ?_, fun k hk => Frac.inputIn_ok (by decide) (by decide +kernel) hk⟩
  unfold Frac.printIn Locale.intText
  rw [if_pos rfl, if_pos rfl, d1, d2]
  simp [Locale.group]

/-- C110: separators in the wrong places are not an error for the library. The number is taken, the stream has failed. -/
theorem C110_wrong_groups_not (k : ℕ) (hk : 0 < k) :
    Frac.inputIn ⟨46, 44, [3]⟩ k (⟨5, 1⟩, ⟨[49, 50, 44, 51, 52], false, false⟩) = (.ok (), (⟨1234, 1⟩, ⟨[], true, true⟩)) := by
  exact Frac.inputIn_ok (by decide) (by decide +kernel) hk

example : Locale.Usual ⟨44, 46, [3]⟩ ∧ Locale.used ⟨44, 46, [3]⟩ = true ∧ Frac.Valid ⟨-1234567, 89⟩ :=
  ⟨⟨by decide, by decide, by decide, by decide, by decide⟩, rfl, ⟨by decide, by decide, by decide, by decide⟩⟩

end Pyincpp
