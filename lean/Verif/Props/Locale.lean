import Verif.Model.Locale
import Verif.Model.Print
import Verif.Proof.IntText
import Verif.Proof.FractionStream

/-! # C109: printing in other locales -/

namespace Pyincpp
namespace Locale

/-- A number with this many digits is grouped. -/
def Groups (L : Locale) (n : ℕ) : Prop := ∃ g gs, L.grouping = g :: gs ∧ 0 < g ∧ g < 127 ∧ g < n

theorem group_plain {sep : UInt8} {gs : List ℕ} {ds : List UInt8} (h : ¬ ∃ g t, gs = g :: t ∧ 0 < g ∧ g < 127 ∧ g < ds.length) :
    group sep gs ds = ds := by
  unfold group
  cases gs with
  | nil => rfl
  | cons g t =>
    dsimp only
    rw [if_neg (fun hg => h ⟨g, t, rfl, hg⟩)]

theorem group_length (sep : UInt8) (n : ℕ) : ∀ (gs : List ℕ) (ds : List UInt8), ds.length = n → ds.length ≤ (group sep gs ds).length := by
  induction n using Nat.strong_induction_on with
  | _ n ih =>
    intro gs ds hn
    by_cases h : ∃ g t, gs = g :: t ∧ 0 < g ∧ g < 127 ∧ g < ds.length
    · obtain ⟨g, t, rfl, h1, h2, h3⟩ := h
      unfold group
      rw [if_pos ⟨h1, h2, h3⟩, List.length_append, List.length_cons, List.length_drop]
      have hl : (ds.take (ds.length - g)).length = ds.length - g := by rw [List.length_take]; omega
      have := ih (ds.length - g) (by omega) (if t = [] then [g] else t) (ds.take (ds.length - g)) hl
      rw [hl] at this
      omega
    · rw [group_plain h]

theorem group_longer {sep : UInt8} {g : ℕ} {t : List ℕ} {ds : List UInt8} (h : 0 < g ∧ g < 127 ∧ g < ds.length) :
    ds.length < (group sep (g :: t) ds).length := by
  unfold group
  rw [if_pos h, List.length_append, List.length_cons, List.length_drop]
  have hl : (ds.take (ds.length - g)).length = ds.length - g := by rw [List.length_take]; omega
  have := group_length sep _ (if t = [] then [g] else t) (ds.take (ds.length - g)) rfl
  omega

theorem group_eq_iff {L : Locale} {ds : List UInt8} : group L.sep L.grouping ds = ds ↔ ¬ L.Groups ds.length := by
  refine ⟨?_, group_plain⟩
  rintro e ⟨g, t, h1, h2⟩
  rw [h1] at e
  have := group_longer (sep := L.sep) (t := t) h2
  rw [e] at this
  omega

theorem group_filter (sep : UInt8) (n : ℕ) : ∀ (gs : List ℕ) (ds : List UInt8), ds.length = n → sep ∉ ds →
    (group sep gs ds).filter (· ≠ sep) = ds := by
  induction n using Nat.strong_induction_on with
  | _ n ih =>
    intro gs ds hn hs
    have keep : ∀ l : List UInt8, (∀ c ∈ l, c ∈ ds) → l.filter (· ≠ sep) = l := fun l hl =>
      List.filter_eq_self.2 (fun c hc => by
        have : c ≠ sep := fun e => hs (e ▸ hl c hc)
        simpa using this)
    by_cases h : ∃ g t, gs = g :: t ∧ 0 < g ∧ g < 127 ∧ g < ds.length
    · obtain ⟨g, t, rfl, h1, h2, h3⟩ := h
      unfold group
      rw [if_pos ⟨h1, h2, h3⟩, List.filter_append, List.filter_cons, if_neg (show ¬ decide (sep ≠ sep) = true by rw [decide_eq_true_iff]; exact fun h => h rfl),
        ih (ds.length - g) (by omega) _ _ (by rw [List.length_take]; omega) (fun hc => hs (List.mem_of_mem_take hc)),
        keep _ (fun c hc => List.mem_of_mem_drop hc), List.take_append_drop]
    · rw [group_plain h, keep _ (fun _ => id)]

end Locale

open Locale

/-- The digits of a number. -/
def digitsOf (n : ℤ) : List UInt8 := (Nat.toDigits 10 n.natAbs).map (fun c => c.toNat.toUInt8)

theorem Locale.intText_iff (L : Locale) (n : ℤ) : L.intText n = Frac.intText n ↔ ¬ L.Groups (digitsOf n).length := by
  unfold Locale.intText Frac.intText
  rw [List.append_cancel_left_eq]
  exact group_eq_iff

/-- C109 for `Int`: it prints the same in every locale. -/
theorem C109_int (L : Locale) (z : ℤ) : BInt.printIn L (enc z) = .ok (numeral z) := by
  rw [← print_enc z]
  unfold BInt.printIn BInt.print
  by_cases hz : (enc z).sign = 0
  · rw [if_pos hz, if_pos hz]; rfl
  · rw [if_neg hz, if_neg hz]
    cases hr : (enc z).chunks.reverse with
    | nil => rfl
    | cons c cs =>
      have hc : c ∈ (enc z).chunks := List.mem_reverse.1 (by rw [hr]; simp)
      have hd : 0 ≤ c ∧ c < 10 := by
        obtain ⟨d, hd, rfl⟩ := List.mem_map.1 (show c ∈ (Nat.digits 10 z.natAbs).map (fun d : ℕ => (d : ℤ)) from hc)
        have := Nat.digits_lt_base (by norm_num) hd
        omega
      have e : L.intText c = BInt.decimal c := by
        obtain ⟨d, rfl⟩ := Int.eq_ofNat_of_zero_le hd.1
        have hd' : d < 10 := by omega
        have h1 : L.intText (d : ℤ) = Frac.intText d := by
          rw [Locale.intText_iff]
          rintro ⟨g, t, -, h2, -, h3⟩
          have : (digitsOf d).length = 1 := by
            unfold digitsOf
            rw [List.length_map, Int.natAbs_natCast, Nat.toDigits_of_lt_base hd']
            rfl
          omega
        rw [h1]
        unfold Frac.intText BInt.decimal
        rw [if_neg (by omega), Int.natAbs_natCast, Int.toNat_natCast, List.nil_append]
      dsimp only
      rw [e]
      rfl

/-- C109 for containers of `Int`: so do they. -/
theorem C109_containers (L : Locale) (shown : BInt → List UInt8) (hs : ∀ z, BInt.printIn L (enc z) = .ok (shown (enc z))) (zs : List ℤ) :
    Lst.print shown (zs.map enc) = printRange (zs.map numeral) 91 93 ∧ Dq.print shown (zs.map enc) = printRange (zs.map numeral) 60 62 ∧
    PSet.print shown (zs.map enc) = printRange (zs.map numeral) 123 125 := by
  have h : (zs.map enc).map shown = zs.map numeral := by
    rw [List.map_map]
    refine List.map_congr_left (fun z _ => ?_)
    have := hs z
    rw [C109_int] at this
    exact (Res.ok.inj this).symm
  unfold Lst.print Dq.print PSet.print
  rw [h]
  exact ⟨rfl, rfl, rfl⟩

/-- C109 for `Fraction`, exact extent: the text is that of the classic locale exactly when neither number is grouped. -/
theorem C109_fraction_exact (L : Locale) (x : Frac) : Frac.printIn L x = Frac.print x ↔
    ¬ L.Groups (digitsOf x.num).length ∧ (x.den = 1 ∨ ¬ L.Groups (digitsOf x.den).length) := by
  have len : ∀ n : ℤ, (Frac.intText n).length ≤ (L.intText n).length := fun n => by
    unfold Frac.intText Locale.intText
    rw [List.length_append, List.length_append]
    exact Nat.add_le_add_left (group_length _ _ _ _ rfl) _
  unfold Frac.printIn Frac.print
  by_cases h : x.den = 1
  · rw [if_pos h, if_pos h, Locale.intText_iff]
    exact ⟨fun e => ⟨e, .inl h⟩, fun e => e.1⟩
  · rw [if_neg h, if_neg h, ← Locale.intText_iff, ← Locale.intText_iff]
    constructor
    · intro e
      have hl := congrArg List.length e
      simp only [List.length_append, List.length_cons, List.length_nil] at hl
      have h1 := len x.num
      have h2 := len x.den
      rw [List.append_assoc, List.append_assoc] at e
      obtain ⟨e1, e2⟩ := List.append_inj e (by omega)
      exact ⟨e1, .inr (List.cons.inj e2).2⟩
    · rintro ⟨e1, e2⟩
      rw [e1, e2.resolve_left h]

/-- C109 for `Fraction`: numbers that have no more digits than the first group. Missing: `C109_fraction_not`. -/
theorem C109_fraction_partial (L : Locale) (x : Frac) (hn : x.num.natAbs < 1000) (hd : x.den.natAbs < 1000)
    (hL : ∀ g ∈ L.grouping, g = 3) : Frac.printIn L x = Frac.print x := by
  have small : ∀ n : ℤ, n.natAbs < 1000 → ¬ L.Groups (digitsOf n).length := by
    rintro n hn ⟨g, t, h1, h2, -, h3⟩
    have hg := hL g (by rw [h1]; simp)
    have : (digitsOf n).length ≤ 3 := by
      unfold digitsOf
      rw [List.length_map]
      exact (Nat.length_toDigits_le_iff (by norm_num) (by norm_num)).2 (by simpa using hn)
    omega
  exact (C109_fraction_exact L x).2 ⟨small _ hn, .inr (small _ hd)⟩

/-- C109 fails for `Fraction`: with groups of three digits, 1234567 is printed as `1,234,567`, and 1234/5 as `1,234/5`, which a
stream of the classic locale refuses to read. -/
theorem C109_fraction_not :
    Frac.printIn ⟨46, 44, [3]⟩ ⟨1234567, 1⟩ = [49, 44, 50, 51, 52, 44, 53, 54, 55] ∧
    Frac.printIn ⟨46, 44, [3]⟩ ⟨1234, 5⟩ = [49, 44, 50, 51, 52, 47, 53] ∧
    (Frac.parse (⟨[49, 44, 50, 51, 52, 47, 53], false, false⟩ : IStream)).1 = .throw Frac.msgLiteral := by
  have d1 : (Nat.toDigits 10 (1234567 : ℤ).natAbs).map (fun c => c.toNat.toUInt8) = [49, 50, 51, 52, 53, 54, 55] := by decide +kernel
  have d2 : (Nat.toDigits 10 (1234 : ℤ).natAbs).map (fun c => c.toNat.toUInt8) = [49, 50, 51, 52] := by decide +kernel
  have d3 : (Nat.toDigits 10 (5 : ℤ).natAbs).map (fun c => c.toNat.toUInt8) = [53] := by decide +kernel
  refine ⟨?_, ?_, by decide +kernel⟩
  · unfold Frac.printIn Locale.intText
    rw [if_pos rfl, d1]
    simp [Locale.group]
  · unfold Frac.printIn Locale.intText
    rw [if_neg (by decide), d2, d3]
    simp [Locale.group]

/-- C109, what grouping does: the separators stand between groups of the given size, and the first group is the rest. -/
theorem C109_groups (sep : UInt8) (g : ℕ) (hg : 0 < g ∧ g < 127) (ds : List UInt8) (hd : ds ≠ []) : ∃ (first : List UInt8) (rest : List (List UInt8)),
    ds = first ++ rest.flatten ∧ (∀ r ∈ rest, r.length = g) ∧ 0 < first.length ∧ first.length ≤ g ∧
    Locale.group sep [g] ds = first ++ (rest.map (sep :: ·)).flatten := by
  generalize hn : ds.length = n
  induction n using Nat.strong_induction_on generalizing ds with
  | _ n ih =>
    by_cases h : g < ds.length
    · have hl : (ds.take (ds.length - g)).length = ds.length - g := by rw [List.length_take]; omega
      obtain ⟨first, rest, h1, h2, h3, h4, h5⟩ := ih (ds.length - g) (by omega) (ds.take (ds.length - g))
        (by rw [← List.length_pos_iff]; omega) hl
      refine ⟨first, rest ++ [ds.drop (ds.length - g)], ?_, ?_, h3, h4, ?_⟩
      · rw [List.flatten_append, ← List.append_assoc, ← h1]
        simp
      · intro r hr
        rcases List.mem_append.1 hr with hr | hr
        · exact h2 r hr
        · rw [List.mem_singleton.1 hr, List.length_drop]; omega
      · unfold Locale.group
        rw [if_pos ⟨hg.1, hg.2, h⟩, if_pos rfl, h5]
        simp
    · refine ⟨ds, [], by simp, by simp, List.length_pos_iff.2 hd, by omega, ?_⟩
      rw [group_plain]
      · simp
      · rintro ⟨g', t, e, -, -, h'⟩
        cases e
        exact h h'

/-- C109: without the separators, the digits are the same in every locale whose separator is not one of them. -/
theorem C109_digits (L : Locale) (n : ℤ) (hs : L.sep ∉ digitsOf n) :
    (Locale.group L.sep L.grouping (digitsOf n)).filter (· ≠ L.sep) = digitsOf n := group_filter _ _ _ _ rfl hs

/-- The digits in front of the text of a double. -/
def frontDigits (x : Dbl) : List UInt8 := (x.text.drop (if x.text.head? = some 45 then 1 else 0)).takeWhile (fun c => 48 ≤ c ∧ c ≤ 57)

theorem Locale.doubleText_iff (L : Locale) (x : Dbl) : (x.text.length ≤ (L.doubleText x).length) ∧ (L.doubleText x = x.text ↔
    ¬ L.Groups (frontDigits x).length ∧ (L.point = 46 ∨ 46 ∉ x.text)) := by
  have split : ∃ s r : List UInt8, x.text = s ++ r ∧ (∀ c ∈ s, c = 45) ∧
      frontDigits x = r.takeWhile (fun c => 48 ≤ c ∧ c ≤ 57) ∧
      L.doubleText x = s ++ Locale.group L.sep L.grouping (r.takeWhile (fun c => 48 ≤ c ∧ c ≤ 57)) ++
        (r.dropWhile (fun c => 48 ≤ c ∧ c ≤ 57)).map (fun c => if c = 46 then L.point else c) := by
    unfold frontDigits Locale.doubleText
    by_cases h : x.text.head? = some 45
    · refine ⟨[45], x.text.drop 1, ?_, by simp, by rw [if_pos h], by simp only [if_pos h]; rfl⟩
      cases ht : x.text with
      | nil => rw [ht] at h; cases h
      | cons c t =>
        rw [ht] at h
        cases h
        rfl
    · exact ⟨[], x.text, rfl, by simp, by rw [if_neg h]; rfl, by simp only [if_neg h]; rfl⟩
  obtain ⟨s, r, h1, h2, h3, h4⟩ := split
  rw [h4, h3, h1]
  set A := r.takeWhile (fun c => 48 ≤ c ∧ c ≤ 57) with hA
  set B := r.dropWhile (fun c => 48 ≤ c ∧ c ≤ 57) with hB
  have hr : r = A ++ B := (List.takeWhile_append_dropWhile).symm
  have hg := group_length L.sep _ L.grouping A rfl
  have hin : 46 ∈ s ++ r ↔ 46 ∈ B := by
    rw [hr, List.mem_append, List.mem_append]
    constructor
    · rintro (h | h | h)
      · exact absurd (h2 _ h) (by decide)
      · have := List.mem_takeWhile_imp h
        exact absurd this (by decide)
      · exact h
    · exact fun h => .inr (.inr h)
  rw [hin, ← group_eq_iff]
  refine ⟨?_, ?_⟩
  · rw [hr]
    simp only [List.length_append, List.length_map]
    omega
  · conv_lhs => rw [hr, ← List.append_assoc]
    constructor
    · intro e
      obtain ⟨e1, e2⟩ := List.append_inj' e (by rw [List.length_map])
      refine ⟨List.append_cancel_left e1, ?_⟩
      by_cases hm : 46 ∈ B
      · left
        have := (List.map_inj_left (g := id)).1 (e2.trans (List.map_id B).symm) 46 hm
        simpa using this
      · exact .inr hm
    · rintro ⟨e1, e2⟩
      rw [e1]
      congr 1
      refine (List.map_congr_left (fun c hc => ?_)).trans (List.map_id B)
      rcases e2 with e2 | e2
      · rw [e2]
        split
        · rename_i h; exact h.symm
        · rfl
      · have : c ≠ 46 := fun h => e2 (h ▸ hc)
        simp only [if_neg this, id]

/-- C109 for `Complex`, exact extent: nothing is grouped, and there is no decimal point or it is the usual one. -/
theorem C109_complex_exact (L : Locale) (x : Cx Dbl) : Cx.printIn L x = Cx.print Dbl.text x ↔
    (¬ L.Groups (frontDigits x.re).length ∧ (L.point = 46 ∨ 46 ∉ x.re.text)) ∧
    (¬ L.Groups (frontDigits x.im.abs).length ∧ (L.point = 46 ∨ 46 ∉ x.im.abs.text)) := by
  have h1 := Locale.doubleText_iff L x.re
  have h2 := Locale.doubleText_iff L x.im.abs
  rw [← h1.2, ← h2.2]
  unfold Cx.printIn Cx.print
  constructor
  · intro e
    have hl := congrArg List.length e
    simp only [List.length_append, List.length_cons, List.length_nil] at hl
    simp only [List.append_assoc, List.cons_append, List.nil_append, List.cons.injEq, true_and] at e
    obtain ⟨e1, e2⟩ := List.append_inj e (by omega)
    obtain ⟨e3, -⟩ := List.append_inj (List.cons.inj e2).2 (by omega)
    exact ⟨e1, e3⟩
  · rintro ⟨e1, e2⟩
    rw [e1, e2]

/-- C109 for `Complex`: locales that group nothing and have the usual point, such as `classic`. Missing: `C109_complex_not`. -/
theorem C109_complex_partial (L : Locale) (h1 : L.grouping = []) (h2 : L.point = 46) (x : Cx Dbl) :
    Cx.printIn L x = Cx.print Dbl.text x := by
  have hg : ∀ n, ¬ L.Groups n := by
    rintro n ⟨g, t, h, -⟩
    rw [h1] at h
    cases h
  exact (C109_complex_exact L x).2 ⟨⟨hg _, .inl h2⟩, hg _, .inl h2⟩

/-- C109 fails for `Complex`: with a decimal comma and points between the thousands, 1.5-2500j is printed as `(1,5-2.500j)`: the
text of another number in the classic locale. -/
theorem C109_complex_not :
    Cx.printIn ⟨44, 46, [3]⟩ ⟨.fin (3 / 2), .fin (-2500)⟩ = [40, 49, 44, 53, 45, 50, 46, 53, 48, 48, 106, 41] ∧
    Cx.print Dbl.text ⟨.fin (3 / 2), .fin (-2500)⟩ = [40, 49, 46, 53, 45, 50, 53, 48, 48, 106, 41] := by
  have t1 : Dbl.text (.fin (3 / 2)) = [49, 46, 53] := by decide +kernel
  have t2 : Dbl.text (Dbl.abs (.fin (-2500))) = [50, 53, 48, 48] := by decide +kernel
  have s : (Dbl.lt (.fin (-2500)) (.fin 0)) = true := by decide +kernel
  refine ⟨?_, by decide +kernel⟩
  unfold Cx.printIn Cx.print Locale.doubleText
  rw [t1, t2]
  simp [Locale.group, s]

example : BInt.printIn ⟨44, 46, [3]⟩ (enc (-1234567)) = .ok [45, 49, 50, 51, 52, 53, 54, 55] := by
  rw [C109_int]
  decide +kernel

example : Locale.Groups ⟨46, 44, [3]⟩ (digitsOf 1234).length ∧ ¬ Locale.Groups ⟨46, 44, [3]⟩ (digitsOf 123).length := by
  have h1 : (digitsOf 1234).length = 4 := by decide +kernel
  have h2 : (digitsOf 123).length = 3 := by decide +kernel
  rw [h1, h2]
  refine ⟨⟨3, [], rfl, by omega⟩, ?_⟩
  rintro ⟨g, t, e, -, -, h⟩
  cases e
  omega

example (L : Locale) : ∃ shown : BInt → List UInt8, ∀ z, BInt.printIn L (enc z) = .ok (shown (enc z)) :=
  ⟨fun b => match BInt.printIn L b with | .ok t => t | _ => [], fun z => by simp only [C109_int]⟩

end Pyincpp
