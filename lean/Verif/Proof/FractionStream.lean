import Verif.Proof.Fraction
import Verif.Proof.Stream

/-! # Lemmas about reading and printing fractions -/

namespace Pyincpp
namespace Frac
open IStream

theorem toDigits_numeral (n : ℕ) : (Nat.toDigits 10 n).map (fun c => c.toNat.toUInt8) = natNumeral n := by
  have hdig : ∀ d, d < 10 → (Nat.digitChar d).toNat.toUInt8 = (48 + d).toUInt8 := by
    intro d hd; interval_cases d <;> rfl
  induction n using Nat.strong_induction_on with
  | _ n ih =>
    by_cases h : n < 10
    · rw [Nat.toDigits_of_lt_base h]
      unfold natNumeral
      by_cases h0 : n = 0
      · subst h0; rfl
      · rw [if_neg h0, Nat.digits_of_lt 10 n h0 h]
        simp only [List.map_cons, List.map_nil, List.reverse_singleton, hdig n h]
    · have h0 : n ≠ 0 := by omega
      have h1 : n / 10 ≠ 0 := by omega
      rw [Nat.toDigits_of_base_le (by norm_num) (by omega), List.map_append, ih (n / 10) (by omega)]
      unfold natNumeral
      rw [if_neg h0, if_neg h1, Nat.digits_def' (b := 10) (n := n) (by norm_num) (by omega)]
      simp only [List.map_cons, List.map_nil, List.reverse_cons, List.map_append]
      rw [hdig _ (Nat.mod_lt _ (by norm_num))]

theorem intText_eq (n : ℤ) : intText n = numeral n := by
  unfold intText numeral
  rw [toDigits_numeral]
  split <;> rfl

/-- After the number the stream is at its end, or at a blank. -/
theorem peek_stops {rest : List UInt8} (h : Stops rest) :
    (peek ⟨rest, rest.isEmpty, false⟩).1 ≤ 0x20 ∧ (peek ⟨rest, rest.isEmpty, false⟩).2 = ⟨rest, rest.isEmpty, rest.isEmpty⟩ := by
  cases rest with
  | nil => exact ⟨by decide, rfl⟩
  | cons c t =>
    have := h c t rfl
    rw [List.isEmpty_cons, peek_cons]
    exact ⟨by simp; omega, rfl⟩

theorem starts_digit {c : UInt8} (h : IsDigit c ∨ c = 43 ∨ c = 45) : startsNumber (c.toNat : Int) = true := by
  unfold startsNumber
  rcases h with h | rfl | rfl
  · unfold IsDigit at h; simp; omega
  · rfl
  · rfl

theorem starts_iff (c : UInt8) : startsNumber (c.toNat : Int) = true ↔ IsDigit c ∨ c = 43 ∨ c = 45 := by
  refine ⟨fun h => ?_, starts_digit⟩
  unfold startsNumber at h
  simp only [Bool.or_eq_true, Bool.and_eq_true, decide_eq_true_iff, beq_iff_eq] at h
  unfold IsDigit
  rcases h with (h | h) | h
  · left; omega
  · right; right; apply UInt8.toNat_inj.1; rw [show (45 : UInt8).toNat = 45 from rfl]; omega
  · right; left; apply UInt8.toNat_inj.1; rw [show (43 : UInt8).toNat = 43 from rfl]; omega

theorem starts_literal {t : List UInt8} {z : ℤ} (h : Literal t z) (r : List UInt8) :
    ∃ c u, t ++ r = c :: u ∧ startsNumber (c.toNat : Int) = true ∧ 0x20 < c.toNat := by
  cases h with
  | plain _ hne hd =>
    cases t with
    | nil => exact absurd rfl hne
    | cons c t =>
      have := hd c (by simp)
      exact ⟨c, t ++ r, rfl, starts_digit (.inl this), by unfold IsDigit at this; omega⟩
  | plus ds hne hd => exact ⟨43, ds ++ r, rfl, rfl, by decide⟩
  | minus ds hne hd => exact ⟨45, ds ++ r, rfl, rfl, by decide⟩

variable {k : ℕ} {x : Frac} {s : IStream}

theorem input_fuel (h : s.skipBlanks k = .fuel) : (input k (x, s)).1 = .fuel := by
  unfold input
  rw [Meth.get_bind]
  simp only [h]
  rfl

theorem input_ok {s₀ : IStream} (h : s.skipBlanks k = .ok s₀) :
    input k (x, s) = (match (parse s₀).1 with
      | .ok f => (.ok (), (f, (parse s₀).2))
      | .throw m => (.throw m, (x, (parse s₀).2))
      | .ub u => (.ub u, (x, (parse s₀).2))
      | .fuel => (.fuel, (x, (parse s₀).2))) := by
  unfold input
  rw [Meth.get_bind]
  simp only [h, Meth.lift_ok_bind, Meth.set_bind]
  cases (parse s₀).1 <;> rfl

theorem parse_bad {c : UInt8} {t : List UInt8} (hc : startsNumber (c.toNat : Int) = false) :
    parse ⟨c :: t, false, false⟩ = (.throw msgLiteral, ⟨c :: t, false, false⟩) := by
  unfold parse
  simp only [peek_cons, hc, if_true]

theorem parse_int {t rest : List UInt8} {z : ℤ} (hl : Literal t z) (hz : IsInt z) (hr : Stops rest) :
    parse ⟨t ++ rest, false, false⟩ = (ofInt z, ⟨rest, rest.isEmpty, rest.isEmpty⟩) := by
  obtain ⟨c, u, e, hc, -⟩ := starts_literal hl rest
  obtain ⟨p1, p2⟩ := peek_stops hr
  have hp : peek ⟨t ++ rest, false, false⟩ = ((c.toNat : Int), ⟨t ++ rest, false, false⟩) := by rw [e]; rfl
  unfold parse
  rw [hp]
  simp only [hc, Bool.true_eq_false, if_false, readInt_literal hl hz (stops_noDigit hr), p1, p2, if_true]

/-- A number and a character that is no blank. -/
theorem parse_num {t w : List UInt8} {z : ℤ} {c : UInt8} (hl : Literal t z) (hz : IsInt z) (hc : 0x20 < c.toNat)
    (hd : isDigit c = false) : parse ⟨t ++ c :: w, false, false⟩ = parseDen (some z) (some c) ⟨w, false, false⟩ := by
  obtain ⟨c0, u, e, hc0, -⟩ := starts_literal hl (c :: w)
  have hp : peek ⟨t ++ c :: w, false, false⟩ = ((c0.toNat : Int), ⟨t ++ c :: w, false, false⟩) := by rw [e]; rfl
  have hlt : ¬ ((c.toNat : Int) ≤ 0x20) := by omega
  unfold parse
  rw [hp]
  simp only [hc0, Bool.true_eq_false, if_false]
  rw [readInt_literal hl hz (by intro c' r' e; cases e; exact hd), List.isEmpty_cons]
  simp only [peek_cons, hlt, if_false, readChar_cons w (isSpace_false hc)]

theorem parseDen_bad {w : List UInt8} {n : Option Int} {c : Option UInt8} (hw : startsNumber (peek ⟨w, false, false⟩).1 = false) :
    parseDen n c ⟨w, false, false⟩ = (.throw msgLiteral, ⟨w, w.isEmpty, w.isEmpty⟩) := by
  unfold parseDen
  simp only [hw, if_true]
  cases w <;> rfl

theorem parseDen_lit {t rest : List UInt8} {z z' : ℤ} {c : UInt8} (hl : Literal t z') (hz : IsInt z') (hr : NoDigit rest) :
    (c ≠ 47 ∨ (∃ d u, rest = d :: u ∧ 0x20 < d.toNat) →
      ∃ s', parseDen (some z) (some c) ⟨t ++ rest, false, false⟩ = (.throw msgLiteral, s')) ∧
    (c = 47 → Stops rest →
      parseDen (some z) (some c) ⟨t ++ rest, false, false⟩ = (make z z', ⟨rest, rest.isEmpty, rest.isEmpty⟩)) := by
  obtain ⟨c0, u, e, hc0, -⟩ := starts_literal hl rest
  have hp : peek ⟨t ++ rest, false, false⟩ = ((c0.toNat : Int), ⟨t ++ rest, false, false⟩) := by rw [e]; rfl
  unfold parseDen
  rw [hp]
  simp only [hc0, Bool.true_eq_false, if_false, readInt_literal hl hz hr]
  constructor
  · intro hb
    by_cases hc : c = 47
    · obtain ⟨d, u, rfl, hd⟩ := hb.resolve_left (by simp [hc])
      have : (0x20 : Int) < d.toNat := by omega
      simp only [hc, ne_eq, not_true_eq_false, if_false, List.isEmpty_cons, peek_cons, this, if_true]
      exact ⟨_, rfl⟩
    · simp only [ne_eq, hc, not_false_eq_true, if_true]
      exact ⟨_, rfl⟩
  · rintro rfl hs
    obtain ⟨p1, p2⟩ := peek_stops hs
    have : ¬ (0x20 < (peek ⟨rest, rest.isEmpty, false⟩).1) := by omega
    simp only [ne_eq, not_true_eq_false, if_false, this, p2]

theorem peek_pos {s : IStream} (h : -1 < s.peek.1) : ∃ c t, s = ⟨c :: t, false, false⟩ ∧ s.peek = ((c.toNat : Int), s) := by
  obtain ⟨buf, e, f⟩ := s
  by_cases hg : IStream.good ⟨buf, e, f⟩ = false
  · rw [peek_bad hg] at h; simp at h
  · obtain ⟨rfl, rfl⟩ : e = false ∧ f = false := by revert hg; cases e <;> cases f <;> simp [good]
    cases buf with
    | nil => rw [peek_nil] at h; simp at h
    | cons c t => exact ⟨c, t, rfl, rfl⟩

theorem starts_gt {c : Int} (h : startsNumber c = true) : 0x20 < c := by
  unfold startsNumber at h
  simp only [Bool.or_eq_true, Bool.and_eq_true, decide_eq_true_iff, beq_iff_eq] at h
  omega

theorem make_no_uninit (n d : ℤ) : make n d ≠ .ub .uninit ∧ make n d ≠ .fuel := by
  have hck : ∀ v, ck v = .ok v ∨ ck v = .ub .overflow := fun v => by unfold ck; split <;> simp
  have hdiv : ∀ a b, (∃ v, idiv a b = .ok v) ∨ idiv a b = .ub .overflow := fun a b => by
    unfold idiv; split
    · simp
    · rcases hck (a.tdiv b) with h | h <;> simp [h]
  have key : ∀ n d : ℤ, (do
      let g ← stdGcd n d
      let n ← idiv n g
      let d ← idiv d g
      pure (⟨n, d⟩ : Frac)) ≠ Res.ub .uninit ∧ (do
      let g ← stdGcd n d
      let n ← idiv n g
      let d ← idiv d g
      pure (⟨n, d⟩ : Frac)) ≠ Res.fuel := by
    intro n d
    unfold stdGcd
    split
    · exact ⟨(by intro h; cases h), (by intro h; cases h)⟩
    · rw [Res.ok_bind]
      rcases hdiv n (Int.gcd n d) with ⟨a, h⟩ | h <;> rw [h]
      · rw [Res.ok_bind]
        rcases hdiv d (Int.gcd n d) with ⟨b, h⟩ | h <;> rw [h] <;> exact ⟨(by intro h; cases h), (by intro h; cases h)⟩
      · exact ⟨(by intro h; cases h), (by intro h; cases h)⟩
  by_cases h0 : d = 0
  · rw [h0, make_zero]; simp
  · unfold make
    have hz : checkZero (d == 0) = .ok () := by simp [checkZero, h0]
    rw [hz, Res.ok_bind]
    split
    · unfold ineg
      rcases hck (-n) with h | h <;> rw [h]
      · rw [Res.ok_bind]
        rcases hck (-d) with h | h <;> rw [h]
        · exact key _ _
        · exact ⟨(by intro h; cases h), (by intro h; cases h)⟩
      · exact ⟨(by intro h; cases h), (by intro h; cases h)⟩
    · exact key _ _

/-- `operator>>` never reads a variable it did not set, whatever the stream holds. -/
theorem parse_no_uninit {c : UInt8} (t : List UInt8) (hc : 0x20 < c.toNat) :
    (parse ⟨c :: t, false, false⟩).1 ≠ .ub .uninit ∧ (parse ⟨c :: t, false, false⟩).1 ≠ .fuel := by
  obtain ⟨v, s, e⟩ := readInt_some t (isSpace_false hc)
  unfold parse
  rw [peek_cons]
  by_cases h1 : startsNumber (c.toNat : Int) = false
  · simp only [h1, if_true]; simp
  simp only [h1, e]
  by_cases h2 : s.peek.1 ≤ 0x20
  · simp only [h2, if_true]; exact make_no_uninit _ _
  simp only [h2, if_false]
  obtain ⟨c', t', rfl, hp⟩ := peek_pos (s := s) (by omega)
  have hc' : 0x20 < c'.toNat := by rw [hp] at h2; simp at h2; omega
  rw [hp, readChar_cons t' (isSpace_false hc')]
  unfold parseDen
  simp only
  by_cases h3 : startsNumber (peek ⟨t', false, false⟩).1 = false
  · simp only [h3, if_true]; simp
  simp only [h3]
  have h3 := starts_gt (by simpa using h3)
  obtain ⟨c2, t2, e2, hp2⟩ := peek_pos (s := ⟨t', false, false⟩) (by omega)
  have hc2 : 0x20 < c2.toNat := by rw [hp2] at h3; simp at h3; omega
  have e2 : t' = c2 :: t2 := by simpa using e2
  subst e2
  obtain ⟨v', s', e'⟩ := readInt_some t2 (isSpace_false hc2)
  rw [hp2]
  simp only [e']
  by_cases h4 : c' = 47
  · by_cases h5 : 0x20 < s'.peek.1
    · simp [h4, h5]
    · simp only [h4, ne_eq, not_true_eq_false, h5, if_false]
      exact make_no_uninit _ _
  · simp [h4]

end Frac
end Pyincpp
