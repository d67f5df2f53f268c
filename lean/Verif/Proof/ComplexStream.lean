import Verif.Model.ComplexStream
import Verif.Spec.ComplexStream
import Verif.Proof.Double
import Verif.Proof.FractionStream

/-! # Lemmas about reading complex numbers -/

namespace Pyincpp

namespace Cx
open IStream

/-- No digit or point follows. -/
def NoPoint (r : List UInt8) : Prop := ∀ c t, r = c :: t → ¬ IsDigit c ∧ c ≠ 46

theorem noDigit_of {r : List UInt8} (h : NoPoint r) : NoDigit r := by
  intro c t e
  have := (h c t e).1
  rw [← IStream.isDigit_iff] at this
  simpa using this

theorem ends_noPoint {r : List UInt8} (h : Ends r) : NoPoint r := fun c t e => ⟨(h c t e).1, (h c t e).2.1⟩

theorem ends_of_stops {r : List UInt8} (h : Stops r) : Ends r := by
  intro c t e
  have := h c t e
  refine ⟨?_, ?_, ?_, ?_⟩
  · unfold IsDigit; omega
  all_goals (rintro rfl; revert this; decide)

theorem ends_cons {c : UInt8} {t : List UInt8} (h : ¬ IsDigit c ∧ c ≠ 46 ∧ c ≠ 101 ∧ c ≠ 69) : Ends (c :: t) := by
  intro d u e; cases e; exact h

theorem scanSign_other {c : UInt8} {t : List UInt8} (h : c ≠ 43 ∧ c ≠ 45) : scanSign (c :: t) = (false, c :: t) := by
  unfold scanSign
  split
  · next e => cases e; exact absurd rfl h.2
  · next e => cases e; exact absurd rfl h.1
  · rfl

theorem scanFrac_other {r : List UInt8} (h : NoPoint r) : scanFrac r = ([], r) := by
  unfold scanFrac
  split
  · next e => exact absurd rfl (h _ _ rfl).2
  · rfl

theorem denote_append (a b : List UInt8) : denoteNat (a ++ b) = denoteNat a * 10 ^ b.length + denoteNat b := by
  induction b using List.reverseRecOn with
  | nil => simp [denoteNat]
  | append_singleton b c ih =>
    have h : ∀ l : List UInt8, denoteNat (l ++ [c]) = 10 * denoteNat l + (c.toNat - 48) := by
      intro l; unfold denoteNat; rw [List.foldl_append]; rfl
    rw [← List.append_assoc, h, h, ih, List.length_append, List.length_singleton, pow_succ]
    ring

theorem scan_mantissa {t r : List UInt8} {q : ℚ} (h : CxMantissa t q) (hr : NoPoint r) :
    ∃ ds fs, (t ++ r).takeWhile isDigit = ds ∧ scanFrac ((t ++ r).dropWhile isDigit) = (fs, r) ∧ (ds ++ fs).isEmpty = false ∧
      (digitsValue (ds ++ fs) : ℚ) / 10 ^ fs.length = q := by
  have hdv : ∀ l, digitsValue l = denoteNat l := fun _ => rfl
  cases h with
  | int ds hne hd =>
    obtain ⟨e1, e2⟩ := takeWhile_digits hd (noDigit_of hr)
    refine ⟨t, [], e1, ?_, ?_, ?_⟩
    · rw [e2, scanFrac_other hr]
    · cases t with
      | nil => exact absurd rfl hne
      | cons => rfl
    · rw [List.append_nil, hdv]; simp
  | frac ds fs hne hd hf =>
    have hp : NoDigit (46 :: (fs ++ r)) := by intro c t e; cases e; decide
    obtain ⟨e1, e2⟩ := takeWhile_digits hd hp
    obtain ⟨f1, f2⟩ := takeWhile_digits hf (noDigit_of hr)
    have e : ds ++ 46 :: fs ++ r = ds ++ 46 :: (fs ++ r) := by simp
    rw [e]
    refine ⟨ds, fs, e1, ?_, ?_, ?_⟩
    · rw [e2]
      unfold scanFrac
      simp only [f1, f2]
    · cases ds with
      | nil => cases fs with
        | nil => simp at hne
        | cons => rfl
      | cons => rfl
    · rw [hdv, denote_append]
      push_cast
      field_simp

theorem scanExp_none {r : List UInt8} (h : Ends r) : scanExp r = (none, r) := by
  unfold scanExp
  cases r with
  | nil => rfl
  | cons c t =>
    have := (h c t rfl).2.2
    simp only
    rw [if_neg (by rintro (h | h); exact this.1 h; exact this.2 h)]

theorem scanExp_some {x r : List UInt8} {z : ℤ} {e : UInt8} (he : e = 101 ∨ e = 69) (h : Literal x z) (hr : NoDigit r) :
    ∃ n ds, scanExp (e :: (x ++ r)) = (some (n, ds), r) ∧ ds.isEmpty = false ∧
      (if n then -(digitsValue ds : ℤ) else (digitsValue ds : ℤ)) = z := by
  have hne' : ∀ ds : List UInt8, ds ≠ [] → ds.isEmpty = false := by intro ds h; cases ds; exact absurd rfl h; rfl
  unfold scanExp
  simp only [if_pos he]
  cases h with
  | plain _ hne hd =>
    cases x with
    | nil => exact absurd rfl hne
    | cons c t =>
      obtain ⟨e1, e2⟩ := takeWhile_digits hd hr
      have hs : scanSign (c :: t ++ r) = (false, c :: t ++ r) := scanSign_other (digit_ne (hd c (by simp)))
      rw [hs]
      exact ⟨false, c :: t, by rw [e1, e2], rfl, rfl⟩
  | plus ds hne hd =>
    obtain ⟨e1, e2⟩ := takeWhile_digits hd hr
    have hs : scanSign (43 :: ds ++ r) = (false, ds ++ r) := rfl
    rw [hs]
    exact ⟨false, ds, by rw [e1, e2], hne' _ hne, rfl⟩
  | minus ds hne hd =>
    obtain ⟨e1, e2⟩ := takeWhile_digits hd hr
    have hs : scanSign (45 :: ds ++ r) = (true, ds ++ r) := rfl
    rw [hs]
    exact ⟨true, ds, by rw [e1, e2], hne' _ hne, rfl⟩

theorem scan_unsigned {l t r : List UInt8} {q : ℚ} {n : Bool} (h : CxUnsigned t q) (hr : Ends r) (hs : scanSign l = (n, t ++ r)) :
    ∃ ft, scanFloat l = (ft, r) ∧ ft.value = some (if n then -q else q) := by
  cases h with
  | plain _ _ h =>
    obtain ⟨ds, fs, e1, e2, e3, e4⟩ := scan_mantissa h (ends_noPoint hr)
    refine ⟨⟨n, ds, fs, none⟩, ?_, ?_⟩
    · unfold scanFloat
      simp only [hs, e1, e2, e3, Bool.false_eq_true, if_false, scanExp_none hr]
    · unfold FloatText.value
      simp only [e3, Bool.false_eq_true, if_false, e4]
  | exp t x q z e h he hx =>
    have e0 : t ++ e :: x ++ r = t ++ (e :: (x ++ r)) := by simp
    rw [e0] at hs
    have hp : NoPoint (e :: (x ++ r)) := by
      intro c u h; cases h
      rcases he with rfl | rfl <;> decide
    obtain ⟨ds, fs, e1, e2, e3, e4⟩ := scan_mantissa h hp
    obtain ⟨m, xs, x1, x2, x3⟩ := scanExp_some he hx (noDigit_of (ends_noPoint hr))
    refine ⟨⟨n, ds, fs, some (m, xs)⟩, ?_, ?_⟩
    · unfold scanFloat
      simp only [hs, e1, e2, e3, Bool.false_eq_true, if_false, x1]
    · unfold FloatText.value
      simp only [e3, Bool.false_eq_true, if_false, e4, x2, x3]
      cases n <;> simp

theorem mantissa_start {t : List UInt8} {q : ℚ} (h : CxMantissa t q) : ∃ c u, t = c :: u ∧ (IsDigit c ∨ c = 46) := by
  cases h with
  | int _ hne hd =>
    cases t with
    | nil => exact absurd rfl hne
    | cons c t => exact ⟨c, t, rfl, .inl (hd c (by simp))⟩
  | frac ds fs hne hd hf =>
    cases ds with
    | nil => exact ⟨46, fs, rfl, .inr rfl⟩
    | cons c t => exact ⟨c, _, rfl, .inl (hd c (by simp))⟩

theorem unsigned_start {t : List UInt8} {q : ℚ} (h : CxUnsigned t q) : ∃ c u, t = c :: u ∧ (IsDigit c ∨ c = 46) := by
  cases h with
  | plain _ _ h => exact mantissa_start h
  | exp t x q z e h _ _ =>
    obtain ⟨c, u, rfl, hc⟩ := mantissa_start h
    exact ⟨c, _, rfl, hc⟩

theorem scan_decimal {t r : List UInt8} {q : ℚ} (h : CxDecimal t q) (hr : Ends r) :
    ∃ ft, scanFloat (t ++ r) = (ft, r) ∧ ft.value = some q := by
  cases h with
  | plain _ _ h =>
    obtain ⟨c, u, rfl, hc⟩ := unsigned_start h
    have hn : c ≠ 43 ∧ c ≠ 45 := by
      rcases hc with hc | rfl
      · exact digit_ne hc
      · decide
    exact scan_unsigned (n := false) h hr (scanSign_other hn)
  | plus t _ h => exact scan_unsigned (n := false) h hr rfl
  | minus t q h => exact scan_unsigned (n := true) h hr rfl

theorem starts_iff (c : UInt8) : startsNumber (c.toNat : Int) = true ↔ IsDigit c ∨ c = 43 ∨ c = 45 ∨ c = 46 := by
  have key : ∀ d : UInt8, (c.toNat : Int) = d.toNat ↔ c = d := fun d =>
    ⟨fun h => UInt8.toNat_inj.1 (by omega), fun h => by rw [h]⟩
  have h45 := key 45
  have h43 := key 43
  have h46 := key 46
  simp only [UInt8.reduceToNat] at h45 h43 h46
  unfold startsNumber IsDigit
  simp only [Bool.or_eq_true, Bool.and_eq_true, decide_eq_true_iff, beq_iff_eq]
  push_cast at *
  rw [h45, h43, h46]
  have : (48 ≤ (c.toNat : Int) ∧ (c.toNat : Int) ≤ 57) ↔ (48 ≤ c.toNat ∧ c.toNat ≤ 57) := by omega
  rw [this]
  tauto

theorem starts_gt {c : UInt8} (h : startsNumber (c.toNat : Int) = true) : 0x20 < c.toNat := by
  rcases (starts_iff c).1 h with h | rfl | rfl | rfl
  · unfold IsDigit at h; omega
  all_goals decide

theorem decimal_start {t : List UInt8} {q : ℚ} (h : CxDecimal t q) (r : List UInt8) :
    ∃ c u, t ++ r = c :: u ∧ startsNumber (c.toNat : Int) = true ∧ 0x20 < c.toNat := by
  suffices ∃ c u, t = c :: u ∧ startsNumber (c.toNat : Int) = true by
    obtain ⟨c, u, rfl, hc⟩ := this
    exact ⟨c, u ++ r, rfl, hc, starts_gt hc⟩
  cases h with
  | plain _ _ h =>
    obtain ⟨c, u, rfl, hc⟩ := unsigned_start h
    exact ⟨c, u, rfl, (starts_iff c).2 (by tauto)⟩
  | plus t _ h => exact ⟨43, t, rfl, rfl⟩
  | minus t q h => exact ⟨45, t, rfl, rfl⟩

/-- `is >> x` on a floating point text whose value does not overflow. -/
theorem readDouble_decimal {t r : List UInt8} {q : ℚ} (h : CxDecimal t q) (hr : Ends r) (hq : |Dbl.rnd q| < 2 ^ 1024) :
    readDouble ⟨t ++ r, false, false⟩ = (some (.fin (Dbl.rnd q)), ⟨r, r.isEmpty, false⟩) := by
  obtain ⟨c, u, e, -, hc⟩ := decimal_start h r
  obtain ⟨ft, e1, e2⟩ := scan_decimal h hr
  have hs : sentry ⟨t ++ r, false, false⟩ = (true, ⟨t ++ r, false, false⟩) := by
    rw [e]; exact sentry_cons _ (isSpace_false hc)
  have ho : Dbl.ofRat q = .fin (Dbl.rnd q) := by
    unfold Dbl.ofRat; rw [if_neg (not_le.2 hq)]
  unfold readDouble
  rw [hs]
  simp only [e1, e2, ho]

/-- `is >> x` always stores something if a character other than white space follows. -/
theorem readDouble_some {c : UInt8} (t : List UInt8) (h : isSpace c = false) :
    ∃ v s, readDouble ⟨c :: t, false, false⟩ = (some v, s) := by
  unfold readDouble
  rw [sentry_cons t h]
  simp only
  repeat' split
  all_goals exact ⟨_, _, rfl⟩

variable {k : ℕ} {x : Cx Dbl} {s : IStream}

theorem input_fuel (h : s.skipBlanks k = .fuel) : (input k (x, s)).1 = .fuel := by
  unfold input
  rw [Meth.get_bind]
  simp only [h]
  rfl

theorem input_ok {s₀ : IStream} (h : s.skipBlanks k = .ok s₀) :
    input k (x, s) = (match (parse s₀).1 with
      | .ok f => (.ok (), (f, (parse s₀).2))
      | .throw m => (.throw m, (x, (parse s₀).2))
      | .ub u => (.ub u, (x, (parse s₀).2))
      | .fuel => (.fuel, (x, (parse s₀).2))) := by
  unfold input
  rw [Meth.get_bind]
  simp only [h, Meth.lift_ok_bind, Meth.set_bind]
  cases (parse s₀).1 <;> rfl

theorem parse_bad {c : UInt8} {t : List UInt8} (hc : startsNumber (c.toNat : Int) = false) :
    parse ⟨c :: t, false, false⟩ = (.throw msgLiteral, ⟨c :: t, false, false⟩) := by
  unfold parse
  simp only [peek_cons, hc, if_true]

theorem parse_real {t rest : List UInt8} {q : ℚ} (hd : CxDecimal t q) (hq : |Dbl.rnd q| < 2 ^ 1024) (hr : Stops rest) :
    parse ⟨t ++ rest, false, false⟩ = (.ok ⟨.fin (Dbl.rnd q), .fin 0⟩, ⟨rest, rest.isEmpty, rest.isEmpty⟩) := by
  obtain ⟨c, u, e, hc, -⟩ := decimal_start hd rest
  obtain ⟨p1, p2⟩ := Frac.peek_stops hr
  have hp : peek ⟨t ++ rest, false, false⟩ = ((c.toNat : Int), ⟨t ++ rest, false, false⟩) := by rw [e]; rfl
  unfold parse
  rw [hp]
  simp only [hc, Bool.true_eq_false, if_false, readDouble_decimal hd (ends_of_stops hr) hq, p1, p2, if_true]

/-- A number and a character that is no blank. -/
theorem parse_num {t w : List UInt8} {q : ℚ} {c : UInt8} (hd : CxDecimal t q) (hq : |Dbl.rnd q| < 2 ^ 1024) (hc : 0x20 < c.toNat)
    (he : Ends (c :: w)) :
    parse ⟨t ++ c :: w, false, false⟩ = if c = 106 then
      (if (peek ⟨w, false, false⟩).1 ≤ 0x20 then (.ok ⟨.fin 0, .fin (Dbl.rnd q)⟩, (peek ⟨w, false, false⟩).2)
       else (.throw msgLiteral, (peek ⟨w, false, false⟩).2))
      else parseImag (some (.fin (Dbl.rnd q))) ⟨c :: w, false, false⟩ := by
  obtain ⟨c0, u, e, hc0, -⟩ := decimal_start hd (c :: w)
  have hp : peek ⟨t ++ c :: w, false, false⟩ = ((c0.toNat : Int), ⟨t ++ c :: w, false, false⟩) := by rw [e]; rfl
  have hlt : ¬ ((c.toNat : Int) ≤ 0x20) := by omega
  have h106 : ((c.toNat : Int) = 106) ↔ c = 106 :=
    ⟨fun h => UInt8.toNat_inj.1 (by rw [show (106 : UInt8).toNat = 106 from rfl]; omega), fun h => by rw [h]; rfl⟩
  unfold parse
  rw [hp]
  simp only [hc0, Bool.true_eq_false, if_false]
  rw [readDouble_decimal hd he hq, List.isEmpty_cons]
  simp only [peek_cons, hlt, if_false, h106]
  rfl

/-- The imaginary part and a character that is no blank. -/
theorem parseImag_lit {t w : List UInt8} {q : ℚ} {c : UInt8} {re : Dbl} (hd : CxDecimal t q) (hq : |Dbl.rnd q| < 2 ^ 1024)
    (hc : 0x20 < c.toNat) (he : Ends (c :: w)) :
    parseImag (some re) ⟨t ++ c :: w, false, false⟩ = if c ≠ 106 then (.throw msgLiteral, ⟨w, false, false⟩)
      else if 0x20 < (peek ⟨w, false, false⟩).1 then (.throw msgLiteral, (peek ⟨w, false, false⟩).2)
      else (.ok ⟨re, .fin (Dbl.rnd q)⟩, (peek ⟨w, false, false⟩).2) := by
  unfold parseImag
  rw [readDouble_decimal hd he hq, List.isEmpty_cons]
  simp only [readChar_cons w (isSpace_false hc)]

/-- Nothing is ever used uninitialised but the character after the imaginary part. -/
theorem parse_total {c : UInt8} (t : List UInt8) :
    (parse ⟨c :: t, false, false⟩).1 ≠ .fuel ∧ ∀ u, (parse ⟨c :: t, false, false⟩).1 = .ub u → u = .uninit := by
  unfold parse parseImag
  simp only
  repeat' split
  all_goals simp

end Cx
end Pyincpp
