import Verif.Proof.ComplexStream

/-! # Theorems about reading and printing complex numbers (C55, C61, C62) -/

namespace Pyincpp
open Cx IStream

/-- C62: a floating point text, after blanks and followed by a blank or the end, is read as a real number: the `double`
nearest to the number denoted. At the end of the input the stream has failed afterwards. -/
theorem C62_read_real (bl t rest : List UInt8) (q : ℚ) (hbl : ∀ b ∈ bl, b.toNat ≤ 0x20) (hd : CxDecimal t q)
    (hq : |Dbl.rnd q| < 2 ^ 1024) (hr : Stops rest) (x : Cx Dbl) (k : ℕ) (hk : bl.length < k) :
    Cx.input k (x, ⟨bl ++ (t ++ rest), false, false⟩)
      = (.ok (), (⟨.fin (Dbl.rnd q), .fin 0⟩, ⟨rest, rest.isEmpty, rest.isEmpty⟩)) := by
  obtain ⟨c, u, e, -, hc⟩ := decimal_start hd rest
  have h := skipBlanks_ok u hc bl hbl k hk
  rw [← e] at h
  rw [Cx.input_ok h, parse_real hd hq hr]

/-- C62: with a `j` after it, it is read as an imaginary number. -/
theorem C62_read_imag (bl t rest : List UInt8) (q : ℚ) (hbl : ∀ b ∈ bl, b.toNat ≤ 0x20) (hd : CxDecimal t q)
    (hq : |Dbl.rnd q| < 2 ^ 1024) (hr : Stops rest) (x : Cx Dbl) (k : ℕ) (hk : bl.length < k) :
    Cx.input k (x, ⟨bl ++ (t ++ 106 :: rest), false, false⟩)
      = (.ok (), (⟨.fin 0, .fin (Dbl.rnd q)⟩, ⟨rest, rest.isEmpty, false⟩)) := by
  obtain ⟨c, u, e, -, hc⟩ := decimal_start hd (106 :: rest)
  have h := skipBlanks_ok u hc bl hbl k hk
  rw [← e] at h
  rw [Cx.input_ok h, Cx.parse_num hd hq (by decide) (ends_cons (by decide))]
  cases rest with
  | nil => rfl
  | cons b r =>
    have : (b.toNat : Int) ≤ 0x20 := by have := hr b r rfl; omega
    simp only [peek_cons, this, if_true, List.isEmpty_cons]

/-- C62: two floating point texts, the second one with a sign and a `j` after it. -/
theorem C62_read_pair (bl t t' rest : List UInt8) (q q' : ℚ) (s : UInt8) (hs : s = 43 ∨ s = 45)
    (hbl : ∀ b ∈ bl, b.toNat ≤ 0x20) (hd : CxDecimal t q) (hq : |Dbl.rnd q| < 2 ^ 1024) (hd' : CxDecimal (s :: t') q')
    (hq' : |Dbl.rnd q'| < 2 ^ 1024) (hr : Stops rest) (x : Cx Dbl) (k : ℕ) (hk : bl.length < k) :
    Cx.input k (x, ⟨bl ++ (t ++ (s :: t') ++ 106 :: rest), false, false⟩)
      = (.ok (), (⟨.fin (Dbl.rnd q), .fin (Dbl.rnd q')⟩, ⟨rest, rest.isEmpty, false⟩)) := by
  obtain ⟨c, u, e, -, hc⟩ := decimal_start hd (s :: t' ++ 106 :: rest)
  have h := skipBlanks_ok u hc bl hbl k hk
  rw [← e] at h
  have e0 : t ++ (s :: t') ++ 106 :: rest = t ++ (s :: t' ++ 106 :: rest) := by simp
  have hse : Ends (s :: (t' ++ 106 :: rest)) := ends_cons (by rcases hs with rfl | rfl <;> decide)
  have hsg : 0x20 < s.toNat := by rcases hs with rfl | rfl <;> decide
  have hsj : s ≠ 106 := by rcases hs with rfl | rfl <;> decide
  rw [e0, Cx.input_ok h, List.cons_append, Cx.parse_num hd hq hsg hse, if_neg hsj, ← List.cons_append,
    parseImag_lit hd' hq' (by decide) (ends_cons (by decide))]
  cases rest with
  | nil => rfl
  | cons b r =>
    have : ¬ (0x20 < (b.toNat : Int)) := by have := hr b r rfl; omega
    simp only [ne_eq, not_true_eq_false, peek_cons, this, if_false, List.isEmpty_cons]

/-- `-1.5e1` denotes -15. -/
example : CxDecimal [45, 49, 46, 53, 101, 49] (-15) ∧ |Dbl.rnd (-15)| < 2 ^ 1024 := by
  refine ⟨?_, by decide +kernel⟩
  have h := CxDecimal.minus _ _ (CxUnsigned.exp _ _ _ _ 101
    (CxMantissa.frac [49] [53] (by simp) (by decide) (by decide)) (.inl rfl) (Literal.plain [49] (by simp) (by decide)))
  have e : -(((denoteNat [49] : ℚ) + denoteNat [53] / 10 ^ [(53 : UInt8)].length) * 10 ^ ((denoteNat [49] : ℕ) : ℤ)) = -15 := by
    have h1 : denoteNat [49] = 1 := by decide
    have h5 : denoteNat [53] = 5 := by decide
    rw [h1, h5]
    norm_num
  rw [e] at h
  exact h

example : Cx.input 9 (⟨.nan, .nan⟩, ⟨[32, 49, 45, 50, 106, 10, 120], false, false⟩)
    = (.ok (), (⟨.fin 1, .fin (-2)⟩, ⟨[10, 120], false, false⟩)) := by decide +kernel

/-- C62, malformed texts: `operator>>` throws and leaves the number as it was (i) if the first character can not begin a
number, (ii) if something follows the `j` of an imaginary number, (iii) if the number after the real part is not followed
by a `j`, (iv) or if something follows this `j`. Missing: the texts of `C62_malformed_not` and `C62_malformed_ub`. -/
theorem C62_malformed_partial (bl w : List UInt8) (hbl : ∀ b ∈ bl, b.toNat ≤ 0x20) (x : Cx Dbl)
    (hw : (∃ c u, w = c :: u ∧ 0x20 < c.toNat ∧ ¬ IsDigit c ∧ c ≠ 43 ∧ c ≠ 45 ∧ c ≠ 46) ∨
      (∃ t q, CxDecimal t q ∧ |Dbl.rnd q| < 2 ^ 1024 ∧
        ((∃ c u, w = t ++ 106 :: c :: u ∧ 0x20 < c.toNat) ∨
         (∃ s t' q', (s = 43 ∨ s = 45) ∧ CxDecimal (s :: t') q' ∧ |Dbl.rnd q'| < 2 ^ 1024 ∧
           ((∃ c u, w = t ++ (s :: t') ++ c :: u ∧ 0x20 < c.toNat ∧ Ends (c :: u) ∧ c ≠ 106) ∨
            (∃ c u, w = t ++ (s :: t') ++ 106 :: c :: u ∧ 0x20 < c.toNat)))))) :
    ∃ s', ∀ k, bl.length < k → Cx.input k (x, ⟨bl ++ w, false, false⟩) = (.throw "Error: Wrong complex literal.", (x, s')) := by
  suffices h : ∃ c u, w = c :: u ∧ 0x20 < c.toNat ∧ ∃ s', Cx.parse ⟨w, false, false⟩ = (.throw Cx.msgLiteral, s') by
    obtain ⟨c, u, rfl, hc, s', e⟩ := h
    exact ⟨s', fun k hk => by rw [Cx.input_ok (skipBlanks_ok u hc bl hbl k hk), e]; rfl⟩
  rcases hw with ⟨c, u, rfl, hc, h0, h1, h2, h3⟩ | ⟨t, q, hd, hq, hw⟩
  · refine ⟨c, u, rfl, hc, _, Cx.parse_bad ?_⟩
    rw [Bool.eq_false_iff]
    intro h
    rcases (Cx.starts_iff c).1 h with h | h | h | h
    exacts [h0 h, h1 h, h2 h, h3 h]
  · obtain ⟨r, hr⟩ : ∃ r, w = t ++ r := by
      rcases hw with ⟨c, u, e, -⟩ | ⟨s, t', q', -, -, -, ⟨c, u, e, -⟩ | ⟨c, u, e, -⟩⟩
      · exact ⟨_, e⟩
      · exact ⟨_, by rw [e, List.append_assoc]⟩
      · exact ⟨_, by rw [e, List.append_assoc]⟩
    obtain ⟨c0, u0, e0, -, hc0⟩ := decimal_start hd r
    refine ⟨c0, u0, by rw [hr, e0], hc0, ?_⟩
    rcases hw with ⟨c, u, rfl, hc⟩ | ⟨s, t', q', hs, hd', hq', hw⟩
    · rw [Cx.parse_num hd hq (by decide) (ends_cons (by decide))]
      have : ¬ ((c.toNat : Int) ≤ 0x20) := by omega
      simp only [if_true, peek_cons, this, if_false]
      exact ⟨_, rfl⟩
    · have hsg : 0x20 < s.toNat := by rcases hs with rfl | rfl <;> decide
      have hsj : s ≠ 106 := by rcases hs with rfl | rfl <;> decide
      have hse : ∀ l, Ends (s :: l) := fun l => ends_cons (by rcases hs with rfl | rfl <;> decide)
      rcases hw with ⟨c, u, rfl, hc, he, hj⟩ | ⟨c, u, rfl, hc⟩
      · rw [List.append_assoc, List.cons_append, Cx.parse_num hd hq hsg (hse _), if_neg hsj, ← List.cons_append,
          parseImag_lit hd' hq' hc he, if_pos hj]
        exact ⟨_, rfl⟩
      · rw [List.append_assoc, List.cons_append, Cx.parse_num hd hq hsg (hse _), if_neg hsj, ← List.cons_append,
          parseImag_lit hd' hq' (by decide) (ends_cons (by decide))]
        have : (0x20 : Int) < c.toNat := by omega
        simp only [ne_eq, not_true_eq_false, if_false, peek_cons, this, if_true]
        exact ⟨_, rfl⟩

/-- C62 fails: after the real part, a character that is neither `j` nor the beginning of a number, or a second number
with nothing but white space to the end of the input, makes `operator>>` use the uninitialised `c`: the intended check of
"1z+2j" is undefined behaviour. -/
theorem C62_malformed_ub (bl t : List UInt8) (q : ℚ) (hbl : ∀ b ∈ bl, b.toNat ≤ 0x20) (hd : CxDecimal t q)
    (hq : |Dbl.rnd q| < 2 ^ 1024) (x : Cx Dbl) (r : List UInt8)
    (hr : (∃ c u, r = c :: u ∧ 0x20 < c.toNat ∧ Ends (c :: u) ∧ c ≠ 43 ∧ c ≠ 45 ∧ c ≠ 106) ∨
      (∃ s t' q' e, (s = 43 ∨ s = 45) ∧ CxDecimal (s :: t') q' ∧ |Dbl.rnd q'| < 2 ^ 1024 ∧ r = s :: t' ++ e ∧
        ∀ c ∈ e, IsWhite c)) :
    ∀ k, bl.length < k → (Cx.input k (x, ⟨bl ++ (t ++ r), false, false⟩)).1 = .ub .uninit := by
  intro k hk
  obtain ⟨c0, u0, e0, -, hc0⟩ := decimal_start hd r
  have h := skipBlanks_ok u0 hc0 bl hbl k hk
  rw [← e0] at h
  suffices hp : (Cx.parse ⟨t ++ r, false, false⟩).1 = .ub .uninit by rw [Cx.input_ok h, hp]
  simp only [← isSpace_iff] at hr
  rcases hr with ⟨c, u, rfl, hc, he, h1, h2, h3⟩ | ⟨s, t', q', e, hs, hd', hq', rfl, hsp⟩
  · rw [Cx.parse_num hd hq hc he, if_neg h3]
    have hnd : IStream.isDigit c = false := by
      have := (he c u rfl).1
      rw [← IStream.isDigit_iff] at this
      simpa using this
    have hscan : scanFloat (c :: u) = (⟨false, [], [], none⟩, c :: u) := by
      unfold scanFloat
      rw [scanSign_other ⟨h1, h2⟩]
      simp only [List.takeWhile_cons, List.dropWhile_cons, hnd, Bool.false_eq_true, if_false]
      rw [scanFrac_other (ends_noPoint he)]
      simp
    have hread : readDouble ⟨c :: u, false, false⟩ = (some (.fin 0), ⟨c :: u, false, true⟩) := by
      unfold readDouble
      rw [sentry_cons u (isSpace_false hc)]
      simp only [hscan]
      rfl
    unfold parseImag
    rw [hread]
    rfl
  · have hsg : 0x20 < s.toNat := by rcases hs with rfl | rfl <;> decide
    have hsj : s ≠ 106 := by rcases hs with rfl | rfl <;> decide
    have hse : ∀ l, Ends (s :: l) := fun l => ends_cons (by rcases hs with rfl | rfl <;> decide)
    have hee : Ends e := by
      intro c u h
      have h2 := hsp c (by rw [h]; simp)
      refine ⟨?_, ?_, ?_, ?_⟩
      · intro h3
        rw [isSpace_false (by unfold IsDigit at h3; omega)] at h2
        exact absurd h2 (by simp)
      all_goals (rintro rfl; exact absurd h2 (by decide))
    rw [List.cons_append, Cx.parse_num hd hq hsg (hse _), if_neg hsj, ← List.cons_append]
    unfold parseImag
    rw [readDouble_decimal hd' hee hq']
    have hdw : e.dropWhile isSpace = [] := by rw [List.dropWhile_eq_nil_iff]; exact hsp
    have hs0 : ∃ s', sentry ⟨e, e.isEmpty, false⟩ = (false, s') := by
      cases e with
      | nil => exact ⟨_, rfl⟩
      | cons a b =>
        unfold sentry good
        simp only [List.isEmpty_cons, Bool.not_false, Bool.and_self, Bool.not_true, Bool.false_eq_true, if_false, hdw]
        exact ⟨_, rfl⟩
    obtain ⟨s', hs'⟩ := hs0
    unfold readChar
    simp only [hs']

/-- `1z+2j` and `1+2`. -/
example : (Cx.input 9 (⟨.fin 0, .fin 0⟩, ⟨[49, 122, 43, 50, 106], false, false⟩)).1 = .ub .uninit ∧
    (Cx.input 9 (⟨.fin 0, .fin 0⟩, ⟨[49, 43, 50], false, false⟩)).1 = .ub .uninit := by decide +kernel

/-- Reading a number that is too large. -/
theorem readDouble_large {t r : List UInt8} {q : ℚ} (h : CxDecimal t q) (hr : Ends r) (hq : 2 ^ 1024 ≤ |Dbl.rnd q|) :
    readDouble ⟨t ++ r, false, false⟩ =
      (some (.fin (if q < 0 then -((2 ^ 53 - 1) * 2 ^ 971) else (2 ^ 53 - 1) * 2 ^ 971)), ⟨r, r.isEmpty, true⟩) := by
  obtain ⟨c, u, e, -, hc⟩ := decimal_start h r
  obtain ⟨ft, e1, e2⟩ := scan_decimal h hr
  have hs : sentry ⟨t ++ r, false, false⟩ = (true, ⟨t ++ r, false, false⟩) := by
    rw [e]; exact sentry_cons _ (isSpace_false hc)
  obtain ⟨b, ho⟩ : ∃ b, Dbl.ofRat q = .inf b := by
    unfold Dbl.ofRat; rw [if_pos hq]; exact ⟨_, rfl⟩
  unfold readDouble
  rw [hs]
  simp only [e1, e2, ho]
  rfl

/-- C62, a number too large for a `double`: no exception is thrown. It is read as the largest finite `double` with its sign, the stream
has failed, and whatever follows (`j`, an imaginary part, or anything else) is neither read nor checked. -/
theorem C62_large_partial (bl t rest : List UInt8) (q : ℚ) (hbl : ∀ b ∈ bl, b.toNat ≤ 0x20) (hd : CxDecimal t q)
    (hq : 2 ^ 1024 ≤ |Dbl.rnd q|) (hr : Ends rest) (x : Cx Dbl) (k : ℕ) (hk : bl.length < k) :
    Cx.input k (x, ⟨bl ++ (t ++ rest), false, false⟩)
      = (.ok (), (⟨.fin (if q < 0 then -((2 ^ 53 - 1) * 2 ^ 971) else (2 ^ 53 - 1) * 2 ^ 971), .fin 0⟩, ⟨rest, rest.isEmpty, true⟩)) := by
  obtain ⟨c, u, e, hc', hc⟩ := decimal_start hd rest
  have h := skipBlanks_ok u hc bl hbl k hk
  rw [← e] at h
  have hp : peek ⟨t ++ rest, false, false⟩ = ((c.toNat : Int), ⟨t ++ rest, false, false⟩) := by rw [e]; rfl
  have hp2 : peek ⟨rest, rest.isEmpty, true⟩ = (-1, ⟨rest, rest.isEmpty, true⟩) := by
    unfold peek good; simp
  rw [Cx.input_ok h]
  unfold Cx.parse
  rw [hp]
  simp only [hc', Bool.true_eq_false, if_false, readDouble_large hd hr hq, hp2]
  rfl

/-- C62 fails: an imaginary part that is too large makes `operator>>` use the uninitialised `c`, even if the `j` is there. -/
theorem C62_large_imag_ub (bl t t' rest : List UInt8) (q q' : ℚ) (s : UInt8) (hs : s = 43 ∨ s = 45)
    (hbl : ∀ b ∈ bl, b.toNat ≤ 0x20) (hd : CxDecimal t q) (hq : |Dbl.rnd q| < 2 ^ 1024) (hd' : CxDecimal (s :: t') q')
    (hq' : 2 ^ 1024 ≤ |Dbl.rnd q'|) (hr : Ends rest) (x : Cx Dbl) (k : ℕ) (hk : bl.length < k) :
    (Cx.input k (x, ⟨bl ++ (t ++ (s :: t') ++ rest), false, false⟩)).1 = .ub .uninit := by
  have e0 : t ++ (s :: t') ++ rest = t ++ (s :: (t' ++ rest)) := by simp
  obtain ⟨c, u, e, -, hc⟩ := decimal_start hd (s :: (t' ++ rest))
  have h := skipBlanks_ok u hc bl hbl k hk
  rw [← e] at h
  have hsg : 0x20 < s.toNat := by rcases hs with rfl | rfl <;> decide
  have hsj : s ≠ 106 := by rcases hs with rfl | rfl <;> decide
  have hse : Ends (s :: (t' ++ rest)) := ends_cons (by rcases hs with rfl | rfl <;> decide)
  have hp : (Cx.parse ⟨t ++ s :: (t' ++ rest), false, false⟩).1 = .ub .uninit := by
    rw [Cx.parse_num hd hq hsg hse, if_neg hsj, ← List.cons_append]
    unfold parseImag
    rw [readDouble_large hd' hr hq']
    have hn : ∃ s', readChar ⟨rest, rest.isEmpty, true⟩ = (none, s') := by
      unfold readChar sentry good
      simp only [Bool.not_true, Bool.and_false, Bool.not_false, if_true]
      exact ⟨_, rfl⟩
    obtain ⟨s', hn⟩ := hn
    simp only [hn]
  rw [e0, Cx.input_ok h, hp]

/-- `1e999`, and `-1e999z`, of which the `z` is left. -/
example : Cx.input 9 (⟨.fin 0, .fin 0⟩, ⟨[45, 49, 101, 57, 57, 57, 122], false, false⟩) =
    (.ok (), (⟨.fin (-((2 ^ 53 - 1) * 2 ^ 971)), .fin 0⟩, ⟨[122], false, true⟩)) ∧
    (Cx.input 9 (⟨.fin 0, .fin 0⟩, ⟨[49, 43, 49, 101, 57, 57, 57, 106], false, false⟩)).1 = .ub .uninit := by decide +kernel

/-- C62 fails: malformed texts are accepted. `+z` is read as 0, `1e` too, `1.5.5j` as 1.5+0.5j and `1+2 j` as 1+2j. The
first two leave the stream failed, but no exception is thrown. -/
theorem C62_malformed_not :
    (∀ x k, 0 < k → Cx.input k (x, ⟨[43, 122], false, false⟩) = (.ok (), (⟨.fin 0, .fin 0⟩, ⟨[122], false, true⟩))) ∧
    (∀ x k, 0 < k → Cx.input k (x, ⟨[49, 101], false, false⟩) = (.ok (), (⟨.fin 0, .fin 0⟩, ⟨[], true, true⟩))) ∧
    (∀ x k, 0 < k → Cx.input k (x, ⟨[49, 46, 53, 46, 53, 106], false, false⟩)
      = (.ok (), (⟨.fin (3 / 2), .fin (1 / 2)⟩, ⟨[], true, false⟩))) ∧
    (∀ x k, 0 < k → Cx.input k (x, ⟨[49, 43, 50, 32, 106], false, false⟩)
      = (.ok (), (⟨.fin 1, .fin 2⟩, ⟨[], true, false⟩))) := by
  have key : ∀ c t k, 0x20 < c.toNat → 0 < k → skipBlanks k ⟨c :: t, false, false⟩ = .ok ⟨c :: t, false, false⟩ := by
    intro c t k hc hk
    exact skipBlanks_ok t hc [] (by simp) k hk
  refine ⟨fun x k hk => ?_, fun x k hk => ?_, fun x k hk => ?_, fun x k hk => ?_⟩
  · rw [Cx.input_ok (key _ _ k (by decide) hk)]
    have : Cx.parse ⟨[43, 122], false, false⟩ = (.ok ⟨.fin 0, .fin 0⟩, ⟨[122], false, true⟩) := by decide +kernel
    rw [this]
  · rw [Cx.input_ok (key _ _ k (by decide) hk)]
    have : Cx.parse ⟨[49, 101], false, false⟩ = (.ok ⟨.fin 0, .fin 0⟩, ⟨[], true, true⟩) := by decide +kernel
    rw [this]
  · rw [Cx.input_ok (key _ _ k (by decide) hk)]
    have : Cx.parse ⟨[49, 46, 53, 46, 53, 106], false, false⟩ = (.ok ⟨.fin (3 / 2), .fin (1 / 2)⟩, ⟨[], true, false⟩) := by
      decide +kernel
    rw [this]
  · rw [Cx.input_ok (key _ _ k (by decide) hk)]
    have : Cx.parse ⟨[49, 43, 50, 32, 106], false, false⟩ = (.ok ⟨.fin 1, .fin 2⟩, ⟨[], true, false⟩) := by decide +kernel
    rw [this]

/-- C62 fails: no printed complex number can be read back, because it is printed in parentheses. -/
theorem C62_round_trip_not (fmt : Dbl → List UInt8) (x y : Cx Dbl) (rest : List UInt8) :
    ∀ k, 0 < k → (Cx.input k (y, ⟨Cx.print fmt x ++ rest, false, false⟩)).1 = .throw "Error: Wrong complex literal." := by
  intro k hk
  obtain ⟨u, e⟩ : ∃ u, Cx.print fmt x ++ rest = 40 :: u := ⟨_, rfl⟩
  have h : skipBlanks k ⟨40 :: u, false, false⟩ = .ok ⟨40 :: u, false, false⟩ := skipBlanks_ok u (by decide) [] (by simp) k hk
  rw [e, Cx.input_ok h, Cx.parse_bad (by decide)]; rfl

/-- C62: the printed text: real part, sign, absolute value of the imaginary part, between parentheses. -/
theorem C62_print (fmt : Dbl → List UInt8) (x : Cx Dbl) :
    Cx.print fmt x = 40 :: (fmt x.re ++ (if Dbl.lt x.im (.fin 0) then 45 else 43) :: (fmt (Dbl.abs x.im) ++ [106, 41])) := by
  unfold Cx.print; simp

/-- C55 for complex numbers: `operator>>` ends if the stream is good and holds a byte above 0x20, and only then; otherwise
it loops for ever. -/
theorem C55_complex_partial (x : Cx Dbl) (s : IStream) :
    if s.good = true ∧ ∃ c ∈ s.buf, 0x20 < c.toNat then
      ∃ r, (∃ N, ∀ k, N < k → Cx.input k (x, s) = r) ∧ r.1 ≠ .fuel
    else ∀ k, (Cx.input k (x, s)).1 = .fuel := by
  split
  · next h =>
    obtain ⟨hg, c, hm, hc⟩ := h
    rcases skipBlanks_cases s with hf | ⟨c, t, N, hc, hN⟩
    · exact absurd hc (not_lt.2 (skipBlanks_fuel hg hf c hm))
    · obtain ⟨h1, h2⟩ := Cx.parse_total (c := c) t
      refine ⟨_, ⟨N, fun k hk => Cx.input_ok (hN k hk)⟩, ?_⟩
      cases hp : (Cx.parse ⟨c :: t, false, false⟩).1 with
      | fuel => exact absurd hp h1
      | _ => simp
  · next h =>
    intro k
    apply Cx.input_fuel
    by_cases hg : s.good = true
    · apply skipBlanks_blank
      intro b hb
      by_contra hc
      exact h ⟨hg, b, hb, by omega⟩
    · exact skipBlanks_bad k s (by simpa using hg)

example : IStream.good ⟨[32, 122], false, false⟩ = true ∧ ∃ c ∈ [(32 : UInt8), 122], 0x20 < c.toNat :=
  ⟨rfl, 122, by simp, by decide⟩

/-- C55 fails for complex numbers: on an empty stream `operator>>` loops for ever. -/
theorem C55_complex_not : ∃ s : IStream, ∀ x k, (Cx.input k (x, s)).1 = .fuel :=
  ⟨⟨[], false, false⟩, fun _ k => Cx.input_fuel (skipBlanks_blank k _ (by simp))⟩

/-- C61: `operator>>` that throws leaves the complex number as it was. -/
theorem C61_complex_input (k : ℕ) (x : Cx Dbl) (s : IStream) (m : String) (h : (Cx.input k (x, s)).1 = .throw m) :
    (Cx.input k (x, s)).2.1 = x := by
  cases hk : skipBlanks k s with
  | fuel => rw [Cx.input_fuel hk] at h; simp at h
  | ok s₀ =>
    rw [Cx.input_ok hk] at h ⊢
    cases hp : (Cx.parse s₀).1 <;> rw [hp] at h <;> first | rfl | simp at h
  | throw m => unfold Cx.input; rw [Meth.get_bind]; simp only [hk]; rfl
  | ub u => unfold Cx.input; rw [Meth.get_bind]; simp only [hk]; rfl

example : (Cx.input 3 (⟨.fin 5, .fin 1⟩, ⟨[122], false, false⟩)).1 = .throw "Error: Wrong complex literal." := by decide

end Pyincpp
