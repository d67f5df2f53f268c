import Verif.Spec.PythonStr
import Verif.Props.StrSearch
import Verif.Props.StrSeq
import Verif.Props.StrNum

/-! # C102: strings, compared with Python -/

namespace Pyincpp

namespace Py

/-- The bounds that the code accepts are those of Python. -/
theorem slice_of_isSlice {α : Type} {l r : List α} {start stop step : ℤ} (h1 : -(l.length : ℤ) ≤ start) (h2 : start < l.length)
    (h3 : -(l.length : ℤ) - 1 ≤ stop) (h4 : stop ≤ l.length)
    (h : IsSlice l (if start < 0 then start + l.length else start) (if stop < 0 then stop + l.length else stop) step r) :
    Slice l start stop step r := by
  unfold Slice
  have es : clip l.length step start = if start < 0 then start + l.length else start := by
    unfold clip
    split_ifs <;> omega
  rw [es]
  generalize (if start < 0 then start + (l.length : ℤ) else start) = s at *
  have hs0 : 0 ≤ s := by rw [← es]; unfold clip; split_ifs <;> omega
  have hs1 : s < l.length := by rw [← es]; unfold clip; split_ifs <;> omega
  intro k
  have hb : Before step (s + k * step) (clip l.length step stop) ↔ Before step (s + k * step) (if stop < 0 then stop + l.length else stop) := by
    unfold Before clip
    rcases lt_trichotomy step 0 with hn | rfl | hp
    · have : (k : ℤ) * step ≤ 0 := mul_nonpos_of_nonneg_of_nonpos (Int.natCast_nonneg k) hn.le
      simp only [hn, if_true, true_and]
      split_ifs <;> omega
    · simp
    · have : 0 ≤ (k : ℤ) * step := mul_nonneg (Int.natCast_nonneg k) hp.le
      simp only [hp, not_lt.2 hp.le, if_false, true_and, false_and, or_false]
      split_ifs <;> omega
  obtain ⟨a, b⟩ := h k
  refine ⟨fun h => a (hb.1 h), ?_⟩
  rw [b]
  simp only [hb]

end Py

/-- C102: whenever `slice` returns a string it is that of Python; it throws exactly if the step is zero (as Python does) or a bound is
outside the range (where Python moves it). -/
theorem C102_slice (s : List UInt8) (hs : s.length < maxLen) (start stop step : ℤ) (hint : IsInt step) :
    (∀ r, Returns (fun k => Str.slice k s start stop step) r → Py.Slice s start stop step r) ∧
    ((∃ m, Throws (fun k => Str.slice k s start stop step) m) ↔
      step = 0 ∨ ¬ (-(s.length : ℤ) ≤ start ∧ start < s.length ∧ -(s.length : ℤ) - 1 ≤ stop ∧ stop ≤ s.length)) := by
  have hT := fun k => C28_str_slice_throws k s hs start stop step
  have nr : ∀ {m r}, Throws (fun k => Str.slice k s start stop step) m → ¬ Returns (fun k => Str.slice k s start stop step) r := by
    rintro m r ⟨N, h⟩ ⟨M, h'⟩
    have h1 := h (max N M) (le_max_left _ _)
    rw [h' _ (le_max_right _ _)] at h1
    cases h1
  have nu : ∀ {m u}, Throws (fun k => Str.slice k s start stop step) m → ¬ HitsUB (fun k => Str.slice k s start stop step) u := by
    rintro m r ⟨N, h⟩ ⟨M, h'⟩
    have h1 := h (max N M) (le_max_left _ _)
    rw [h' _ (le_max_right _ _)] at h1
    cases h1
  have ru : ∀ {r u}, Returns (fun k => Str.slice k s start stop step) r → ¬ HitsUB (fun k => Str.slice k s start stop step) u := by
    rintro m r ⟨N, h⟩ ⟨M, h'⟩
    have h1 := h (max N M) (le_max_left _ _)
    rw [h' _ (le_max_right _ _)] at h1
    cases h1
  by_cases h0 : step = 0
  · have ht : Throws (fun k => Str.slice k s start stop step) _ := ⟨0, fun k _ => (hT k).1 h0⟩
    exact ⟨fun r hr => absurd hr (nr ht), fun _ => .inl h0, fun _ => ⟨_, ht⟩⟩
  by_cases hr : -(s.length : ℤ) ≤ start ∧ start < s.length ∧ -(s.length : ℤ) - 1 ≤ stop ∧ stop ≤ s.length
  · obtain ⟨h1, h2, h3, h4⟩ := hr
    have key : (∃ r, Py.Slice s start stop step r ∧ Returns (fun k => Str.slice k s start stop step) r) ∨
        HitsUB (fun k => Str.slice k s start stop step) .overflow := by
      by_cases hno : ∀ j : Nat, Before step ((if start < 0 then start + (s.length : ℤ) else start) + j * step) (if stop < 0 then stop + s.length else stop) →
          (if start < 0 then start + (s.length : ℤ) else start) + (j + 1) * step ≤ INT_MAX
      · obtain ⟨r, ha, hb⟩ := C28_str_slice_partial s hs start stop step h0 hint h1 h2 h3 h4 _ _ rfl rfl hno
        exact .inl ⟨r, Py.slice_of_isSlice h1 h2 h3 h4 ha, hb⟩
      · refine .inr ?_
        push Not at hno
        exact C28_str_slice_overflow s hs start stop step h0 h1 h2 h3 h4 _ _ rfl rfl hno
    refine ⟨fun r hr => ?_, ⟨?_, fun h => ?_⟩⟩
    · rcases key with ⟨r', ha, hb⟩ | hu
      · rw [hr.unique hb]; exact ha
      · exact absurd hu (ru hr)
    · rintro ⟨m, hm⟩
      rcases key with ⟨r', ha, hb⟩ | hu
      · exact absurd hb (nr hm)
      · exact absurd hu (nu hm)
    · exact absurd h (by simp [h0, h1, h2, h3, h4])
  · have ht : Throws (fun k => Str.slice k s start stop step) _ := ⟨0, fun k _ => (hT k).2 h0 hr⟩
    exact ⟨fun r hr => absurd hr (nr ht), fun _ => .inr hr, fun _ => ⟨_, ht⟩⟩

/-- `"ab".slice(0, 9)` throws, in Python `"ab"[0:9]` is `"ab"`. -/
theorem C102_slice_not : (∀ k, Str.slice k [97, 98] 0 9 = .throw "Error: Index out of range.") ∧ Py.Slice [(97 : UInt8), 98] 0 9 1 [97, 98] := by
  refine ⟨fun k => (C28_str_slice_throws k [97, 98] (by decide) 0 9 1).2 (by decide) (by decide), ?_⟩
  intro k
  have : Py.clip [(97 : UInt8), 98].length 1 0 = 0 ∧ Py.clip [(97 : UInt8), 98].length 1 9 = 2 := by decide
  rw [this.1, this.2]
  rcases k with _ | _ | k
  · simp [Before]
  · simp [Before]
  · simp [Before]; omega

/-- C102: `find` gives the answer of Python if `start` is not negative, and not above `stop` unless it is above the size; for all other
arguments it is undefined. -/
theorem C102_find (s p : List UInt8) (hs : s.length ≤ maxLen) (start stop : ℤ) (hst : IsInt start) :
    (0 ≤ start ∧ (start ≤ stop ∨ (s.length : ℤ) < start) → ∃ r, Str.find s p start stop = .ok r ∧ Py.Find s p start stop r) ∧
    (¬ (0 ≤ start ∧ (start ≤ stop ∨ (s.length : ℤ) < start)) → ∃ u, Str.find s p start stop = .ub u) := by
  refine ⟨fun ⟨h0, h1⟩ => ?_, fun h => C25_find_not s p hs start stop hst (by omega)⟩
  have hw : ∀ j : ℕ, Py.Within s p start stop j ↔ start ≤ j ∧ (j : ℤ) + p.length ≤ stop ∧ OccursAt s p j := by
    intro j
    unfold Py.Within
    rw [if_neg (by omega)]
    constructor
    · rintro ⟨a, b, c⟩
      have := c.bound
      refine ⟨a, ?_, c⟩
      split_ifs at b <;> omega
    · rintro ⟨a, b, c⟩
      have := c.bound
      refine ⟨a, ?_, c⟩
      split_ifs <;> omega
  unfold Py.Find
  simp only [hw]
  rcases C25_find_partial s p hs start stop h0 h1 with ⟨i, e, h2, h3⟩ | ⟨e, h2⟩
  · exact ⟨i, e, .inl ⟨i, rfl, h2, fun j ⟨a, b, c⟩ => h3 j a b c⟩⟩
  · exact ⟨-1, e, .inr ⟨rfl, fun j ⟨a, b, c⟩ => h2 j a b c⟩⟩

/-- `"abc".find("c", -2)` is undefined, in Python it is 2. -/
theorem C102_find_not : (∃ u, Str.find [97, 98, 99] [99] (-2) = .ub u) ∧ Py.Find [97, 98, 99] [99] (-2) INT_MAX 2 := by
  refine ⟨(C102_find [97, 98, 99] [99] (by decide) (-2) INT_MAX (by decide)).2 (by decide), .inl ⟨2, rfl, ⟨by decide, by decide, [97, 98], [], rfl, rfl⟩, ?_⟩⟩
  rintro j ⟨_, _, a, b, e, rfl⟩
  rcases a with _ | ⟨x, _ | ⟨y, a⟩⟩
  · simp at e
  · simp at e
  · simp

/-- C102: `count` is that of Python, for every pattern. -/
theorem C102_count (s p : List UInt8) (hs : s.length < maxLen) : ∃ r, Returns (fun k => Str.count k s p) r ∧ Py.Count s p r := by
  by_cases hp : p = []
  · subst hp
    exact ⟨_, ⟨0, fun k _ => (C26_empty_partial k s []).1 hs⟩, .inl ⟨rfl, rfl⟩⟩
  · obtain ⟨ps, h, _⟩ := C26_scan s p hp
    exact ⟨_, C26_count s p hs.le hp ps h, .inr ⟨hp, ps, h, rfl⟩⟩

/-- C102: `replace` is that of Python exactly if the pattern is not empty, or there is nothing to replace in, or the new text has no NUL. -/
theorem C102_replace (s p q r : List UInt8) (hs : s.length ≤ maxLen) (hr : Py.Replace s p q r) :
    Returns (fun k => Str.replace k s p q) r ↔ p ≠ [] ∨ s = [] ∨ ∀ c ∈ q, c ≠ 0 := by
  rcases hr with ⟨rfl, rfl⟩ | ⟨hp, ps, h, rfl⟩
  · simp only [ne_eq, not_true, false_or]
    constructor
    · rintro ⟨N, h⟩
      exact (C26_replace_empty_iff N s q).1 (h N le_rfl)
    · exact fun h => ⟨0, fun k _ => (C26_replace_empty_iff k s q).2 h⟩
  · exact ⟨fun _ => .inl hp, fun _ => (C26_replace s p q hs hp ps h).2⟩

/-- C102: `split(sep, true)` is that of Python; `split(sep)` is exactly if no piece is empty. -/
theorem C102_split (s sep : List UInt8) (hs : s.length < maxLen) (hp : sep ≠ []) (ps : List (List UInt8)) (h : Py.Split s sep ps) :
    Returns (fun k => Str.split k s sep true) ps ∧ (Returns (fun k => Str.split k s sep) ps ↔ [] ∉ ps) := by
  have hlen : ps.length ≤ maxLen := by have := Scan.length_le hp h; omega
  have h1 : Returns (fun k => Str.split k s sep true) ps := by
    refine ⟨ps.length, fun k hk => ?_⟩
    beta_reduce
    rw [split_run s sep true (by omega) hp ps h k hk]
    have e : ps.filter (fun a => true || !a.isEmpty) = ps := by simp
    rw [e, fitted, if_pos hlen]
  have h2 : Returns (fun k => Str.split k s sep) (ps.filter (fun a => !a.isEmpty)) := by
    refine ⟨ps.length, fun k hk => ?_⟩
    beta_reduce
    rw [split_run s sep false (by omega) hp ps h k hk]
    have e : ps.filter (fun a => false || !a.isEmpty) = ps.filter (fun a => !a.isEmpty) := by simp
    rw [e, fitted, if_pos]
    exact Nat.le_trans (List.length_filter_le ..) hlen
  refine ⟨h1, fun hr => ?_, fun hn => ?_⟩
  · have := h2.unique hr
    rw [List.filter_eq_self] at this
    intro hm
    simpa using this [] hm
  · rwa [List.filter_eq_self.2 (fun a ha => by
      cases a with
      | nil => exact absurd ha hn
      | cons => rfl)] at h2

/-- C102: `strip()` of an ASCII text is that of Python exactly if what Python leaves neither begins nor ends with a control character. -/
theorem C102_strip (s r : List UInt8) (hs : s.length ≤ maxLen) (ha : ∀ c ∈ s, c.toNat < 0x80) (hr : Py.Strip s r) :
    Str.strip .lenient s = .ok r ↔ (∀ c t, r = c :: t → 0x20 < c.toNat) ∧ (∀ c t, r = t ++ [c] → 0x20 < c.toNat) := by
  obtain ⟨r', e, h'⟩ := (C31_strip_exact s hs).1
  rw [e]
  have key : r' = r ↔ (∀ c t, r = c :: t → 0x20 < c.toNat) ∧ (∀ c t, r = t ++ [c] → 0x20 < c.toNat) := by
    constructor
    · rintro rfl
      obtain ⟨_, _, _, _, _, h1, h2⟩ := h'
      exact ⟨fun c t e => by have := h1 c t e; omega, fun c t e => by have := h2 c t e; omega⟩
    · rintro ⟨h1, h2⟩
      obtain ⟨pre, suf, es, hpre, hsuf, _, _⟩ := hr
      have hmem : ∀ c ∈ r, c.toNat < 0x80 := fun c hc => ha c (by rw [es]; simp [hc])
      have hsp : ∀ c : UInt8, Py.IsSpace c → c.toNat ≤ 0x20 ∨ 0x80 ≤ c.toNat := fun c h => by unfold Py.IsSpace at h; omega
      refine C31_unique _ s r' r h' ⟨pre, suf, es, fun c hc => hsp c (hpre c hc), fun c hc => hsp c (hsuf c hc), ?_, ?_⟩
      · intro c t e
        have := h1 c t e
        have := hmem c (by rw [e]; simp)
        omega
      · intro c t e
        have := h2 c t e
        have := hmem c (by rw [e]; simp)
        omega
  rw [← key]
  constructor
  · intro h; cases h; rfl
  · intro h; rw [h]

/-- `"\0a".strip()` loses the NUL, in Python it does not. -/
theorem C102_strip_not : Str.strip .lenient [0, 97] = .ok [97] ∧ Py.Strip [0, 97] [0, 97] := by
  refine ⟨by decide, [], [], rfl, by simp, by simp, ?_, ?_⟩
  · intro c t e; cases e; unfold Py.IsSpace; decide
  · intro c t e
    have : c = 97 := by
      have := congrArg List.getLast? e
      simpa using this.symm
    rw [this]; unfold Py.IsSpace; decide

/-- C102: `s * n` is that of Python exactly if `n` is not negative and the result has at most `INT_MAX` bytes. -/
theorem C102_repeat (s : List UInt8) (hs : s.length ≤ maxLen) (n : ℤ) :
    Str.mul s n = .ok (List.replicate n.toNat s).flatten ↔ 0 ≤ n ∧ s.length * n ≤ INT_MAX := by
  have h := C34_str_repeat_partial s hs n
  constructor
  · intro e
    by_cases h0 : 0 ≤ n
    · refine ⟨h0, ?_⟩
      by_contra hc
      rw [C34_str_repeat_not s hs n h0 (by omega)] at e
      cases e
    · rw [h.2 (by omega)] at e; cases e
  · rintro ⟨a, b⟩; exact h.1 a b

/-! ## Formatting -/

theorem Formatted.cons {t r : List UInt8} {args : List (List UInt8)} {c : UInt8} (hc : c ≠ 123) (h : Formatted t args r) :
    Formatted (c :: t) args (c :: r) := by
  cases h with
  | noArgs => exact .noArgs _
  | noGroup _ _ h =>
    refine .noGroup _ _ ?_
    intro a b e
    cases a with
    | nil => rw [List.nil_append] at e; cases e; exact absurd rfl hc
    | cons x a => rw [List.cons_append] at e; cases e; exact h a b rfl
  | group pre inner rest v r args h1 h2 h3 =>
    have := Formatted.group (c :: pre) inner rest v r args (by simpa [hc.symm] using h1) h2 h3
    simpa using this

/-- C102: a format string whose fields are `{}`, without doubled braces: if Python accepts it the results are equal. -/
theorem C102_format_partial (s r : List UInt8) (args : List (List UInt8)) (h : Py.Format s args r)
    (hn : ∀ a b, s ≠ a ++ 123 :: 123 :: b ∧ s ≠ a ++ 125 :: 125 :: b) : Str.format s args = r := by
  refine ((C35_format_unique s args r).1 ?_).symm
  induction h with
  | nil args => exact .noGroup [] args (fun a b e => by simp at e)
  | char c t r args h1 h2 _ ih =>
    refine (ih fun a b => ⟨fun e => ?_, fun e => ?_⟩).cons h1
    · exact (hn (c :: a) b).1 (by rw [e]; rfl)
    · exact (hn (c :: a) b).2 (by rw [e]; rfl)
  | field t v r args _ ih =>
    have := Formatted.group [] [] t v r args (by simp) (by simp) (ih fun a b => ⟨fun e => ?_, fun e => ?_⟩)
    · simpa using this
    · exact (hn (123 :: 125 :: a) b).1 (by rw [e]; rfl)
    · exact (hn (123 :: 125 :: a) b).2 (by rw [e]; rfl)
  | opening t r args _ _ => exact absurd rfl (hn [] t).1
  | closing t r args _ _ => exact absurd rfl (hn [] t).2

/-- `"{{}}"` is copied, in Python it gives `"{}"`; `"{}"` without argument is copied, Python raises an exception. -/
theorem C102_format_not : (Str.format [123, 123, 125, 125] [] = [123, 123, 125, 125] ∧ Py.Format [123, 123, 125, 125] [] [123, 125]) ∧
    (Str.format [123, 125] [] = [123, 125] ∧ ¬ ∃ r, Py.Format [123, 125] [] r) := by
  refine ⟨⟨rfl, .opening _ _ _ (.closing _ _ _ (.nil _))⟩, rfl, ?_⟩
  rintro ⟨r, h⟩
  cases h with
  | char _ _ _ _ h => exact h rfl

/-! ## Numbers -/

theorem Py.DigitsIn.plain {b : ℕ} {ds : List UInt8} {n : ℕ} (h : Py.DigitsIn b ds n) :
    ds ≠ [] ∧ (∀ c ∈ ds, IsDigitIn b c ∨ c = 95) ∧ (95 ∉ ds → n = numeralIn b ds) := by
  induction h with
  | one c v hc hv => exact ⟨by simp, by simpa using .inl ⟨v, hc, hv⟩, fun _ => by simp [numeralIn, hc]⟩
  | next ds n c v _ hc hv ih =>
    refine ⟨by simp, ?_, fun h => ?_⟩
    · simp only [List.mem_append, List.mem_singleton]
      rintro d (hd | rfl)
      · exact ih.2.1 d hd
      · exact .inl ⟨v, hc, hv⟩
    · rw [ih.2.2 (fun h' => h (List.mem_append_left _ h'))]
      simp [numeralIn, hc]
  | under ds n c v _ hc hv ih =>
    refine ⟨by simp, ?_, fun h => absurd (by simp) h⟩
    simp only [List.mem_append, List.mem_cons, List.not_mem_nil, or_false]
    rintro d (hd | rfl | rfl)
    · exact ih.2.1 d hd
    · exact .inr rfl
    · exact .inl ⟨v, hc, hv⟩

theorem Py.digitsIn_of_plain {b : ℕ} {ds : List UInt8} (h0 : ds ≠ []) (h : ∀ c ∈ ds, IsDigitIn b c) : Py.DigitsIn b ds (numeralIn b ds) := by
  induction ds using List.reverseRecOn with
  | nil => exact absurd rfl h0
  | append_singleton l c ih =>
    obtain ⟨v, hc, hv⟩ : IsDigitIn b c := h c (by simp)
    by_cases hl : l = []
    · subst hl; simpa [numeralIn, hc] using Py.DigitsIn.one c v hc hv
    · have := Py.DigitsIn.next l _ c v (ih hl fun d hd => h d (by simp [hd])) hc hv
      simpa [numeralIn, hc] using this

/-- C102: `to_integer(b)` gives `z` exactly if `int(t, b)` does and the text has no underscore, no prefix, and no white space but blanks,
tabs, newlines and carriage returns. -/
theorem C102_to_integer (mem : Mem) (s : List UInt8) (hs : s.length < maxLen) (b : ℕ) (hb : 2 ≤ b) (hb' : b ≤ 36) (z : ℤ) :
    Returns (fun k => Str.toInteger mem k s (b : ℤ)) (enc z) ↔
      Py.IntTextIn b s z ∧ ∀ c ∈ s, c ≠ 95 ∧ ¬ Py.IsPrefixLetter b c ∧ (Py.IsSpace c → IsBlank c) := by
  have hblank : ∀ c, IsBlank c → Py.IsSpace c := by
    rintro c (rfl | rfl | rfl | rfl) <;> (unfold Py.IsSpace; decide)
  have hbl : ∀ c, IsBlank c → c ≠ 95 ∧ ¬ Py.IsPrefixLetter b c := by
    rintro c (rfl | rfl | rfl | rfl) <;> (unfold Py.IsPrefixLetter; refine ⟨by decide, ?_⟩; simp)
  have hdig : ∀ c, IsDigitIn b c → c ≠ 95 ∧ ¬ Py.IsPrefixLetter b c ∧ ¬ Py.IsSpace c := by
    rintro c ⟨v, h1, h2⟩
    refine ⟨?_, ?_, ?_⟩
    · rintro rfl; exact absurd h1 (by simp [digitValue])
    · rintro (⟨rfl, rfl | rfl⟩ | ⟨rfl, rfl | rfl⟩ | ⟨rfl, rfl | rfl⟩) <;> simp [digitValue] at h1 <;> omega
    · intro h
      unfold Py.IsSpace at h
      unfold digitValue at h1
      rw [if_neg (by omega), if_neg (by omega), if_neg (by omega)] at h1
      cases h1
  have h1 : IntText b s z → Py.IntTextIn b s z ∧ ∀ c ∈ s, c ≠ 95 ∧ ¬ Py.IsPrefixLetter b c ∧ (Py.IsSpace c → IsBlank c) := by
    rintro ⟨ws, sg, ds, ws', σ, h1, h2, h3, h4, h5⟩
    refine ⟨?_, ?_⟩
    · have := Py.IntTextIn.mk ws sg [] ds ws' σ _ (fun c hc => hblank c (h1 c hc)) h2 .none (Py.digitsIn_of_plain h3 h4) (fun c hc => hblank c (h5 c hc))
      simpa using this
    · simp only [List.mem_append]
      rintro c (hc | hc | hc | hc)
      · exact ⟨(hbl c (h1 c hc)).1, (hbl c (h1 c hc)).2, fun _ => h1 c hc⟩
      · cases h2 with
        | none => cases hc
        | plus => rw [List.mem_singleton] at hc; subst hc; exact ⟨by decide, by simp [Py.IsPrefixLetter], fun h => by unfold Py.IsSpace at h; exact absurd h (by decide)⟩
        | minus => rw [List.mem_singleton] at hc; subst hc; exact ⟨by decide, by simp [Py.IsPrefixLetter], fun h => by unfold Py.IsSpace at h; exact absurd h (by decide)⟩
      · have := hdig c (h4 c hc)
        exact ⟨this.1, this.2.1, fun h => absurd h this.2.2⟩
      · exact ⟨(hbl c (h5 c hc)).1, (hbl c (h5 c hc)).2, fun _ => h5 c hc⟩
  have h2 : Py.IntTextIn b s z → (∀ c ∈ s, c ≠ 95 ∧ ¬ Py.IsPrefixLetter b c ∧ (Py.IsSpace c → IsBlank c)) → IntText b s z := by
    rintro ⟨ws, sg, pf, ds, ws', σ, n, g1, g2, g3, g4, g5⟩ hc
    obtain ⟨a1, a2, a3⟩ := g4.plain
    have hds : 95 ∉ ds := fun h => (hc 95 (by simp [h])).1 rfl
    rw [a3 hds]
    have hpf : pf = [] := by
      cases g3 with
      | none => rfl
      | plain c h => exact absurd h (hc c (by simp)).2.1
      | under c h => exact absurd h (hc c (by simp)).2.1
    subst hpf
    refine IntText.mk ws sg ds ws' σ (fun c h => (hc c (by simp [h])).2.2 (g1 c h)) g2 a1 ?_ (fun c h => (hc c (by simp [h])).2.2 (g5 c h))
    intro c h
    rcases a2 c h with h' | h'
    · exact h'
    · exact absurd (h' ▸ h) hds
  constructor
  · intro hr
    by_cases he : ∃ w, IntText b s w
    · obtain ⟨w, hw⟩ := he
      have := enc_injective ((C23_accept_partial mem s hs.le b hb hb' w hw).unique hr)
      exact h1 (this ▸ hw)
    · obtain ⟨N, h⟩ := C23_reject_partial mem s hs b hb hb' (fun w hw => he ⟨w, hw⟩)
      obtain ⟨M, h'⟩ := hr
      have e := h (max N M) (le_max_left _ _)
      rw [h' _ (le_max_right _ _)] at e
      cases e
  · rintro ⟨h, hc⟩
    exact C23_accept_partial mem s hs.le b hb hb' z (h2 h hc)

/-- `"0x1F"` in base 16 is 31 in Python; `to_integer` throws. -/
theorem C102_to_integer_not (mem : Mem) : Py.IntTextIn 16 [48, 120, 49, 70] 31 ∧
    ∀ z, ¬ Returns (fun k => Str.toInteger mem k [48, 120, 49, 70] 16) (enc z) := by
  refine ⟨?_, fun z h => ?_⟩
  · have := Py.IntTextIn.mk (b := 16) [] [] [48, 120] [49, 70] [] 1 31 (by simp) .none (.plain 120 (by simp [Py.IsPrefixLetter]))
      (.next [49] 1 70 15 (.one 49 1 (by decide) (by norm_num)) (by decide) (by norm_num)) (by simp)
    simpa using this
  · have := ((C102_to_integer mem [48, 120, 49, 70] (by decide) 16 (by norm_num) (by norm_num) z).1 h).2 120 (by simp)
    exact this.2.1 (by simp [Py.IsPrefixLetter])

example : Py.Replace [97] [] [98] [98, 97, 98] := .inl ⟨rfl, rfl⟩
example : Py.Split [44] [44] [[], []] := scan_replicate 44 1
example : Py.Strip [32, 97, 10] [97] := by
  refine ⟨[32], [10], rfl, by simp [Py.IsSpace], by simp [Py.IsSpace], ?_, ?_⟩
  · intro c t e; cases e; unfold Py.IsSpace; decide
  · intro c t e
    have : c = 97 := by
      have := congrArg List.getLast? e
      simpa using this.symm
    rw [this]; unfold Py.IsSpace; decide
example : Py.Format [97, 123, 125] [[98], [99]] [97, 98] := .char _ _ _ _ (by decide) (by decide) (.field [] [98] [] _ (.nil _))

end Pyincpp
