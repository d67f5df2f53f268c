import Verif.Proof.FractionStream

/-! # Theorems about reading and printing fractions (C54, C55, C61) -/

namespace Pyincpp
open Frac IStream

variable {x y : Frac}

/-- C54: the printed text is the numeral of the numerator, followed by `/` and that of the denominator unless it is 1. -/
theorem C54_print (x : Frac) :
    print x = if x.den = 1 then numeral x.num else numeral x.num ++ 47 :: numeral x.den := by
  unfold print
  rw [intText_eq, intText_eq]
  split <;> simp

example : print ⟨-3, 2⟩ = [45, 51, 47, 50] ∧ print ⟨7, 1⟩ = [55] := by decide

/-- C54: reading an integer literal, after blanks and followed by a blank or the end, does what the constructor does with
its value. The stream afterwards is at the rest; at the end of the input it has failed. -/
theorem C54_read_int (bl t rest : List UInt8) (z : ℤ) (hbl : ∀ b ∈ bl, b.toNat ≤ 0x20) (hl : Literal t z) (hz : IsInt z)
    (hr : Stops rest) (k : ℕ) (hk : bl.length < k) :
    input k (x, ⟨bl ++ (t ++ rest), false, false⟩) = (match ofInt z with
      | .ok f => (.ok (), (f, ⟨rest, rest.isEmpty, rest.isEmpty⟩))
      | .throw m => (.throw m, (x, ⟨rest, rest.isEmpty, rest.isEmpty⟩))
      | .ub u => (.ub u, (x, ⟨rest, rest.isEmpty, rest.isEmpty⟩))
      | .fuel => (.fuel, (x, ⟨rest, rest.isEmpty, rest.isEmpty⟩))) := by
  obtain ⟨c, u, e, -, hc⟩ := starts_literal hl rest
  have h := skipBlanks_ok u hc bl hbl k hk
  rw [← e] at h
  rw [input_ok h, parse_int hl hz hr]
  cases ofInt z <;> rfl

/-- C54: reading two integer literals with `/` between does what the constructor does with their values. -/
theorem C54_read_ratio (bl t t' rest : List UInt8) (z z' : ℤ) (hbl : ∀ b ∈ bl, b.toNat ≤ 0x20) (hl : Literal t z) (hz : IsInt z)
    (hl' : Literal t' z') (hz' : IsInt z') (hr : Stops rest) (k : ℕ) (hk : bl.length < k) :
    input k (x, ⟨bl ++ (t ++ 47 :: (t' ++ rest)), false, false⟩) = (match make z z' with
      | .ok f => (.ok (), (f, ⟨rest, rest.isEmpty, rest.isEmpty⟩))
      | .throw m => (.throw m, (x, ⟨rest, rest.isEmpty, rest.isEmpty⟩))
      | .ub u => (.ub u, (x, ⟨rest, rest.isEmpty, rest.isEmpty⟩))
      | .fuel => (.fuel, (x, ⟨rest, rest.isEmpty, rest.isEmpty⟩))) := by
  obtain ⟨c, u, e, -, hc⟩ := starts_literal hl (47 :: (t' ++ rest))
  have h := skipBlanks_ok u hc bl hbl k hk
  rw [← e] at h
  rw [input_ok h, parse_num hl hz (by decide) (by decide), (parseDen_lit hl' hz' (stops_noDigit hr)).2 rfl hr]
  cases make z z' <;> rfl

example : (input 9 (⟨0, 1⟩, ⟨[32, 43, 54, 47, 45, 52, 32, 120], false, false⟩)) = (.ok (), (⟨-3, 2⟩, ⟨[32, 120], false, false⟩)) := by
  decide

theorem make_self (hx : x.Valid) : make x.num x.den = .ok x := by
  obtain ⟨f, e, v, q⟩ := make_ok hx.num_le hx.abs_den hx.pos.ne'
  rw [e, v.ext hx q]

/-- C54: reading the printed text of a fraction, after blanks and followed by a blank or the end of the input, gives the
fraction back, whatever the variable held before. -/
theorem C54_round_trip (hx : x.Valid) (bl rest : List UInt8) (hbl : ∀ b ∈ bl, b.toNat ≤ 0x20) (hr : Stops rest) (y : Frac) :
    ∀ k, bl.length < k →
      input k (y, ⟨bl ++ (print x ++ rest), false, false⟩) = (.ok (), (x, ⟨rest, rest.isEmpty, rest.isEmpty⟩)) := by
  intro k hk
  have hn := (bound_of_abs hx.num_le).1
  have hd := (bound_of_abs hx.abs_den).1
  rw [C54_print]
  by_cases h1 : x.den = 1
  · rw [if_pos h1, C54_read_int bl _ rest x.num hbl (literal_numeral _) hn hr k hk]
    have : ofInt x.num = .ok x := by
      have := make_self hx
      rw [h1] at this
      exact this
    rw [this]
  · rw [if_neg h1, List.append_assoc, List.cons_append,
      C54_read_ratio bl _ _ rest x.num x.den hbl (literal_numeral _) hn (literal_numeral _) hd hr k hk, make_self hx]

example : (∀ b ∈ [(9 : UInt8), 10], b.toNat ≤ 0x20) ∧ Stops [10, 50] := by
  refine ⟨by decide, ?_⟩
  intro c r h; cases h; decide

/-- A text that begins with a digit or a sign begins with a literal. -/
theorem split_literal {w : List UInt8} (hs : SignsOk w) (hr : RangeOk w) {c : UInt8} {t : List UInt8} (hw : w = c :: t)
    (hc : startsNumber (c.toNat : Int) = true) :
    ∃ l z r, w = l ++ r ∧ Literal l z ∧ IsInt z ∧ NoDigit r := by
  have hall : ∀ l : List UInt8, ∀ c ∈ l.takeWhile isDigit, IsDigit c := fun l c hc =>
    (IStream.isDigit_iff c).1 (List.mem_takeWhile_imp hc)
  have hno : ∀ l : List UInt8, NoDigit (l.dropWhile isDigit) := by
    intro l c r e
    have := List.head?_dropWhile_not isDigit l
    rw [e] at this
    simpa using this
  have hsp : ∀ l : List UInt8, l = l.takeWhile isDigit ++ l.dropWhile isDigit := fun l => List.takeWhile_append_dropWhile.symm
  have hint : ∀ n : ℕ, (n : ℤ) ≤ INT_MAX → IsInt n ∧ IsInt (-(n : ℤ)) := by
    intro n h; unfold IsInt INT_MIN; unfold INT_MAX at *; omega
  rcases (starts_iff c).1 hc with hd | hd
  · have h1 := hr [] (w.takeWhile isDigit) (w.dropWhile isDigit) (hsp w) (hall w)
    refine ⟨_, _, _, hsp w, .plain _ ?_ (hall w), (hint _ h1).1, hno w⟩
    rw [hw, List.takeWhile_cons_of_pos ((IStream.isDigit_iff c).2 hd)]; simp
  · have h1 := hr [c] (t.takeWhile isDigit) (t.dropWhile isDigit) (by rw [hw]; nth_rw 1 [hsp t]; rfl) (hall t)
    obtain ⟨d, u, e, hdd⟩ := hs [] c t hw hd
    have hne : t.takeWhile isDigit ≠ [] := by
      rw [e, List.takeWhile_cons_of_pos ((IStream.isDigit_iff d).2 hdd)]; simp
    rcases hd with rfl | rfl
    · exact ⟨_, _, _, by rw [hw]; nth_rw 1 [hsp t]; rfl, .plus _ hne (hall t), (hint _ h1).1, hno t⟩
    · exact ⟨_, _, _, by rw [hw]; nth_rw 1 [hsp t]; rfl, .minus _ hne (hall t), (hint _ h1).2, hno t⟩

theorem Frac.signsOk_tail {a w : List UInt8} (h : SignsOk (a ++ w)) : SignsOk w := fun b c d e hc =>
  h (a ++ b) c d (by rw [e, List.append_assoc]) hc

theorem Frac.rangeOk_tail {a w : List UInt8} (h : RangeOk (a ++ w)) : RangeOk w := fun b c d e hc =>
  h (a ++ b) c d (by rw [e, List.append_assoc]) hc

/-- C54, malformed texts: a word (bytes above 0x20) that is not the text of a fraction makes `operator>>` throw and leaves
the variable unchanged, provided every sign in it is followed by a digit and no number in it exceeds `INT_MAX`. Missing:
words without these two properties, which are not always rejected (`C54_malformed_not`). -/
theorem C54_malformed_partial (bl w rest : List UInt8) (hbl : ∀ b ∈ bl, b.toNat ≤ 0x20) (hw : w ≠ [])
    (hw' : ∀ c ∈ w, 0x20 < c.toNat) (hr : Stops rest) (hs : SignsOk w) (hg : RangeOk w) (hn : ¬ Text w) (x : Frac) :
    ∃ s', ∀ k, bl.length < k → input k (x, ⟨bl ++ (w ++ rest), false, false⟩) = (.throw "Error: Wrong fraction literal.", (x, s')) := by
  have hstart : ∀ k, bl.length < k → skipBlanks k ⟨bl ++ (w ++ rest), false, false⟩ = .ok ⟨w ++ rest, false, false⟩ := by
    intro k hk
    cases w with
    | nil => exact absurd rfl hw
    | cons c t => exact skipBlanks_ok (t ++ rest) (hw' c (by simp)) bl hbl k hk
  suffices h : ∃ s', parse ⟨w ++ rest, false, false⟩ = (.throw msgLiteral, s') by
    obtain ⟨s', e⟩ := h
    exact ⟨s', fun k hk => by rw [input_ok (hstart k hk), e]; rfl⟩
  cases hwc : w with
  | nil => exact absurd hwc hw
  | cons c t =>
    by_cases hc : startsNumber (c.toNat : Int) = false
    · exact ⟨_, parse_bad hc⟩
    have hc : startsNumber (c.toNat : Int) = true := by simpa using hc
    obtain ⟨l, z, r, e, hl, hz, hnd⟩ := split_literal hs hg hwc hc
    rw [← hwc, e]
    cases r with
    | nil => rw [List.append_nil] at e; exact absurd (e ▸ .int l z hl) hn
    | cons d u =>
      have hd : 0x20 < d.toNat := hw' d (by rw [e]; simp)
      rw [List.append_assoc, List.cons_append, parse_num hl hz hd (hnd d u rfl)]
      cases u with
      | nil =>
        refine ⟨_, parseDen_bad ?_⟩
        rw [List.nil_append]
        cases rest with
        | nil => rfl
        | cons b q =>
          have := hr b q rfl
          by_contra hc
          have := starts_gt (by simpa using hc : startsNumber (peek ⟨b :: q, false, false⟩).1 = true)
          rw [peek_cons] at this; simp at this; omega
      | cons f u =>
        by_cases hf : startsNumber (f.toNat : Int) = false
        · exact ⟨_, parseDen_bad (by rw [List.cons_append, peek_cons]; exact hf)⟩
        have hf : startsNumber (f.toNat : Int) = true := by simpa using hf
        have e' : w = (l ++ [d]) ++ (f :: u) := by rw [e]; simp
        obtain ⟨l', z', r', e2, hl', hz', hnd'⟩ := split_literal (signsOk_tail (e' ▸ hs)) (rangeOk_tail (e' ▸ hg)) rfl hf
        rw [e2, List.append_assoc]
        have hnd2 : NoDigit (r' ++ rest) := by
          cases r' with
          | nil => exact stops_noDigit hr
          | cons a b => intro c' q h; cases h; exact hnd' a b rfl
        refine (parseDen_lit hl' hz' hnd2).1 ?_
        by_cases h47 : d = 47
        · right
          cases r' with
          | nil =>
            rw [List.append_nil] at e2
            subst h47
            exact absurd (by rw [e, e2]; exact .ratio l l' z z' hl hl') hn
          | cons a b => exact ⟨a, b ++ rest, rfl, hw' a (by rw [e, e2]; simp)⟩
        · exact .inl h47

/-- `1|2` meets the hypotheses. -/
example : SignsOk [49, 124, 50] ∧ RangeOk [49, 124, 50] ∧ ¬ Text [49, 124, 50] := by
  have key : ∀ a : List UInt8, ∀ c b, [49, 124, 50] = a ++ c :: b → c = 49 ∨ c = 124 ∨ c = 50 := by
    intro a c b h
    have : c ∈ ([49, 124, 50] : List UInt8) := by rw [h]; simp
    simpa using this
  refine ⟨?_, ?_, ?_⟩
  · intro a c b h hc
    rcases key a c b h with rfl | rfl | rfl <;> exact absurd hc (by decide)
  · intro a ds b h hd
    have hlen : ds.length ≤ 3 := by
      have := congrArg List.length h
      simp at this; omega
    have hb : ∀ (l : List UInt8), (∀ c ∈ l, IsDigit c) → denoteNat l < 10 ^ l.length := by
      intro l
      induction l using List.reverseRecOn with
      | nil => intro _; decide
      | append_singleton l c ih =>
        intro h
        have h1 := ih (fun c hc => h c (by simp [hc]))
        have h2 := h c (by simp)
        unfold IsDigit at h2
        unfold denoteNat at h1 ⊢
        rw [List.foldl_append, List.length_append, pow_add]
        simp only [List.foldl_cons, List.foldl_nil, List.length_singleton, pow_one]
        omega
    have := hb ds hd
    have h3 : 10 ^ ds.length ≤ 10 ^ 3 := Nat.pow_le_pow_right (by norm_num) hlen
    unfold INT_MAX
    omega
  · intro h
    generalize hw : ([49, 124, 50] : List UInt8) = w at h
    cases h with
    | int t z hl =>
      cases hl with
      | plain _ _ hd => exact absurd (hd 124 (by rw [← hw]; simp)) (by decide)
      | plus ds _ hd => simp at hw
      | minus ds _ hd => simp at hw
    | ratio t t' z z' hl hl' =>
      have : (47 : UInt8) ∈ ([49, 124, 50] : List UInt8) := by rw [hw]; simp
      revert this; decide

/-- C54 fails for malformed texts: `+z` is read as 0, `1/99999999999` as 1/2147483647, and `-2147483648`, which is
well-formed, is undefined behaviour. The first two leave the stream failed, but no exception is thrown. -/
theorem C54_malformed_not :
    (∀ k, 0 < k → input k (⟨5, 1⟩, ⟨[43, 122], false, false⟩) = (.ok (), (⟨0, 1⟩, ⟨[122], false, true⟩))) ∧
    (∀ k, 0 < k → input k (⟨5, 1⟩, ⟨[49, 47, 57, 57, 57, 57, 57, 57, 57, 57, 57, 57, 57], false, false⟩)
      = (.ok (), (⟨1, 2147483647⟩, ⟨[], true, true⟩))) ∧
    (∀ k, 0 < k → (input k (⟨5, 1⟩, ⟨[45, 50, 49, 52, 55, 52, 56, 51, 54, 52, 56], false, false⟩)).1 = .ub .overflow) := by
  have key : ∀ c t k, 0x20 < c.toNat → 0 < k → skipBlanks k ⟨c :: t, false, false⟩ = .ok ⟨c :: t, false, false⟩ := by
    intro c t k hc hk
    exact skipBlanks_ok t hc [] (by simp) k hk
  refine ⟨fun k hk => ?_, fun k hk => ?_, fun k hk => ?_⟩
  · rw [input_ok (key _ _ k (by decide) hk)]
    have : parse ⟨[43, 122], false, false⟩ = (.ok ⟨0, 1⟩, ⟨[122], false, true⟩) := by decide +kernel
    rw [this]
  · rw [input_ok (key _ _ k (by decide) hk)]
    have : parse ⟨[49, 47, 57, 57, 57, 57, 57, 57, 57, 57, 57, 57, 57], false, false⟩
        = (.ok ⟨1, 2147483647⟩, ⟨[], true, true⟩) := by decide +kernel
    rw [this]
  · rw [input_ok (key _ _ k (by decide) hk)]
    have : (parse ⟨[45, 50, 49, 52, 55, 52, 56, 51, 54, 52, 56], false, false⟩).1 = .ub .overflow := by decide +kernel
    rw [this]

/-- C55 for fractions: `operator>>` ends if the stream is good and holds a byte above 0x20, and only then; otherwise it
loops for ever. -/
theorem C55_fraction_partial (x : Frac) (s : IStream) :
    if s.good = true ∧ ∃ c ∈ s.buf, 0x20 < c.toNat then
      ∃ r, (∃ N, ∀ k, N < k → input k (x, s) = r) ∧ r.1 ≠ .fuel ∧ r.1 ≠ .ub .uninit
    else ∀ k, (input k (x, s)).1 = .fuel := by
  split
  · next h =>
    rcases skipBlanks_cases s with hf | ⟨c, t, N, hc, hN⟩
    · exfalso
      obtain ⟨hg, c, hm, hc⟩ := h
      obtain ⟨buf, e, f⟩ := s
      obtain ⟨rfl, rfl⟩ : e = false ∧ f = false := by revert hg; cases e <;> cases f <;> simp [good]
      have hsp := List.takeWhile_append_dropWhile (p := fun c : UInt8 => decide (c.toNat ≤ 0x20)) (l := buf)
      have hall : ∀ b ∈ buf.takeWhile (fun c : UInt8 => decide (c.toNat ≤ 0x20)), b.toNat ≤ 0x20 := fun b hb => by
        simpa using List.mem_takeWhile_imp hb
      cases hd : buf.dropWhile (fun c : UInt8 => decide (c.toNat ≤ 0x20)) with
      | nil =>
        rw [hd, List.append_nil] at hsp
        rw [hsp] at hall
        have := hall c hm
        omega
      | cons d t =>
        have hd' : 0x20 < d.toNat := by
          have := List.head?_dropWhile_not (fun c : UInt8 => decide (c.toNat ≤ 0x20)) buf
          rw [hd] at this
          simpa using this
        have := skipBlanks_ok t hd' _ hall _ (Nat.lt_succ_self _)
        rw [← hd, hsp, hf] at this
        simp at this
    · obtain ⟨h1, h2⟩ := parse_no_uninit t hc
      refine ⟨_, ⟨N, fun k hk => input_ok (hN k hk)⟩, ?_⟩
      cases hp : (parse ⟨c :: t, false, false⟩).1 with
      | ok f => simp
      | throw m => simp
      | ub u => rw [hp] at h1; simpa using h1
      | fuel => exact absurd hp h2
  · next h =>
    intro k
    apply input_fuel
    by_cases hg : s.good = true
    · apply skipBlanks_blank
      intro b hb
      by_contra hc
      exact h ⟨hg, b, hb, by omega⟩
    · exact skipBlanks_bad k s (by simpa using hg)

/-- C55 fails for fractions: on an empty stream `operator>>` loops for ever. -/
theorem C55_fraction_not : ∃ s : IStream, ∀ x k, (input k (x, s)).1 = .fuel :=
  ⟨⟨[], false, false⟩, fun _ k => input_fuel (skipBlanks_blank k _ (by simp))⟩

example : IStream.good ⟨[32, 122], false, false⟩ = true ∧ ∃ c ∈ [(32 : UInt8), 122], 0x20 < c.toNat :=
  ⟨rfl, 122, by simp, by decide⟩

/-- C61: `operator>>` that throws leaves the fraction as it was. -/
theorem C61_fraction_input (k : ℕ) (x : Frac) (s : IStream) (m : String) (h : (input k (x, s)).1 = .throw m) :
    (input k (x, s)).2.1 = x := by
  rcases skipBlanks_cases s with hf | ⟨c, t, N, hc, hN⟩
  · rw [input_fuel (hf k)] at h; simp at h
  · cases hk : skipBlanks k s with
    | fuel => rw [input_fuel hk] at h; simp at h
    | ok s₀ =>
      rw [input_ok hk] at h ⊢
      cases hp : (parse s₀).1 <;> rw [hp] at h <;> first | rfl | simp at h
    | throw m => unfold input; rw [Meth.get_bind]; simp only [hk]; rfl
    | ub u => unfold input; rw [Meth.get_bind]; simp only [hk]; rfl

example : (input 3 (⟨5, 1⟩, ⟨[122], false, false⟩)).1 = .throw "Error: Wrong fraction literal." := by decide

end Pyincpp
