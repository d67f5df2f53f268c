import Verif.Proof.ReadLoop
import Verif.Props.IntStream
import Verif.Props.FractionStream
import Verif.Props.ComplexStream
import Verif.Props.Objects

/-! # C67, C68, C69: the stream after a read, and programs that read many values -/

namespace Pyincpp
open IStream

/-! ## C67: the stream after a successful read -/

theorem readWord_cases (s : IStream) : s.readWord.1 = [] ∨ (s.readWord.2.fail = false ∧ s.good = true ∧
    s.readWord.2.buf.length < s.buf.length) := by
  unfold readWord sentry
  by_cases hg : s.good = true
  · have hf : s.fail = false := by
      unfold good at hg; simp at hg; exact hg.2
    simp only [hg, Bool.not_true, Bool.false_eq_true, if_false]
    cases hd : s.buf.dropWhile isSpace with
    | nil => left; rfl
    | cons c t =>
      right
      refine ⟨hf, trivial, ?_⟩
      have h1 : (c :: t).length ≤ s.buf.length := by rw [← hd]; exact (List.dropWhile_sublist _).length_le
      have hc : isSpace c = false := by
        have := List.head?_dropWhile_not isSpace s.buf
        rw [hd] at this
        simpa using this
      have h2 : (t.dropWhile (fun c => !isSpace c)).length ≤ t.length := (List.dropWhile_sublist _).length_le
      simp only [List.isEmpty_cons, Bool.false_eq_true, if_false, List.dropWhile_cons, hc, Bool.not_false, if_true]
      simp at h1
      omega
  · left
    simp [hg]

theorem ofChars_nil : BInt.ofChars [] = .throw "Error: Wrong integer literal." := by decide

theorem inputM_cases (x : BInt) (s : IStream) :
    (∃ z s', BInt.inputM (x, s) = (.ok (), (enc z, s')) ∧ s'.fail = false ∧ s.good = true ∧ s'.buf.length < s.buf.length) ∨
    ∃ s', BInt.inputM (x, s) = (.throw "Error: Wrong integer literal.", (x, s')) := by
  have e : BInt.inputM (x, s) = (match BInt.ofChars (s.readWord.1.takeWhile (· != 0)) with
      | .ok r => (.ok (), (r, s.readWord.2))
      | .throw m => (.throw m, (x, s.readWord.2))
      | .ub u => (.ub u, (x, s.readWord.2))
      | .fuel => (.fuel, (x, s.readWord.2))) := by
    unfold BInt.inputM
    simp only [Meth.get_bind, Meth.set_bind]
    cases BInt.ofChars (s.readWord.1.takeWhile (· != 0)) <;> rfl
  rw [e]
  rcases readWord_cases s with h | ⟨h1, h2, h3⟩
  · right
    rw [h, List.takeWhile_nil, ofChars_nil]
    exact ⟨_, rfl⟩
  · by_cases hl : ∃ z, Literal (s.readWord.1.takeWhile (· != 0)) z
    · obtain ⟨z, hz⟩ := hl
      left
      rw [ofChars_literal hz]
      exact ⟨z, _, rfl, h1, h2, h3⟩
    · right
      rw [ofChars_not_literal hl]
      exact ⟨_, rfl⟩

/-- C67: when `operator>>` of `Int` returns, the stream has not failed; so `if (is >> x)` holds exactly when a number was
read. -/
theorem C67_int (x x' : BInt) (s s' : IStream) (h : BInt.inputM (x, s) = (.ok (), (x', s'))) : s'.fail = false := by
  rcases inputM_cases x s with ⟨z, s'', e, hf, -⟩ | ⟨s'', e⟩
  · rw [e] at h
    simp only [Prod.mk.injEq] at h
    rw [← h.2.2]; exact hf
  · rw [e] at h
    simp at h

example : BInt.inputM (⟨0, []⟩, { buf := [52] }) = (.ok (), (⟨1, [4]⟩, { buf := [], eof := true })) := by decide

/-- C67 for fractions: the stream has not failed after the text of a fraction that is followed by a blank. Missing: it has
failed after one that is at the end of the input (`C67_fraction_not`). -/
theorem C67_fraction_partial {x : Frac} (hx : x.Valid) (bl rest : List UInt8) (hbl : ∀ b ∈ bl, b.toNat ≤ 0x20) (hr : Stops rest)
    (hne : rest ≠ []) (y : Frac) (k : ℕ) (hk : bl.length < k) :
    Frac.input k (y, ⟨bl ++ (Frac.print x ++ rest), false, false⟩) = (.ok (), (x, ⟨rest, false, false⟩)) := by
  rw [C54_round_trip hx bl rest hbl hr y k hk]
  cases rest with
  | nil => exact absurd rfl hne
  | cons => rfl

/-- C67 fails for fractions: every fraction at the end of the input is read correctly, and the stream then says that
reading failed. The program `if (is >> f) use(f);` does not use it. -/
theorem C67_fraction_not {x : Frac} (hx : x.Valid) (y : Frac) (k : ℕ) (hk : 0 < k) :
    Frac.input k (y, ⟨Frac.print x, false, false⟩) = (.ok (), (x, ⟨[], true, true⟩)) := by
  have := C54_round_trip hx [] [] (by simp) (by intro c r h; simp at h) y k hk
  simpa using this

example : Frac.input 1 (⟨0, 1⟩, ⟨[49, 47, 50], false, false⟩) = (.ok (), (⟨1, 2⟩, ⟨[], true, true⟩)) := by decide

/-- The texts of complex numbers that are read, without or with a `j` at the end. -/
inductive CxText : List UInt8 → Cx Dbl → Bool → Prop
  | real (t : List UInt8) (q : ℚ) : CxDecimal t q → |Dbl.rnd q| < 2 ^ 1024 → CxText t ⟨.fin (Dbl.rnd q), .fin 0⟩ false
  | imag (t : List UInt8) (q : ℚ) : CxDecimal t q → |Dbl.rnd q| < 2 ^ 1024 → CxText (t ++ [106]) ⟨.fin 0, .fin (Dbl.rnd q)⟩ true
  | pair (t t' : List UInt8) (q q' : ℚ) (s : UInt8) : s = 43 ∨ s = 45 → CxDecimal t q → |Dbl.rnd q| < 2 ^ 1024 →
      CxDecimal (s :: t') q' → |Dbl.rnd q'| < 2 ^ 1024 →
      CxText (t ++ (s :: t') ++ [106]) ⟨.fin (Dbl.rnd q), .fin (Dbl.rnd q')⟩ true

theorem CxText.read {t : List UInt8} {z : Cx Dbl} {j : Bool} (h : CxText t z j) (bl rest : List UInt8)
    (hbl : ∀ b ∈ bl, b.toNat ≤ 0x20) (hr : Stops rest) (y : Cx Dbl) (k : ℕ) (hk : bl.length < k) :
    Cx.input k (y, ⟨bl ++ (t ++ rest), false, false⟩) = (.ok (), (z, ⟨rest, rest.isEmpty, rest.isEmpty && !j⟩)) := by
  cases h with
  | real _ q hd hq => rw [C62_read_real bl t rest q hbl hd hq hr y k hk]; simp
  | imag t q hd hq =>
    rw [show t ++ [106] ++ rest = t ++ 106 :: rest by simp, C62_read_imag bl t rest q hbl hd hq hr y k hk]; simp
  | pair t t' q q' s hs hd hq hd' hq' =>
    rw [show t ++ (s :: t') ++ [106] ++ rest = t ++ (s :: t') ++ 106 :: rest by simp,
      C62_read_pair bl t t' rest q q' s hs hbl hd hq hd' hq' hr y k hk]; simp

theorem CxText.ne_nil {t : List UInt8} {z : Cx Dbl} {j : Bool} (h : CxText t z j) : t ≠ [] := by
  cases h with
  | real _ q hd hq =>
    intro e
    obtain ⟨c, u, e', -⟩ := Cx.decimal_start hd []
    rw [e] at e'
    simp at e'
  | imag => simp
  | pair => simp

/-- C67 for complex numbers: the stream has not failed after the text of one that is followed by a blank, or one that ends
with `j`. Missing: it has failed after a real one at the end of the input (`C67_complex_not`). -/
theorem C67_complex_partial {t : List UInt8} {z : Cx Dbl} {j : Bool} (h : CxText t z j) (bl rest : List UInt8)
    (hbl : ∀ b ∈ bl, b.toNat ≤ 0x20) (hr : Stops rest) (hne : rest ≠ [] ∨ j = true) (y : Cx Dbl) (k : ℕ) (hk : bl.length < k) :
    Cx.input k (y, ⟨bl ++ (t ++ rest), false, false⟩) = (.ok (), (z, ⟨rest, rest.isEmpty, false⟩)) := by
  rw [h.read bl rest hbl hr y k hk]
  rcases hne with hne | rfl
  · cases rest with
    | nil => exact absurd rfl hne
    | cons => rfl
  · simp

/-- C67 fails for complex numbers: a real one at the end of the input is read correctly, and the stream then says that
reading failed. -/
theorem C67_complex_not {t : List UInt8} {z : Cx Dbl} (h : CxText t z false) (y : Cx Dbl) (k : ℕ) (hk : 0 < k) :
    Cx.input k (y, ⟨t, false, false⟩) = (.ok (), (z, ⟨[], true, true⟩)) := by
  have := h.read [] [] (by simp) (by intro c r h; simp at h) y k hk
  simpa using this

example : CxText [49] ⟨.fin (Dbl.rnd ((denoteNat [49] : ℕ) : ℚ)), .fin 0⟩ false :=
  .real _ _ (.plain _ _ (.plain _ _ (.int [49] (by simp) (by decide)))) (by decide +kernel)

/-! ## C68: reading many numbers -/

/-- C68: reading as many `Int`s as there are literals in the stream gives the numbers denoted, in order. Missing: the
loop until the end of input (`C68_int_not`). -/
theorem C68_int_partial (items : List (List UInt8 × (List UInt8 × ℤ))) (rest : List UInt8)
    (hl : ∀ p ∈ items, Literal p.2.1 p.2.2) (hs : Separated IsWhite items)
    (hr : ∀ c r, rest = c :: r → IsWhite c) (y : BInt) :
    (readN BInt.inputM id items.length [] (y, ⟨column (·.1) items rest, false, false⟩)).1 =
      .ok (items.map (fun p => enc p.2.2)) := by
  have hlit : ∀ {t : List UInt8} {z : ℤ}, Literal t z → t ≠ [] ∧ (∀ c ∈ t, c ≠ 0) ∧ ∀ c ∈ t, isSpace c = false := by
    intro t z h
    have hd : ∀ c : UInt8, IsDigit c → c ≠ 0 ∧ isSpace c = false := by
      intro c hc
      have h1 := hc.1
      constructor
      · rintro rfl; revert h1; decide
      · exact isSpace_false (by omega)
    cases h with
    | plain _ hn hds => exact ⟨hn, fun c hc => (hd c (hds c hc)).1, fun c hc => (hd c (hds c hc)).2⟩
    | plus ds hn hds =>
      refine ⟨by simp, fun c hc => ?_, fun c hc => ?_⟩ <;> rcases List.mem_cons.1 hc with rfl | hc
      · decide
      · exact (hd c (hds c hc)).1
      · decide
      · exact (hd c (hds c hc)).2
    | minus ds hn hds =>
      refine ⟨by simp, fun c hc => ?_, fun c hc => ?_⟩ <;> rcases List.mem_cons.1 hc with rfl | hc
      · decide
      · exact (hd c (hds c hc)).1
      · decide
      · exact (hd c (hds c hc)).2
  have := readN_column (blank := IsWhite) (text := fun a : List UInt8 × ℤ => a.1) (input := BInt.inputM)
    (val := fun a => enc a.2) (lossy := fun _ => false) (K := (items.map (fun p => p.1.length)).sum + 1) (items := items) (rest := rest)
    (fun p hp bl rest y hbl _ hr => by
      obtain ⟨h1, h2, h3⟩ := hlit (hl p hp)
      have := (C02_stream_word bl p.2.1 rest hbl h1 (fun c hc => (isSpace_neg c).1 (h3 c hc)) hr).1 p.2.1 [] p.2.2 (by simp) h2 (by simp) (hl p hp)
      rw [(C61_int_input y _).2 _ (by rw [List.append_assoc] at this; exact this)]
      simp)
    (fun p hp => (hlit (hl p hp)).1) hs hr
    (fun p hp => Nat.lt_succ_of_le (List.single_le_sum (by simp) _ (List.mem_map_of_mem hp))) [] y
  simpa using this

example : (readN BInt.inputM id 2 [] (⟨0, []⟩, ⟨[45, 52, 10, 10, 49], false, false⟩)).1 = .ok [⟨-1, [4]⟩, ⟨1, [1]⟩] := by decide

/-- C68 fails for `Int`: the loop `while (is >> x) v.push_back(x);` ends with an exception on every stream, at its end at
the latest. -/
theorem C68_int_not (s : IStream) (x : BInt) (v : List BInt) :
    ∃ N, ∀ n, N ≤ n → (readWhile BInt.inputM id n v (x, s)).1 = .throw "Error: Wrong integer literal." := by
  induction hm : s.buf.length using Nat.strong_induction_on generalizing s x v with
  | _ m ih =>
    rcases inputM_cases x s with ⟨z, s', e, hf, -, hlt⟩ | ⟨s', e⟩
    · obtain ⟨N, hN⟩ := ih s'.buf.length (by omega) s' (enc z) (v ++ [enc z]) rfl
      refine ⟨N + 1, fun n hn => ?_⟩
      obtain ⟨n, rfl⟩ : ∃ n', n = n' + 1 := ⟨n - 1, by omega⟩
      rw [readWhile, Meth.run_ok e, Meth.get_bind]
      simp only [hf, Bool.false_eq_true, if_false, id]
      exact hN n (by omega)
    · refine ⟨1, fun n hn => ?_⟩
      obtain ⟨n, rfl⟩ : ∃ n', n = n' + 1 := ⟨n - 1, by omega⟩
      rw [readWhile, Meth.run_throw e]

theorem print_ne_nil (x : Frac) : Frac.print x ≠ [] := by
  obtain ⟨c, u, e, -⟩ := Frac.starts_literal (literal_numeral x.num) []
  rw [List.append_nil] at e
  rw [C54_print]
  split <;> simp [e]

theorem Frac.reads {x : Frac} (hx : x.Valid) (k : ℕ) :
    Reads (fun c => c.toNat ≤ 0x20) Frac.print (Frac.input k) id (fun _ => true) k x := by
  intro bl rest y hbl hk hr
  rw [C54_round_trip hx bl rest hbl hr y k hk]
  simp

/-- C68: reading as many fractions as were printed gives them all back, in order. Missing: the loop until the end of
input (`C68_fraction_not`). -/
theorem C68_fraction_partial (items : List (List UInt8 × Frac)) (rest : List UInt8) (hv : ∀ p ∈ items, p.2.Valid)
    (hs : Separated (fun c => c.toNat ≤ 0x20) items) (hr : Stops rest) (y : Frac) (k : ℕ) (hk : ∀ p ∈ items, p.1.length < k) :
    (readN (Frac.input k) id items.length [] (y, ⟨column Frac.print items rest, false, false⟩)).1 =
      .ok (items.map (·.2)) := by
  have := readN_column (fun p hp => Frac.reads (hv p hp) k) (fun p _ => print_ne_nil p.2) hs hr hk [] y
  simpa using this

example : Separated (fun c => c.toNat ≤ 0x20) [([], (⟨1, 2⟩ : Frac)), ([32, 10], ⟨3, 1⟩)] := ⟨by decide, by decide⟩

/-- C68 fails for fractions. The loop `while (is >> x) v.push_back(x);` over printed fractions loses the last one if it is at the
end of the input; if blanks follow it, a final newline for example, the loop never ends. -/
theorem C68_fraction_not (items : List (List UInt8 × Frac)) (p : List UInt8 × Frac) (hv : ∀ q ∈ items ++ [p], q.2.Valid)
    (hs : Separated (fun c => c.toNat ≤ 0x20) (items ++ [p])) (y : Frac) (k : ℕ) (hk : ∀ q ∈ items ++ [p], q.1.length < k) :
    (∀ n, items.length < n → (readWhile (Frac.input k) id n [] (y, ⟨column Frac.print (items ++ [p]) [], false, false⟩)).1 =
      .ok (items.map (·.2))) ∧
    ∀ rest, rest ≠ [] → (∀ c ∈ rest, c.toNat ≤ 0x20) → ∀ n,
      (readWhile (Frac.input k) id (n + (items ++ [p]).length) [] (y, ⟨column Frac.print (items ++ [p]) rest, false, false⟩)).1 =
        .fuel := by
  constructor
  · intro n hn
    obtain ⟨n, rfl⟩ : ∃ n', n = n' + 1 + items.length := ⟨n - 1 - items.length, by omega⟩
    rw [readWhile_last (fun q hq => Frac.reads (hv q hq) k) hs (print_ne_nil p.2) hk n [] y]
    simp
  · intro rest hne hb n
    obtain ⟨y', e⟩ := readWhile_column (fun q hq => Frac.reads (hv q hq) k) hs
      (fun c r e => hb c (by rw [e]; simp)) hne hk n [] y
    rw [e]
    cases n with
    | zero => rfl
    | succ n =>
      have hf : (Frac.input k (y', ⟨rest, false, false⟩)).1 = .fuel := Frac.input_fuel (skipBlanks_blank k _ hb)
      rw [readWhile, Meth.run_fuel (s' := (Frac.input k (y', ⟨rest, false, false⟩)).2) (by rw [← hf])]

example : (readWhile (Frac.input 9) id 9 [] (⟨0, 1⟩, ⟨[49, 32, 50], false, false⟩)).1 = .ok [⟨1, 1⟩] := by decide
example : (readWhile (Frac.input 9) id 9 [] (⟨0, 1⟩, ⟨[49, 32, 50, 10], false, false⟩)).1 = .fuel := by decide

theorem CxText.reads {a : List UInt8 × Cx Dbl × Bool} (h : CxText a.1 a.2.1 a.2.2) (k : ℕ) :
    Reads (fun c => c.toNat ≤ 0x20) (fun a : List UInt8 × Cx Dbl × Bool => a.1) (Cx.input k) (fun a => a.2.1) (fun a => !a.2.2) k a := by
  intro bl rest y hbl hk hr
  exact h.read bl rest hbl hr y k hk

/-- C68: reading as many complex numbers as there are texts gives them all, in order. Missing: the loop until the
end of input (`C68_complex_not`). -/
theorem C68_complex_partial (items : List (List UInt8 × (List UInt8 × Cx Dbl × Bool))) (rest : List UInt8)
    (hv : ∀ p ∈ items, CxText p.2.1 p.2.2.1 p.2.2.2) (hs : Separated (fun c => c.toNat ≤ 0x20) items) (hr : Stops rest) (y : Cx Dbl)
    (k : ℕ) (hk : ∀ p ∈ items, p.1.length < k) :
    (readN (Cx.input k) id items.length [] (y, ⟨column (·.1) items rest, false, false⟩)).1 = .ok (items.map (fun p => p.2.2.1)) := by
  have := readN_column (fun p hp => (hv p hp).reads k) (fun p hp => (hv p hp).ne_nil) hs hr hk [] y
  simpa using this

/-- C68 fails for complex numbers: the loop loses the last one if it is real and at the end of the input; if it ends with `j`, or if
blanks follow, the loop never ends. -/
theorem C68_complex_not (items : List (List UInt8 × (List UInt8 × Cx Dbl × Bool))) (p : List UInt8 × (List UInt8 × Cx Dbl × Bool))
    (hv : ∀ q ∈ items ++ [p], CxText q.2.1 q.2.2.1 q.2.2.2) (hs : Separated (fun c => c.toNat ≤ 0x20) (items ++ [p])) (y : Cx Dbl)
    (k : ℕ) (hk : ∀ q ∈ items ++ [p], q.1.length < k) :
    (∀ n, items.length < n → (readWhile (Cx.input k) id n [] (y, ⟨column (·.1) (items ++ [p]) [], false, false⟩)).1 =
      if p.2.2.2 then .fuel else .ok (items.map (fun p => p.2.2.1))) ∧
    ∀ rest, rest ≠ [] → (∀ c ∈ rest, c.toNat ≤ 0x20) → ∀ n,
      (readWhile (Cx.input k) id (n + (items ++ [p]).length) [] (y, ⟨column (·.1) (items ++ [p]) rest, false, false⟩)).1 = .fuel := by
  constructor
  · intro n hn
    obtain ⟨n, rfl⟩ : ∃ n', n = n' + 1 + items.length := ⟨n - 1 - items.length, by omega⟩
    rw [readWhile_last (fun q hq => (hv q hq).reads k) hs (hv p (by simp)).ne_nil hk n [] y]
    cases p.2.2.2 with
    | false => simp
    | true =>
      simp only [Bool.not_true, Bool.false_eq_true, if_false, if_true]
      cases n with
      | zero => rfl
      | succ n =>
        have hf : (Cx.input k (p.2.2.1, ⟨[], true, false⟩)).1 = .fuel := Cx.input_fuel (skipBlanks_bad k _ rfl)
        rw [readWhile, Meth.run_fuel (s' := (Cx.input k (p.2.2.1, ⟨[], true, false⟩)).2) (by rw [← hf])]
  · intro rest hne hb n
    obtain ⟨y', e⟩ := readWhile_column (fun q hq => (hv q hq).reads k) hs
      (fun c r e => hb c (by rw [e]; simp)) hne hk n [] y
    rw [e]
    cases n with
    | zero => rfl
    | succ n =>
      have hf : (Cx.input k (y', ⟨rest, false, false⟩)).1 = .fuel := Cx.input_fuel (skipBlanks_blank k _ hb)
      rw [readWhile, Meth.run_fuel (s' := (Cx.input k (y', ⟨rest, false, false⟩)).2) (by rw [← hf])]

example : (readWhile (Cx.input 9) id 9 [] (⟨.nan, .nan⟩, ⟨[49, 106, 32, 50], false, false⟩)).1 = .ok [⟨.fin 0, .fin 1⟩] := by
  decide +kernel

/-! ## C69: the loop over lines -/

/-- C69: the loop `while (is >> s) v.push_back(s);` gives all lines of the input, in order, the last one also if no newline
follows it. Missing: by the standard the write to the `const` member is undefined (`C69_line_not`). -/
theorem C69_loop_partial (lines : List (List UInt8)) (last : List UInt8) (hl : ∀ l ∈ lines, ∀ c ∈ l, c ≠ 10) (hlast : ∀ c ∈ last, c ≠ 10)
    (a : Nat) (s : Store (List UInt8)) (v : List (List UInt8)) :
    ∀ n, lines.length + 1 < n →
      (readWhile (Obj.inputStr .lenient a) (fun s => s a) n v (s, ⟨lines.flatMap (· ++ [10]) ++ last, false, false⟩)).1 =
        .ok (v ++ lines ++ if last = [] then [] else [last]) := by
  induction lines generalizing s v with
  | nil =>
    intro n hn
    obtain ⟨n, rfl⟩ : ∃ n', n = n' + 1 + 1 := ⟨n - 2, by simp at hn; omega⟩
    have e := (C69_line_partial a s last hlast).2
    rw [List.flatMap_nil, List.nil_append, readWhile, Meth.run_ok e, Meth.get_bind]
    cases last with
    | nil => simp
    | cons c t =>
      simp only [List.isEmpty_cons, Bool.false_eq_true, if_false]
      rw [readWhile, Meth.run_ok (C69_exhausted .lenient a _ _ rfl), Meth.get_bind]
      simp
  | cons l ls ih =>
    intro n hn
    obtain ⟨n, rfl⟩ : ∃ n', n = n' + 1 := ⟨n - 1, by simp at hn; omega⟩
    have e := (C69_line_partial a s l (hl l (by simp))).1 (ls.flatMap (· ++ [10]) ++ last)
    have e' : (l :: ls).flatMap (· ++ [10]) ++ last = l ++ 10 :: (ls.flatMap (· ++ [10]) ++ last) := by simp
    rw [e', readWhile, Meth.run_ok e, Meth.get_bind]
    simp only [Bool.false_eq_true, if_false]
    rw [ih (fun l' h => hl l' (by simp [h])) _ _ n (by simp at hn; omega)]
    simp

example : (readWhile (Obj.inputStr .lenient 0) (fun s => s 0) 9 [] (fun _ => [], ⟨[97, 10, 10, 98], false, false⟩)).1 =
    .ok [[97], [], [98]] := by decide

end Pyincpp
