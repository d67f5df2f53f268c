import Verif.Spec.Format
import Verif.Proof.FractionStream
import Verif.Props.StrSeq
import Verif.Props.FractionStream
import Verif.Props.ComplexStream
import Verif.Props.TuplePrint

/-! # C79: printing and the formatting state of the stream -/

namespace Pyincpp
open OStream Val

theorem padded_zero (f : UInt8) (a : Adjust) (b : Bool) (t : List UInt8) : padded 0 f a b t = t := by
  unfold padded
  cases a <;> simp
  intro _ h
  cases t with
  | nil => simp at h
  | cons c t => simp at h; simp [h]

theorem padded_text (w : ℕ) (f : UInt8) (a : Adjust) (t : List UInt8) :
    (if a = .left then t ++ List.replicate (w - t.length) f else List.replicate (w - t.length) f ++ t) = padded w f a false t := by
  unfold padded; cases a <;> simp

theorem padded_char (w : ℕ) (f : UInt8) (a : Adjust) (b : Bool) (c : UInt8) (h : c ≠ 45) : padded w f a b [c] = padded w f a false [c] := by
  unfold padded; cases a <;> simp [h]

theorem natNumeral_head (n : ℕ) : (natNumeral n).head? ≠ some 45 := by
  unfold natNumeral
  split
  · simp
  · intro h
    rw [List.head?_eq_some_iff] at h
    obtain ⟨u, h⟩ := h
    have : (45 : UInt8) ∈ (Nat.digits 10 n).reverse.map (fun d => (48 + d).toUInt8) := by rw [h]; simp
    simp only [List.mem_map, List.mem_reverse] at this
    obtain ⟨d, hd, e⟩ := this
    have h10 := Nat.digits_lt_base (by norm_num) hd
    have := congrArg UInt8.toNat e
    simp at this
    omega

theorem digits_eq (n : ℕ) : OStream.digits 10 n = natNumeral n := by
  have := Frac.intText_eq (n : ℤ)
  simpa [Frac.intText, numeral, OStream.digits, show ¬ ((n : ℤ) < 0) by omega] using this

theorem numeral_split (n : ℤ) : numeral n = (if n < 0 then [45] else []) ++ natNumeral n.natAbs := by
  unfold numeral; split <;> rfl

theorem putNumber_eq (os : OStream) (p d : List UInt8) (h : p = [45] ∨ p = [] ∧ d.head? ≠ some 45) :
    os.putNumber p d = { os with out := os.out ++ padded os.width os.fill os.adjust true (p ++ d), width := 0 } := by
  unfold putNumber padded
  rcases h with rfl | ⟨rfl, h⟩
  · cases os.adjust <;> simp [Nat.add_comm]
  · cases os.adjust <;> simp [h]

theorem putInt_eq {os : OStream} (h : os.Default) (n : ℤ) :
    os.putInt n = { os with out := os.out ++ padded os.width os.fill os.adjust true (numeral n), width := 0 } := by
  have e : os.putInt n = os.putNumber (if n < 0 then [45] else []) (natNumeral n.natAbs) := by
    unfold putInt
    rw [h.dec]
    simp [h.pos, digits_eq]
  rw [e, putNumber_eq, numeral_split]
  by_cases hn : n < 0
  · simp [hn]
  · simp [hn, natNumeral_head]

theorem putDouble_eq {os : OStream} (h : os.Default) (x : Dbl) :
    os.putDouble x = { os with out := os.out ++ padded os.width os.fill os.adjust true x.text, width := 0 } := by
  have e : os.putDouble x = match x.text with
      | 45 :: t => putNumber [45] t os
      | t => putNumber [] t os := by
    unfold putDouble
    simp only [h.pos, h.upper, Bool.false_eq_true, if_false]
    rfl
  rw [e]
  split
  · rename_i t e
    rw [putNumber_eq _ _ _ (Or.inl rfl), e]; rfl
  · rename_i hne
    rw [putNumber_eq]
    · rfl
    · right
      refine ⟨rfl, fun hh => ?_⟩
      rw [List.head?_eq_some_iff] at hh
      obtain ⟨u, e⟩ := hh
      exact hne u e

theorem putText_eq (os : OStream) (t : List UInt8) :
    os.putText t = { os with out := os.out ++ padded os.width os.fill os.adjust false t, width := 0 } := by
  unfold putText
  simp only
  rw [padded_text]

/-- A stream after `t` was written. -/
def wrote (os : OStream) (t : List UInt8) (b : Bool) : OStream :=
  { os with out := os.out ++ t, width := 0, fill := if b then 48 else os.fill }

theorem wrote_default {os : OStream} (h : os.Default) (t : List UInt8) (b : Bool) : (wrote os t b).Default := ⟨h.dec, h.pos, h.upper⟩

@[simp] theorem wrote_width (os : OStream) (t : List UInt8) (b : Bool) : (wrote os t b).width = 0 := rfl

@[simp] theorem wrote_wrote (os : OStream) (t u : List UInt8) (b c : Bool) : wrote (wrote os t b) u c = wrote os (t ++ u) (b || c) := by
  unfold wrote; cases b <;> cases c <;> simp

theorem putText_wrote {os : OStream} (h : os.width = 0) (t : List UInt8) : os.putText t = wrote os t false := by
  rw [putText_eq, h, padded_zero]; rfl

theorem putInt_wrote {os : OStream} (hd : os.Default) (h : os.width = 0) (n : ℤ) : os.putInt n = wrote os (numeral n) false := by
  rw [putInt_eq hd, h, padded_zero]; rfl

theorem putDouble_wrote {os : OStream} (hd : os.Default) (h : os.width = 0) (x : Dbl) : os.putDouble x = wrote os x.text false := by
  rw [putDouble_eq hd, h, padded_zero]; rfl

theorem putText_any (os : OStream) (t : List UInt8) : os.putText t = wrote os (padded os.width os.fill os.adjust false t) false := by
  rw [putText_eq]; rfl

theorem putInt_any {os : OStream} (hd : os.Default) (n : ℤ) :
    os.putInt n = wrote os (padded os.width os.fill os.adjust true (numeral n)) false := by
  rw [putInt_eq hd]; rfl

theorem putDouble_any {os : OStream} (hd : os.Default) (x : Dbl) :
    os.putDouble x = wrote os (padded os.width os.fill os.adjust true x.text) false := by
  rw [putDouble_eq hd]; rfl

theorem putChunks_eq : ∀ (l : List ℕ) (os : OStream), (∀ d ∈ l, d < 10) → os.width = 0 →
    putChunks (l.map (fun d : ℕ => (d : ℤ))) os = wrote os (l.map (fun d => (48 + d).toUInt8)) (!l.isEmpty)
  | [], os, _, h => by
    simp only [List.map_nil, putChunks, wrote]
    cases os; simp_all
  | d :: l, os, hd, h => by
    simp only [List.map_cons, putChunks]
    rw [putText_eq, putChunks_eq l _ (fun d h => hd d (by simp [h])) rfl, decimal_digit (hd d (by simp))]
    unfold wrote
    have (c : UInt8) : padded 1 48 os.adjust false [c] = [c] := by unfold padded; cases os.adjust <;> simp
    cases l <;> simp [setw, setfill, this]

theorem putStr_loop : ∀ (s : List UInt8) (os : OStream), os.width = 0 →
    s.foldl (fun os c => os.putText [c]) os = wrote os s false
  | [], os, h => by unfold wrote; cases os; simp_all
  | c :: s, os, h => by
    rw [List.foldl_cons, putText_wrote h, putStr_loop s _ rfl, wrote_wrote]; rfl

theorem printed_wrote (v : Val) (os : OStream) : printed v os =
    wrote os (padded os.width os.fill os.adjust v.numeric v.lead ++ v.shown.drop v.lead.length) v.long := rfl

theorem putBig_eq {os : OStream} (hd : os.Default) (z : ℤ) : os.putBig (enc z) = .ok (printed (.big z) os) := by
  unfold putBig
  by_cases hz : z = 0
  · subst hz
    rw [if_pos (by simp [enc_zero]), putText_any, printed_wrote]
    simp [numeric, lead, shown, long, numeral, natNumeral]
  rw [if_neg (by rw [enc_sign_eq_zero]; exact hz)]
  have hn : z.natAbs ≠ 0 := by omega
  have hrev : (enc z).chunks.reverse = ((Nat.digits 10 z.natAbs).reverse.map (fun d : ℕ => (d : ℤ))) := by
    simp only [enc, List.map_reverse]
  have hlt : ∀ d ∈ (Nat.digits 10 z.natAbs).reverse, d < 10 := by
    intro d hd
    exact Nat.digits_lt_base (by norm_num) (List.mem_reverse.mp hd)
  have hne : (Nat.digits 10 z.natAbs).reverse ≠ [] := by
    simpa [Nat.digits_eq_nil_iff_eq_zero] using hn
  have hlen : (Nat.digits 10 z.natAbs).reverse.length = Nat.log 10 z.natAbs + 1 := by
    rw [List.length_reverse, Nat.length_digits 10 _ (by norm_num) hn]
  have hnn : natNumeral z.natAbs = (Nat.digits 10 z.natAbs).reverse.map (fun d => (48 + d).toUInt8) := by
    unfold natNumeral; rw [if_neg hn]
  rw [hrev, printed_wrote]
  simp only [lead, shown, numeric, long]
  rw [numeral_split, hnn]
  match h : (Nat.digits 10 z.natAbs).reverse, hne, hlt, hlen with
  | c :: cs, _, hlt, hlen =>
    have hc : numeral (c : ℤ) = [(48 + c).toUInt8] := by
      rw [← Frac.intText_eq]
      have := decimal_digit (hlt c (by simp))
      simpa [BInt.decimal, Frac.intText, show ¬ ((c : ℤ) < 0) by omega] using this
    have hlong : (!cs.isEmpty) = decide (10 ≤ z.natAbs) := by
      simp only [List.length_cons] at hlen
      rw [Bool.eq_iff_iff]
      simp only [Bool.not_eq_true', List.isEmpty_eq_false_iff, decide_eq_true_eq, ne_eq]
      rw [← List.length_eq_zero_iff, show cs.length = Nat.log 10 z.natAbs by omega, Nat.log_eq_zero_iff]
      omega
    have hcs : ∀ d ∈ cs, d < 10 := fun d hd => hlt d (by simp [hd])
    have hne : (48 + c).toUInt8 ≠ 45 := by
      have := hlt c (by simp)
      interval_cases c <;> decide
    simp only [List.map_cons]
    rw [← hlong]
    rcases sign_cases hz with hs | hs
    · have hp : 0 < z := Int.pos_of_sign_eq_one hs
      rw [if_neg (by rw [enc_sign, hs]; norm_num), putInt_any hd, putChunks_eq cs _ hcs rfl, wrote_wrote, hc]
      simp [hp, show ¬ z < 0 by omega]
    · have hp : z < 0 := Int.neg_of_sign_eq_neg_one hs
      rw [if_pos (by rw [enc_sign, hs]), putText_any, putInt_wrote (wrote_default hd _ _) rfl, putChunks_eq cs _ hcs rfl, wrote_wrote,
        wrote_wrote, hc]
      simp [hp, show ¬ 0 < z by omega]

theorem lead_prefix : ∀ v : Val, ∃ t, v.shown = v.lead ++ t
  | .text t => ⟨[], by simp [shown, lead]⟩
  | .int n => ⟨[], by simp [shown, lead]⟩
  | .double x => ⟨[], by simp [shown, lead]⟩
  | .big z => ⟨(numeral z).drop 1, by rw [shown, lead, List.take_append_drop]⟩
  | .frac x => by
    rw [shown, lead]
    split
    · exact ⟨[], by simp⟩
    · exact ⟨_, rfl⟩
  | .str s => ⟨_, rfl⟩
  | .complex x => ⟨_, rfl⟩
  | .pair k v => by
    obtain ⟨t, e⟩ := lead_prefix k
    exact ⟨t ++ 58 :: 32 :: shown v, by rw [shown, lead, e]; simp⟩
  | .range o c l => ⟨List.intercalate [44, 32] (showns l) ++ [c], by rw [shown, lead]; rfl⟩
  | .tuple l => ⟨List.intercalate [44, 32] (showns l) ++ (if l.length = 1 then [44, 41] else [41]), by rw [shown, lead]; rfl⟩

theorem printed_zero {os : OStream} (h : os.width = 0) (v : Val) : printed v os = wrote os v.shown v.long := by
  rw [printed_wrote, h, padded_zero]
  obtain ⟨t, e⟩ := lead_prefix v
  rw [e]; simp

mutual

theorem put_printed : ∀ (v : Val) (os : OStream), os.Default → put v os = .ok (printed v os)
  | .text t, os, hd => by
    rw [put, putText_any, printed_wrote]; simp [lead, shown, long, numeric]
  | .int n, os, hd => by
    rw [put, putInt_any hd, printed_wrote]; simp [lead, shown, long, numeric]
  | .double x, os, hd => by
    rw [put, putDouble_any hd, printed_wrote]; simp [lead, shown, long, numeric]
  | .big z, os, hd => by rw [put, putBig_eq hd]
  | .frac x, os, hd => by
    rw [put, putFrac, printed_wrote]
    by_cases h : x.den = 1
    · rw [if_pos h, putInt_any hd]; simp [lead, shown, long, numeric, h]
    · rw [if_neg h, putInt_any hd, putText_wrote rfl, wrote_wrote, putInt_wrote (wrote_default hd _ _) rfl, wrote_wrote]
      simp [lead, shown, long, numeric, h]
  | .str s, os, hd => by
    rw [put, putStr, putText_any os, putStr_loop _ _ rfl, wrote_wrote, putText_wrote rfl, wrote_wrote, printed_wrote]
    simp [lead, shown, long, numeric]
  | .complex x, os, hd => by
    rw [put, putCx, putText_any os, putDouble_wrote (wrote_default hd _ _) rfl, wrote_wrote,
      putText_wrote (os := wrote os _ _) rfl, wrote_wrote,
      putDouble_wrote (wrote_default hd _ _) rfl, wrote_wrote, putText_wrote rfl, wrote_wrote, printed_wrote]
    simp [lead, shown, long, numeric]
  | .pair k v, os, hd => by
    have h1 : (printed k os).Default := wrote_default hd _ _
    rw [put, put_printed k os hd, Res.ok_bind, putText_wrote rfl, put_printed v _ (wrote_default h1 _ _), printed_zero (by rfl)]
    rw [printed_wrote, wrote_wrote, wrote_wrote, printed_wrote]
    obtain ⟨t, e⟩ := lead_prefix k
    simp [lead, shown, long, numeric, e]
  | .range o c [], os, hd => by
    rw [put, putText_any os, putText_wrote rfl, wrote_wrote, printed_wrote]
    simp [lead, shown, long, numeric, showns, longs, List.intercalate]
  | .range o c (v :: l), os, hd => by
    rw [put, putText_any os, putLoop_wrote c (v :: l) _ (by simp) (wrote_default hd _ _) rfl, wrote_wrote, printed_wrote]
    simp [lead, shown, long, numeric]
  | .tuple [v], os, hd => by
    rw [put, putText_any os, put_printed v _ (wrote_default hd _ _), printed_zero (by rfl)]
    simp only [Res.ok_bind, Res.pure_eq]
    rw [wrote_wrote, putText_wrote rfl, wrote_wrote, printed_wrote]
    simp [lead, shown, long, numeric, showns, longs, List.intercalate]
  | .tuple [], os, hd => by
    rw [put, putText_any os, putElems]
    simp only [Res.ok_bind, Res.pure_eq]
    rw [putText_wrote rfl, wrote_wrote, printed_wrote]
    simp [lead, shown, long, numeric, showns, longs, List.intercalate]
    simp
  | .tuple (v :: w :: l), os, hd => by
    rw [put, putText_any os, putElems_wrote (v :: w :: l) _ (wrote_default hd _ _) rfl]
    simp only [Res.ok_bind, Res.pure_eq]
    rw [wrote_wrote, putText_wrote rfl, wrote_wrote, printed_wrote]
    simp [lead, shown, long, numeric]
    simp

theorem putLoop_wrote (c : UInt8) : ∀ (l : List Val) (os : OStream), l ≠ [] → os.Default → os.width = 0 →
    putLoop c l os = .ok (wrote os (List.intercalate [44, 32] (showns l) ++ [c]) (longs l))
  | [], _, hne, _, _ => absurd rfl hne
  | [v], os, _, hd, h => by
    rw [putLoop, put_printed v os hd, printed_zero h]
    simp only [Res.ok_bind, Res.pure_eq]
    rw [putText_wrote rfl, wrote_wrote]
    simp [showns, longs, List.intercalate]
  | v :: w :: l, os, _, hd, h => by
    rw [putLoop, put_printed v os hd, printed_zero h, Res.ok_bind, putText_wrote rfl, wrote_wrote,
      putLoop_wrote c (w :: l) _ (by simp) (wrote_default hd _ _) rfl, wrote_wrote]
    simp [showns, longs, List.intercalate]

theorem putElems_wrote : ∀ (l : List Val) (os : OStream), os.Default → os.width = 0 →
    putElems l os = .ok (wrote os (List.intercalate [44, 32] (showns l)) (longs l))
  | [], os, hd, h => by
    rw [putElems]; unfold wrote; cases os; simp_all [showns, longs, List.intercalate]
  | v :: l, os, hd, h => by
    rw [putElems, put_printed v os hd, printed_zero h, Res.ok_bind, putText_wrote rfl, wrote_wrote,
      putElems_wrote l _ (wrote_default hd _ _) rfl, wrote_wrote]
    cases l <;> simp [showns, longs, List.intercalate]

end

/-- C79: on a stream with the default flags every value is printed so: a field width applies to the beginning of the text only (the
first character of an `Int`, a string, a complex number or a container), the rest follows unchanged, the width is 0 afterwards,
and the fill character has become `0` if the value contains an `Int` of two digits or more. -/
theorem C79_state (v : Val) (os : OStream) (h : os.Default) : put v os = .ok (printed v os) := put_printed v os h

/-- C79: without a field width the text of the value is appended, whatever the fill character and the adjustment; flags and width stay
as they are. -/
theorem C79_text_partial (v : Val) (os : OStream) (h : os.Default) (hw : os.width = 0) :
    put v os = .ok { os with out := os.out ++ v.shown, fill := if v.long then 48 else os.fill } := by
  rw [C79_state v os h, printed_zero hw]
  unfold wrote
  cases os
  simp_all

/-- C79: values printed one after the other give their texts one after the other; the changed fill character does no harm. -/
theorem C79_sequence_partial (l : List Val) : ∀ os : OStream, os.Default → os.width = 0 →
    putAll l os = .ok { os with out := os.out ++ (l.map shown).flatten, fill := if l.any long then 48 else os.fill } := by
  induction l with
  | nil => intro os _ _; simp [putAll]
  | cons v l ih =>
    intro os hd hw
    rw [putAll, C79_text_partial v os hd hw, Res.ok_bind, ih]
    · cases hv : v.long <;> simp [hv]
    · exact ⟨hd.dec, hd.pos, hd.upper⟩
    · exact hw

/-- C79: the fill character is kept exactly if there is no `Int` of two digits or more in the value (or it was `0` before). -/
theorem C79_fill_iff (v : Val) (os os' : OStream) (h : os.Default) (hp : put v os = .ok os') :
    os'.fill = os.fill ↔ v.long = false ∨ os.fill = 48 := by
  rw [C79_state v os h] at hp
  cases hp
  simp only [printed]
  cases v.long <;> simp [eq_comm]

theorem format_args (l : List Val) : ∀ (os : OStream) (s : List UInt8), os.Default → os.width = 0 →
    ∃ b, formatArgs l (os, s) = .ok (wrote os ((l.map shown).foldl Str.formatHelper ([], s)).1 b,
      ((l.map shown).foldl Str.formatHelper ([], s)).2) := by
  have acc : ∀ (l : List (List UInt8)) (a b s : List UInt8), l.foldl Str.formatHelper (a ++ b, s) =
      (a ++ (l.foldl Str.formatHelper (b, s)).1, (l.foldl Str.formatHelper (b, s)).2) := by
    intro l
    induction l with
    | nil => intro a b s; rfl
    | cons t l ih =>
      intro a b s
      have e : Str.formatHelper (a ++ b, s) t = (a ++ (Str.formatHelper (b, s) t).1, (Str.formatHelper (b, s) t).2) := by
        unfold Str.formatHelper
        cases Str.findChar s 123 0 with
        | none => rfl
        | some i =>
          simp only
          cases Str.findChar s 125 (i + 1) with
          | none => rfl
          | some j => simp
      rw [List.foldl_cons, e, ih]
      rfl
  induction l with
  | nil => intro os s _ hw; exact ⟨false, by unfold formatArgs wrote; cases os; simp_all⟩
  | cons v l ih =>
    intro os s hd hw
    have e : ∃ b, formatHelper (os, s) v = .ok (wrote os (Str.formatHelper ([], s) v.shown).1 b, (Str.formatHelper ([], s) v.shown).2) := by
      unfold formatHelper Str.formatHelper
      have h0 : Res.ok (os, s) = .ok (wrote os [] false, s) := by unfold wrote; cases os; simp_all
      cases Str.findChar s 123 0 with
      | none => exact ⟨false, h0⟩
      | some i =>
        simp only
        cases Str.findChar s 125 (i + 1) with
        | none => exact ⟨false, h0⟩
        | some j =>
          refine ⟨v.long, ?_⟩
          simp only
          rw [putText_wrote hw, put_printed v _ (wrote_default hd _ _), printed_zero (by rfl), wrote_wrote]
          simp
    obtain ⟨b, e⟩ := e
    obtain ⟨b', e'⟩ := ih (wrote os (Str.formatHelper ([], s) v.shown).1 b) (Str.formatHelper ([], s) v.shown).2
      (wrote_default hd _ _) rfl
    refine ⟨b || b', ?_⟩
    rw [formatArgs, e, Res.ok_bind, e', wrote_wrote, List.map_cons, List.foldl_cons]
    have := acc (l.map shown) (Str.formatHelper ([], s) v.shown).1 [] (Str.formatHelper ([], s) v.shown).2
    rw [List.append_nil] at this
    rw [this]

/-- C79: `format` inserts the texts of its arguments, whatever they are: its stream is a new one, and no argument disturbs the next. -/
theorem C79_format (s : List UInt8) (args : List Val) : OStream.format s args = .ok (Str.format s (args.map shown)) := by
  obtain ⟨b, e⟩ := format_args args {} s ⟨rfl, rfl, rfl⟩ rfl
  unfold OStream.format Str.format
  rw [e]
  simp only [Res.ok_bind, Res.pure_eq]
  rw [putText_wrote rfl, wrote_wrote]
  simp [wrote]

/-- C79: the texts are those of the models of the single classes. -/
theorem C79_shown (z : ℤ) (x : Frac) (s : List UInt8) (c : Cx Dbl) (k v : Val) (l : List Val) (o p : UInt8) :
    BInt.print (enc z) = .ok (shown (.big z)) ∧ Frac.print x = shown (.frac x) ∧ Str.print s = shown (.str s) ∧
    Cx.print Dbl.text c = shown (.complex c) ∧ printPair k.shown v.shown = shown (.pair k v) ∧
    printRange (l.map shown) o p = .ok (shown (.range o p l)) := by
  have hs : showns l = l.map shown := by
    induction l with
    | nil => rfl
    | cons v l ih => rw [showns, ih]; rfl
  refine ⟨?_, ?_, ?_, ?_, ?_, ?_⟩
  · rw [print_enc, shown]
  · rw [C54_print, shown]
  · rw [shown]; rfl
  · rw [C62_print, shown]
  · rw [shown]; simp [printPair]
  · rw [C60_print, shown, hs]; rfl

/-- C79: a `Str` is printed alike whatever the flags are. -/
theorem C79_str (s : List UInt8) (os : OStream) : put (.str s) os = .ok { os with
    out := os.out ++ (padded os.width os.fill os.adjust false [34] ++ (s ++ [34])), width := 0 } := by
  rw [put, putStr, putText_any os, putStr_loop _ _ rfl, wrote_wrote, putText_wrote rfl, wrote_wrote]
  simp [wrote]

theorem putNumber_wrote {os : OStream} (h : os.width = 0) (p d : List UInt8) : os.putNumber p d = wrote os (p ++ d) false := by
  unfold putNumber wrote
  rw [h]
  cases os.adjust <;> simp

/-- C79: exactly when an `Int` is printed as its decimal numeral, under any flags. -/
theorem C79_int_iff (z : ℤ) (os : OStream) (hw : os.width = 0) :
    (∃ os', put (.big z) os = .ok os' ∧ os'.out = os.out ++ numeral z) ↔ z = 0 ∨ (match os.base with
      | .dec => os.showpos = false
      | .hex => os.showbase = false
      | .oct => os.showbase = false ∧ (natNumeral z.natAbs).head? ≠ some 56 ∧ (natNumeral z.natAbs).head? ≠ some 57) := by
  rw [put]
  unfold putBig
  by_cases hz : z = 0
  · subst hz
    rw [if_pos (by simp [enc_zero]), putText_wrote hw]
    simp [wrote, numeral, natNumeral]
  rw [if_neg (by rw [enc_sign_eq_zero]; exact hz)]
  have hn : z.natAbs ≠ 0 := by omega
  have hrev : (enc z).chunks.reverse = ((Nat.digits 10 z.natAbs).reverse.map (fun d : ℕ => (d : ℤ))) := by
    simp only [enc, List.map_reverse]
  have hlt : ∀ d ∈ (Nat.digits 10 z.natAbs).reverse, d < 10 := by
    intro d hd
    exact Nat.digits_lt_base (by norm_num) (List.mem_reverse.mp hd)
  have hne : (Nat.digits 10 z.natAbs) ≠ [] := by
    simpa [Nat.digits_eq_nil_iff_eq_zero] using hn
  have hl := Nat.getLast_digit_ne_zero 10 hn
  have hne' : (Nat.digits 10 z.natAbs).reverse ≠ [] := by simpa using hne
  have hl' : (Nat.digits 10 z.natAbs).reverse.head hne' ≠ 0 := by rwa [List.head_reverse]
  have hnn : natNumeral z.natAbs = (Nat.digits 10 z.natAbs).reverse.map (fun d => (48 + d).toUInt8) := by
    unfold natNumeral; rw [if_neg hn]
  rw [hrev, numeral_split, hnn]
  match h : (Nat.digits 10 z.natAbs).reverse, hne', hlt, hl' with
  | c :: cs, _, hlt, hl' =>
    have hcs : ∀ d ∈ cs, d < 10 := fun d hd => hlt d (by simp [hd])
    have hc := hlt c (by simp)
    simp only [List.head_cons] at hl'
    have hc1 : 1 ≤ c := by omega
    obtain ⟨os1, e1, h1, hb⟩ : ∃ os1, (if (enc z).sign = -1 then os.putText [45] else os) = os1 ∧ os1.width = 0 ∧
        os1 = { os with out := os.out ++ (if z < 0 then [45] else []) } := by
      refine ⟨_, rfl, ?_, ?_⟩
      · split
        · rfl
        · exact hw
      · rcases sign_cases hz with hs | hs
        · have hp : 0 < z := Int.pos_of_sign_eq_one hs
          rw [if_neg (by rw [enc_sign, hs]; norm_num)]
          simp [show ¬ z < 0 by omega]
        · have hp : z < 0 := Int.neg_of_sign_eq_neg_one hs
          rw [if_pos (by rw [enc_sign, hs]), putText_wrote hw]
          cases os
          simp_all [wrote]
    obtain ⟨T, hT, hT'⟩ : ∃ T, os1.putInt c = wrote os1 T false ∧ (T = [(48 + c).toUInt8] ↔ (match os.base with
      | .dec => os.showpos = false
      | .hex => os.showbase = false
      | .oct => os.showbase = false ∧ c ≠ 8 ∧ c ≠ 9)) := by
      have e2 : os1.base = os.base := by rw [hb]
      have e3 : os1.showpos = os.showpos := by rw [hb]
      have e4 : os1.showbase = os.showbase := by rw [hb]
      have e5 : os1.uppercase = os.uppercase := by rw [hb]
      have hm : ((c : ℤ) % 2 ^ 32).toNat = c := by omega
      unfold putInt
      rw [e2, e3, e4, e5]
      simp only [hm]
      cases os.base <;> simp only <;> refine ⟨_, putNumber_wrote h1 _ _, ?_⟩
      · rw [if_neg (by omega)]
        generalize os.showpos = a
        interval_cases c <;> revert a <;> decide
      · generalize os.showbase = a
        generalize os.uppercase = b
        interval_cases c <;> revert a b <;> decide
      · generalize os.showbase = a
        interval_cases c <;> revert a <;> decide
    simp only [List.map_cons]
    rw [e1, hT, putChunks_eq cs _ hcs rfl, wrote_wrote]
    have h8 : (some (48 + c).toUInt8 ≠ some 56 ∧ some (48 + c).toUInt8 ≠ some 57) ↔ c ≠ 8 ∧ c ≠ 9 := by
      interval_cases c <;> decide
    simp only [List.head?_cons, h8, hz, false_or]
    rw [← hT', hb]
    simp only [wrote, Res.ok.injEq, exists_eq_left', List.append_assoc, List.append_cancel_left_eq]
    rw [show (48 + c).toUInt8 :: cs.map (fun d => (48 + d).toUInt8) = [(48 + c).toUInt8] ++ cs.map (fun d => (48 + d).toUInt8) from rfl,
      List.append_cancel_right_eq]

example : (∃ os', put (.big (-70)) { base := .hex, uppercase := true } = .ok os' ∧ os'.out = numeral (-70)) ∧
    (OStream.mk [] 0 32 .left .hex false false true).width = 0 :=
  ⟨(C79_int_iff (-70) { base := .hex, uppercase := true } rfl).2 (Or.inr rfl), rfl⟩

example : OStream.Default { width := 7, adjust := .internal } ∧
    put (.range 91 93 [.big (-12), .int 3]) { width := 4, adjust := .internal } =
      .ok { out := [32, 32, 32, 91, 45, 49, 50, 44, 32, 51, 93], fill := 48, adjust := .internal } ∧
    put (.pair (.int (-5)) (.str [97])) { width := 4, fill := 46, adjust := .internal } =
      .ok { out := [45, 46, 46, 53, 58, 32, 34, 97, 34], fill := 46, adjust := .internal } ∧
    OStream.format [123, 125, 45, 123, 125] [.big 12, .tuple [.int 3]] = .ok [49, 50, 45, 40, 51, 44, 41] := by
  refine ⟨⟨rfl, rfl, rfl⟩, ?_, ?_, ?_⟩ <;> decide +kernel

/-! ## Numbers under the flags -/

/-- The value of a digit character of the bases up to sixteen, letters in either case. -/
def figure (c : UInt8) : ℕ := if 97 ≤ c then c.toNat - 87 else if 65 ≤ c then c.toNat - 55 else c.toNat - 48

/-- The number that digits denote in a base. -/
def valueIn (b : ℕ) (t : List UInt8) : ℕ := t.foldl (fun v c => v * b + figure c) 0

theorem digitChar_value : ∀ d < 16, figure (Nat.digitChar d).toNat.toUInt8 = d := by decide

theorem digitChar_upper : ∀ d < 16, figure (if 97 ≤ (Nat.digitChar d).toNat.toUInt8 ∧ (Nat.digitChar d).toNat.toUInt8 ≤ 122 then
    (Nat.digitChar d).toNat.toUInt8 - 32 else (Nat.digitChar d).toNat.toUInt8) = d := by decide

theorem valueIn_append (b : ℕ) (t : List UInt8) (c : UInt8) : valueIn b (t ++ [c]) = valueIn b t * b + figure c := by
  simp [valueIn]

theorem digits_value {b : ℕ} (h1 : 1 < b) (h2 : b ≤ 16) (n : ℕ) : valueIn b (OStream.digits b n) = n := by
  induction n using Nat.strong_induction_on with
  | _ n ih =>
    unfold OStream.digits at ih ⊢
    by_cases h : n < b
    · rw [Nat.toDigits_of_lt_base h]
      simpa [valueIn] using digitChar_value n (by omega)
    · rw [Nat.toDigits_of_base_le h1 (by omega), List.map_append, List.map_singleton, valueIn_append,
        ih _ (Nat.div_lt_self (by omega) h1), digitChar_value _ (by have := Nat.mod_lt n (show 0 < b by omega); omega)]
      exact Nat.div_add_mod' n b

theorem digits_upper {b : ℕ} (h1 : 1 < b) (h2 : b ≤ 16) (n : ℕ) : valueIn b (OStream.upper (OStream.digits b n)) = n := by
  induction n using Nat.strong_induction_on with
  | _ n ih =>
    unfold OStream.upper OStream.digits at ih ⊢
    by_cases h : n < b
    · rw [Nat.toDigits_of_lt_base h]
      simpa [valueIn] using digitChar_upper n (by omega)
    · rw [Nat.toDigits_of_base_le h1 (by omega), List.map_append, List.map_append, List.map_singleton, List.map_singleton, valueIn_append,
        ih _ (Nat.div_lt_self (by omega) h1), digitChar_upper _ (by have := Nat.mod_lt n (show 0 < b by omega); omega)]
      exact Nat.div_add_mod' n b

/-- C79, an `int` under the flags `hex` and `oct`, as a numerator for instance: the digits denote the number modulo 2^32, without
a sign. -/
theorem C79_unsigned (os : OStream) (hw : os.width = 0) (hb : os.base ≠ .dec) (hs : os.showbase = false) (n : ℤ) :
    ∃ t, put (.int n) os = .ok { os with out := os.out ++ t } ∧
      (valueIn (if os.base = .hex then 16 else 8) t : ℤ) = n % 2 ^ 32 := by
  have hm : ((n % 2 ^ 32).toNat : ℤ) = n % 2 ^ 32 := Int.toNat_of_nonneg (Int.emod_nonneg _ (by norm_num))
  obtain ⟨out, w, f, a, b, sp, sb, u⟩ := os
  simp only at hw hb hs
  subst hw hs
  rw [put]
  unfold putInt
  cases b with
  | dec => exact absurd rfl hb
  | hex =>
    simp only [Bool.false_and, Bool.false_eq_true, if_false, if_true]
    rw [putNumber_wrote rfl, List.nil_append]
    refine ⟨_, rfl, ?_⟩
    split
    · rw [digits_upper (by norm_num) (by norm_num), hm]
    · rw [digits_value (by norm_num) (by norm_num), hm]
  | oct =>
    simp only [Bool.false_and, Bool.false_eq_true, if_false, reduceCtorEq]
    rw [putNumber_wrote rfl, List.nil_append, List.nil_append]
    exact ⟨_, rfl, by rw [digits_value (by norm_num) (by norm_num), hm]⟩

/-- C79, `showpos`: a plus sign is put before an `int` or `double` that has no minus sign. -/
theorem C79_showpos (os : OStream) (hw : os.width = 0) (hb : os.base = .dec) (hu : os.uppercase = false) (hp : os.showpos = true) (n : ℤ) (x : Dbl) :
    put (.int n) os = .ok { os with out := os.out ++ ((if 0 ≤ n then [43] else []) ++ numeral n) } ∧
    put (.double x) os = .ok { os with out := os.out ++ ((if x.text.head? = some 45 then [] else [43]) ++ x.text) } := by
  obtain ⟨out, w, f, a, b, sp, sb, u⟩ := os
  simp only at hw hb hu hp
  subst hw hb hu hp
  constructor
  · rw [put]
    unfold putInt
    simp only [if_true]
    rw [putNumber_wrote rfl, digits_eq, numeral_split]
    by_cases h : n < 0
    · simp [h, show ¬ 0 ≤ n by omega, wrote]
    · simp [h, show 0 ≤ n by omega, wrote]
  · rw [put]
    unfold putDouble
    simp only [Bool.false_eq_true, if_false, if_true]
    split
    · next t e =>
      rw [putNumber_wrote rfl, e]; simp [wrote]
    · next h =>
      have hh : x.text.head? ≠ some 45 := by
        intro hh
        rw [List.head?_eq_some_iff] at hh
        obtain ⟨u, e⟩ := hh
        exact h u e
      rw [putNumber_wrote rfl, if_neg hh]; simp [wrote]

example : put (.frac ⟨-1, 3⟩) { base := .oct } = .ok { out := [51, 55, 55, 55, 55, 55, 55, 55, 55, 55, 55, 47, 51], base := .oct } ∧
    valueIn 8 [51, 55, 55, 55, 55, 55, 55, 55, 55, 55, 55] = 2 ^ 32 - 1 ∧
    put (.complex ⟨.fin 2, .fin (-1)⟩) { showpos := true } = .ok { out := [40, 43, 50, 45, 43, 49, 106, 41], showpos := true } :=
  ⟨by decide +kernel, by decide, by decide +kernel⟩

/-- C79 fails: the text of a value is not what is written for every state of the stream, nor is the state kept. A field width is used up
by the minus sign of an `Int` and by the bracket of a container; `showpos` gives `-+5`; an `Int` with the flag `oct` is neither its decimal
nor its octal numeral; and a field after an `Int` of two digits is filled with zeros instead of blanks. -/
theorem C79_not :
    put (.big (-5)) { width := 4 } = .ok { out := [32, 32, 32, 45, 53] } ∧
    put (.range 91 93 [.int 1]) { width := 2 } = .ok { out := [32, 91, 49, 93] } ∧
    put (.big (-5)) { showpos := true } = .ok { out := [45, 43, 53], showpos := true } ∧
    put (.big 80) { base := .oct } = .ok { out := [49, 48, 48], fill := 48, base := .oct } ∧
    (do (put (.int 5) ((← put (.big 10) {}).setw 3))) = .ok { out := [49, 48, 48, 48, 53], fill := 48 } ∧
    (do (put (.int 5) ((← put (.big 9) {}).setw 3))) = .ok { out := [57, 32, 32, 53] } := by
  refine ⟨?_, ?_, ?_, ?_, ?_, ?_⟩ <;> decide +kernel

end Pyincpp
