import Verif.Proof.IntDiv
import Verif.Model.Stream

/-! # Parsing and printing of `Int` -/

namespace Pyincpp

theorem isDigit_iff (c : UInt8) : (¬ (c < BInt.c0 ∨ c > BInt.c9)) ↔ IsDigit c := by
  unfold IsDigit BInt.c0 BInt.c9
  rw [gt_iff_lt, UInt8.lt_iff_toNat_lt, UInt8.lt_iff_toNat_lt]
  simp

theorem isInteger_iff (t : List UInt8) : BInt.isInteger t = true ↔ ∃ z, Literal t z := by
  constructor
  · intro h
    unfold BInt.isInteger at h
    split at h
    · simp at h
    · rename_i hne
      have hall : ∀ l : List UInt8, (l.all fun c => decide ¬(c < BInt.c0 ∨ c > BInt.c9)) = true → ∀ c ∈ l, IsDigit c := by
        intro l hl c hc
        rw [List.all_eq_true] at hl
        have := hl c hc
        rw [decide_eq_true_eq] at this
        exact (isDigit_iff c).mp this
      match t, hne, h with
      | [], hne, _ => simp at hne
      | c :: ds, hne, h =>
        simp only [List.getElem?_cons_zero, Option.some.injEq, List.drop_succ_cons, List.drop_zero] at h hne
        by_cases hp : c = BInt.cPlus
        · rw [if_pos (Or.inl hp)] at h
          subst hp
          refine ⟨_, Literal.plus ds ?_ (hall _ h)⟩
          rintro rfl; exact hne (Or.inr ⟨rfl, Or.inl rfl⟩)
        · by_cases hm : c = BInt.cMinus
          · rw [if_pos (Or.inr hm)] at h
            subst hm
            refine ⟨_, Literal.minus ds ?_ (hall _ h)⟩
            rintro rfl; exact hne (Or.inr ⟨rfl, Or.inr rfl⟩)
          · rw [if_neg (by tauto)] at h
            exact ⟨_, Literal.plain (c :: ds) (by simp) (hall _ h)⟩
  · rintro ⟨z, h⟩
    have hall : ∀ l : List UInt8, (∀ c ∈ l, IsDigit c) → (l.all fun c => decide ¬(c < BInt.c0 ∨ c > BInt.c9)) = true := by
      intro l hl
      rw [List.all_eq_true]
      intro c hc
      rw [decide_eq_true_eq]
      exact (isDigit_iff c).mpr (hl c hc)
    unfold BInt.isInteger
    cases h with
    | plain _ hne hd =>
      match t, hne, hd with
      | c :: ds, _, hd =>
        have hc := hd c (by simp)
        have hp : c ≠ BInt.cPlus := by rintro rfl; revert hc; decide
        have hm : c ≠ BInt.cMinus := by rintro rfl; revert hc; decide
        simp only [List.getElem?_cons_zero, Option.some.injEq]
        rw [if_neg (by simp [hp, hm]), if_neg (by simp [hp, hm])]
        exact hall _ hd
    | plus ds hne hd =>
      have : (43 : UInt8) = BInt.cPlus := rfl
      have hl : ds.length ≠ 0 := by simpa using hne
      rw [if_neg (by simp [hne]), if_pos (by simp [this])]
      exact hall _ hd
    | minus ds hne hd =>
      have : (45 : UInt8) = BInt.cMinus := rfl
      have hl : ds.length ≠ 0 := by simpa using hne
      rw [if_neg (by simp [hne]), if_pos (by simp [this])]
      exact hall _ hd

/-- Digit values of a text, least significant first. -/
def digitVec (ds : List UInt8) : List ℤ := (ds.map (fun c => (c.toNat : ℤ) - 48)).reverse

theorem parse_loop {ds : List UInt8} (hd : ∀ c ∈ ds, IsDigit c) :
    forRange 0 ds.length (fun i v => do
        let d ← vget ds i
        let chunk ← iadd (← imul 0 10) ((d.toNat : ℤ) - 48)
        vset v (ds.length - 1 - i) chunk) (List.replicate ds.length 0) = .ok (digitVec ds) := by
  obtain ⟨v, e, rfl⟩ := forRange_inv
    (body := fun i v => do
        let d ← vget ds i
        let chunk ← iadd (← imul 0 10) ((d.toNat : ℤ) - 48)
        vset v (ds.length - 1 - i) chunk)
    (fun i v => v = List.replicate (ds.length - i) 0 ++ digitVec (ds.take i))
    (lo := 0) (hi := ds.length) (Nat.zero_le _) (s := List.replicate ds.length 0)
    (by simp [digitVec])
    (by
      rintro i v _ hi rfl
      have hb := hd _ (List.getElem_mem hi)
      unfold IsDigit at hb
      refine ⟨_, ?_, rfl⟩
      simp only [vget_ok hi, Res.ok_bind, imul, iadd]
      rw [ck_ok (isInt_of_bound (by norm_num) (by norm_num))]
      simp only [Res.ok_bind]
      rw [ck_ok (isInt_of_bound (by omega) (by omega))]
      simp only [Res.ok_bind]
      rw [vset_ok (by simp [digitVec]; omega)]
      congr 1
      obtain ⟨m, hm⟩ : ∃ m, ds.length - i = m + 1 := ⟨ds.length - i - 1, by omega⟩
      have h1 : ds.length - 1 - i = m := by omega
      have h2 : ds.length - (i + 1) = m := by omega
      have e : digitVec (ds.take (i + 1)) = ((ds[i].toNat : ℤ) - 48) :: digitVec (ds.take i) := by
        unfold digitVec
        rw [List.take_succ_eq_append_getElem hi, List.map_append, List.reverse_append]
        rfl
      rw [hm, h1, h2, e, List.replicate_succ', List.append_assoc, List.set_append_right _ _ (by simp)]
      simp)
  rw [e]
  simp

theorem digitVec_digs {ds : List UInt8} (hd : ∀ c ∈ ds, IsDigit c) : Digs (digitVec ds) := by
  rw [digs_iff_mem]
  intro d h
  simp only [digitVec, List.mem_reverse, List.mem_map] at h
  obtain ⟨c, hc, rfl⟩ := h
  have := hd c hc
  unfold IsDigit at this
  omega

theorem digitVec_val {ds : List UInt8} (hd : ∀ c ∈ ds, IsDigit c) : val (digitVec ds) = denoteNat ds := by
  induction ds using List.reverseRecOn with
  | nil => simp [digitVec, denoteNat]
  | append_singleton ds c ih =>
    have h1 := ih (fun c hc => hd c (by simp [hc]))
    have hc := hd c (by simp)
    unfold IsDigit at hc
    have e : digitVec (ds ++ [c]) = ((c.toNat : ℤ) - 48) :: digitVec ds := by simp [digitVec]
    have e2 : denoteNat (ds ++ [c]) = 10 * denoteNat ds + (c.toNat - 48) := by
      simp [denoteNat, List.foldl_append]
    rw [e, e2, val_cons, h1]
    push_cast [hc.1]
    ring

theorem ofChars_literal {t : List UInt8} {z : ℤ} (h : Literal t z) : BInt.ofChars t = .ok (enc z) := by
  have hi := (isInteger_iff t).mpr ⟨z, h⟩
  unfold BInt.ofChars
  rw [if_neg (by simp [hi])]
  cases h with
  | plain _ hne hd =>
    match t, hne, hd with
    | c :: ds, _, hd =>
      have hc := hd c (by simp)
      have hp : c ≠ BInt.cPlus := by rintro rfl; revert hc; decide
      have hm : c ≠ BInt.cMinus := by rintro rfl; revert hc; decide
      simp only [List.getElem?_cons_zero, Option.some.injEq]
      rw [if_neg hm, if_neg (by simp [hp, hm]), parse_loop hd]
      simp only [Res.ok_bind, Res.pure_eq]
      rw [trim_enc (digitVec_digs hd) (Or.inl rfl), digitVec_val hd, one_mul]
  | plus ds hne hd =>
    simp only [List.getElem?_cons_zero, Option.some.injEq]
    rw [if_neg (show ¬ (43:UInt8) = BInt.cMinus by decide),
      if_pos (show (43:UInt8) = BInt.cMinus ∨ (43:UInt8) = BInt.cPlus by decide)]
    simp only [List.drop_succ_cons, List.drop_zero]
    rw [parse_loop hd]
    simp only [Res.ok_bind, Res.pure_eq]
    rw [trim_enc (digitVec_digs hd) (Or.inl rfl), digitVec_val hd, one_mul]
  | minus ds hne hd =>
    simp only [List.getElem?_cons_zero, Option.some.injEq]
    rw [if_pos (show (45:UInt8) = BInt.cMinus by decide),
      if_pos (show (45:UInt8) = BInt.cMinus ∨ (45:UInt8) = BInt.cPlus by decide)]
    simp only [List.drop_succ_cons, List.drop_zero]
    rw [parse_loop hd]
    simp only [Res.ok_bind, Res.pure_eq]
    rw [trim_enc (digitVec_digs hd) (Or.inr rfl), digitVec_val hd, neg_one_mul]

theorem ofChars_not_literal {t : List UInt8} (h : ¬ ∃ z, Literal t z) :
    BInt.ofChars t = .throw "Error: Wrong integer literal." := by
  rw [← isInteger_iff] at h
  unfold BInt.ofChars
  rw [if_pos (by simpa using h)]

/-! ## printing -/

theorem decimal_digit {d : ℕ} (h : d < 10) : BInt.decimal (d : ℤ) = [(48 + d).toUInt8] := by
  unfold BInt.decimal
  interval_cases d <;> rfl

theorem decimal_flatten {l : List ℕ} (h : ∀ d ∈ l, d < 10) :
    ((l.map (fun d : ℕ => (d : ℤ))).map BInt.decimal).flatten = l.map (fun d => (48 + d).toUInt8) := by
  induction l with
  | nil => rfl
  | cons d ds ih =>
    simp only [List.map_cons, List.flatten_cons]
    rw [decimal_digit (h d (by simp)), ih (fun e he => h e (by simp [he]))]
    rfl

theorem print_enc (z : ℤ) : BInt.print (enc z) = .ok (numeral z) := by
  unfold BInt.print
  by_cases hz : z = 0
  · subst hz; rw [if_pos (by simp [enc_zero])]; rfl
  rw [if_neg (by rw [enc_sign_eq_zero]; exact hz)]
  have hn : z.natAbs ≠ 0 := by omega
  have hrev : (enc z).chunks.reverse = ((Nat.digits 10 z.natAbs).reverse.map (fun d : ℕ => (d : ℤ))) := by
    simp only [enc, List.map_reverse]
  have hlt : ∀ d ∈ (Nat.digits 10 z.natAbs).reverse, d < 10 := by
    intro d hd
    exact Nat.digits_lt_base (by norm_num) (List.mem_reverse.mp hd)
  have hne : (Nat.digits 10 z.natAbs).reverse ≠ [] := by
    simpa [Nat.digits_eq_nil_iff_eq_zero] using hn
  rw [hrev]
  have hnn : natNumeral z.natAbs = (Nat.digits 10 z.natAbs).reverse.map (fun d => (48 + d).toUInt8) := by
    unfold natNumeral; rw [if_neg hn]
  unfold numeral
  rw [hnn]
  match h : (Nat.digits 10 z.natAbs).reverse, hne, hlt with
  | c :: cs, _, hlt =>
    simp only [List.map_cons]
    have e := decimal_flatten hlt
    simp only [List.map_cons, List.flatten_cons] at e
    rw [List.append_assoc, e]
    congr 1
    rcases sign_cases hz with hs | hs
    · have : ¬ z < 0 := by have := Int.pos_of_sign_eq_one hs; omega
      rw [if_neg this, if_neg (by rw [enc_sign, hs]; norm_num)]; rfl
    · have : z < 0 := Int.neg_of_sign_eq_neg_one hs
      rw [if_pos this, if_pos (by rw [enc_sign, hs])]; rfl

theorem toUInt8_digit {d : ℕ} (h : d < 10) : ((48 + d).toUInt8).toNat = 48 + d := by
  interval_cases d <;> rfl

theorem natNumeral_digits (n : ℕ) : ∀ c ∈ natNumeral n, IsDigit c := by
  unfold natNumeral
  split
  · simp [IsDigit]
  · intro c hc
    simp only [List.mem_map, List.mem_reverse] at hc
    obtain ⟨d, hd, rfl⟩ := hc
    have := Nat.digits_lt_base (by norm_num : 1 < 10) hd
    unfold IsDigit
    rw [toUInt8_digit this]
    omega

theorem natNumeral_ne_nil (n : ℕ) : natNumeral n ≠ [] := by
  unfold natNumeral
  split
  · simp
  · rename_i h; simpa [Nat.digits_eq_nil_iff_eq_zero] using h

theorem denote_reverse_digits {l : List ℕ} (h : ∀ d ∈ l, d < 10) :
    denoteNat (l.reverse.map (fun d => (48 + d).toUInt8)) = Nat.ofDigits 10 l := by
  induction l with
  | nil => rfl
  | cons d ds ih =>
    have h1 := ih (fun e he => h e (by simp [he]))
    simp only [List.reverse_cons, List.map_append, List.map_cons, List.map_nil]
    unfold denoteNat at h1 ⊢
    rw [List.foldl_append, h1]
    simp only [List.foldl_cons, List.foldl_nil]
    rw [toUInt8_digit (h d (by simp)), Nat.ofDigits_cons]
    simp; ring

theorem denote_natNumeral (n : ℕ) : denoteNat (natNumeral n) = n := by
  unfold natNumeral
  split
  · rename_i h; rw [h]; rfl
  · rw [denote_reverse_digits (fun d hd => Nat.digits_lt_base (by norm_num) hd), Nat.ofDigits_digits]

theorem literal_numeral (z : ℤ) : Literal (numeral z) z := by
  unfold numeral
  split
  · rename_i h
    have := Literal.minus (natNumeral z.natAbs) (natNumeral_ne_nil _) (natNumeral_digits _)
    rw [denote_natNumeral] at this
    rwa [show -((z.natAbs : ℕ) : ℤ) = z by omega] at this
  · rename_i h
    have := Literal.plain (natNumeral z.natAbs) (natNumeral_ne_nil _) (natNumeral_digits _)
    rw [denote_natNumeral] at this
    rwa [show ((z.natAbs : ℕ) : ℤ) = z by omega] at this

theorem isSpace_iff (c : UInt8) : IStream.isSpace c = true ↔ IsWhite c := by
  have h : ∀ n : Fin 256, IStream.isSpace (UInt8.ofNat n) = true ↔ IsWhite (UInt8.ofNat n) := by decide +kernel
  have := h ⟨c.toNat, c.toNat_lt⟩
  simpa using this

theorem isSpace_neg (c : UInt8) : IStream.isSpace c = false ↔ ¬ IsWhite c := by
  rw [← isSpace_iff, Bool.not_eq_true]

/-- A literal contains no white space and no NUL. -/
theorem literal_chars {t : List UInt8} {z : ℤ} (h : Literal t z) :
    t ≠ [] ∧ ∀ c ∈ t, IStream.isSpace c = false ∧ (c != 0) = true := by
  have hdig : ∀ c, IsDigit c → IStream.isSpace c = false ∧ (c != 0) = true := by
    intro c hc
    unfold IsDigit at hc
    unfold IStream.isSpace
    have h1 : c ≠ 32 := by rintro rfl; revert hc; decide
    have h0 : c ≠ 0 := by rintro rfl; revert hc; decide
    have h13 : ¬ (c ≤ 13) := by rw [UInt8.le_iff_toNat_le]; simp; omega
    simp [h1, h0, h13]
  cases h with
  | plain _ hne hd => exact ⟨hne, fun c hc => hdig c (hd c hc)⟩
  | plus ds hne hd =>
    refine ⟨by simp, fun c hc => ?_⟩
    rcases List.mem_cons.mp hc with rfl | hc
    · decide
    · exact hdig c (hd c hc)
  | minus ds hne hd =>
    refine ⟨by simp, fun c hc => ?_⟩
    rcases List.mem_cons.mp hc with rfl | hc
    · decide
    · exact hdig c (hd c hc)

theorem takeWhile_all {α : Type} {p : α → Bool} {l : List α} (h : ∀ a ∈ l, p a = true) (r : List α) :
    (l ++ r).takeWhile p = l ++ r.takeWhile p := by
  induction l with
  | nil => rfl
  | cons a l ih => simp [h a (by simp), ih (fun b hb => h b (by simp [hb]))]

theorem dropWhile_all {α : Type} {p : α → Bool} {l : List α} (h : ∀ a ∈ l, p a = true) (r : List α) :
    (l ++ r).dropWhile p = r.dropWhile p := by
  induction l with
  | nil => rfl
  | cons a l ih => simp [h a (by simp), ih (fun b hb => h b (by simp [hb]))]

/-- Reading a literal, preceded by white space and followed by white space or the end of the stream. -/
theorem input_literal {t : List UInt8} {z : ℤ} (h : Literal t z) {ws rest : List UInt8}
    (hws : ∀ c ∈ ws, IStream.isSpace c = true) (hrest : ∀ c r, rest = c :: r → IStream.isSpace c = true) :
    BInt.input { buf := ws ++ t ++ rest } = .ok (enc z, { buf := rest, eof := rest.isEmpty }) := by
  obtain ⟨hne, hc⟩ := literal_chars h
  unfold BInt.input IStream.readWord IStream.sentry IStream.good
  have e1 : (ws ++ t ++ rest).dropWhile IStream.isSpace = t ++ rest := by
    rw [List.append_assoc, dropWhile_all hws]
    match t, hne, hc with
    | c :: t, _, hc => simp [hc c (by simp)]
  have e2 : (t ++ rest).takeWhile (fun c => !IStream.isSpace c) = t := by
    rw [takeWhile_all (fun c h => by simp [hc c h])]
    cases hr : rest with
    | nil => simp
    | cons c r => simp [hrest c r hr]
  have e3 : (t ++ rest).dropWhile (fun c => !IStream.isSpace c) = rest := by
    rw [dropWhile_all (fun c h => by simp [hc c h])]
    cases hr : rest with
    | nil => simp
    | cons c r => simp [hrest c r hr]
  have e4 : t.takeWhile (fun c => c != 0) = t := by
    have := takeWhile_all (fun c h => (hc c h).2) []
    simpa using this
  have e5 : (t ++ rest).isEmpty = false := by
    match t, hne with
    | c :: t, _ => rfl
  simp only [Bool.not_false, Bool.and_self, Bool.not_true, Bool.false_eq_true, if_false, e1, e5, e2, e3, e4]
  rw [ofChars_literal h]
  rfl

end Pyincpp
