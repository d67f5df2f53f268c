import Verif.Proof.IntText
import Verif.Proof.List

/-! # Lemmas about input streams -/

namespace Pyincpp

/-- No digit follows. -/
def NoDigit (rest : List UInt8) : Prop := ∀ c r, rest = c :: r → IStream.isDigit c = false

namespace IStream

theorem isDigit_iff (c : UInt8) : isDigit c = true ↔ IsDigit c := by
  unfold isDigit IsDigit
  rw [Bool.and_eq_true, decide_eq_true_iff, decide_eq_true_iff, UInt8.le_iff_toNat_le, UInt8.le_iff_toNat_le]
  rfl

theorem stops_noDigit {r : List UInt8} (h : Stops r) : NoDigit r := by
  intro c t e
  have := h c t e
  by_contra hc
  have := (isDigit_iff c).1 (by simpa using hc)
  unfold IsDigit at this; omega

theorem isSpace_false {c : UInt8} (h : 0x20 < c.toNat) : isSpace c = false := by
  unfold isSpace
  have h1 : c ≠ 32 := by rintro rfl; revert h; decide
  have h13 : ¬ (c ≤ 13) := by rw [UInt8.le_iff_toNat_le]; simp; omega
  simp [h1, h13]

theorem peek_cons (c : UInt8) (t : List UInt8) : peek ⟨c :: t, false, false⟩ = ((c.toNat : Int), ⟨c :: t, false, false⟩) := rfl

theorem peek_nil : peek ⟨[], false, false⟩ = (-1, ⟨[], true, false⟩) := rfl

theorem peek_bad {s : IStream} (h : s.good = false) : s.peek = (-1, { s with fail := true }) := by
  unfold peek; rw [h]; rfl

theorem skipBlanks_ok {c : UInt8} (t : List UInt8) (hc : 0x20 < c.toNat) : ∀ (bl : List UInt8), (∀ b ∈ bl, b.toNat ≤ 0x20) →
    ∀ k, bl.length < k → skipBlanks k ⟨bl ++ c :: t, false, false⟩ = .ok ⟨c :: t, false, false⟩ := by
  intro bl
  induction bl with
  | nil =>
    intro _ k hk
    obtain ⟨k, rfl⟩ : ∃ j, k = j + 1 := ⟨k - 1, by simp at hk; omega⟩
    rw [skipBlanks, List.nil_append, peek_cons, if_neg (by simp; omega)]
  | cons b bl ih =>
    intro h k hk
    obtain ⟨k, rfl⟩ : ∃ j, k = j + 1 := ⟨k - 1, by simp at hk; omega⟩
    have hb := h b (by simp)
    rw [skipBlanks, List.cons_append, peek_cons, if_pos (by simp; omega)]
    exact ih (fun b hb => h b (by simp [hb])) k (by simp at hk; omega)

theorem skipBlanks_bad : ∀ (k : ℕ) (s : IStream), s.good = false → skipBlanks k s = .fuel
  | 0, _, _ => rfl
  | k + 1, s, h => by
    have hb : ({ s with fail := true } : IStream).good = false := by simp [good]
    rw [skipBlanks, peek_bad h, if_pos (by norm_num)]
    apply skipBlanks_bad
    unfold ignore
    rw [hb]
    exact hb

theorem skipBlanks_blank : ∀ (k : ℕ) (s : IStream), (∀ b ∈ s.buf, b.toNat ≤ 0x20) → skipBlanks k s = .fuel
  | 0, _, _ => rfl
  | k + 1, s, h => by
    by_cases hg : s.good = false
    · exact skipBlanks_bad _ _ hg
    · obtain ⟨buf, e, f⟩ := s
      obtain ⟨rfl, rfl⟩ : e = false ∧ f = false := by revert hg; cases e <;> cases f <;> simp [good]
      cases buf with
      | nil =>
        rw [skipBlanks, peek_nil, if_pos (by norm_num)]
        exact skipBlanks_bad _ _ rfl
      | cons c t =>
        have hc := h c (by simp)
        rw [skipBlanks, peek_cons, if_pos (by simp; omega)]
        exact skipBlanks_blank k _ (fun b hb => h b (List.mem_cons_of_mem _ hb))

/-- The loop either leaves a stream whose next character is no blank, or never ends. -/
theorem skipBlanks_cases (s : IStream) :
    (∀ k, skipBlanks k s = .fuel) ∨
    ∃ c t N, 0x20 < c.toNat ∧ (∀ k, N < k → skipBlanks k s = .ok ⟨c :: t, false, false⟩) := by
  by_cases hg : s.good = false
  · exact .inl (fun k => skipBlanks_bad k s hg)
  · obtain ⟨buf, e, f⟩ := s
    obtain ⟨rfl, rfl⟩ : e = false ∧ f = false := by revert hg; cases e <;> cases f <;> simp [good]
    have hsp := List.takeWhile_append_dropWhile (p := fun c : UInt8 => decide (c.toNat ≤ 0x20)) (l := buf)
    have hall : ∀ b ∈ buf.takeWhile (fun c : UInt8 => decide (c.toNat ≤ 0x20)), b.toNat ≤ 0x20 := fun b hb => by
      simpa using List.mem_takeWhile_imp hb
    cases hd : buf.dropWhile (fun c : UInt8 => decide (c.toNat ≤ 0x20)) with
    | nil =>
      left
      intro k
      apply skipBlanks_blank
      rw [hd, List.append_nil] at hsp
      rw [hsp] at hall
      exact hall
    | cons c t =>
      right
      have hc : 0x20 < c.toNat := by
        have := List.head?_dropWhile_not (fun c : UInt8 => decide (c.toNat ≤ 0x20)) buf
        rw [hd] at this
        simpa using this
      rw [hd] at hsp
      refine ⟨c, t, (buf.takeWhile (fun c : UInt8 => decide (c.toNat ≤ 0x20))).length, hc, fun k hk => ?_⟩
      have := skipBlanks_ok t hc _ hall k hk
      rwa [hsp] at this

/-- If the loop never ends on a good stream, there are only blanks. -/
theorem skipBlanks_fuel {s : IStream} (hg : s.good = true) (h : ∀ k, skipBlanks k s = .fuel) : ∀ c ∈ s.buf, c.toNat ≤ 0x20 := by
  obtain ⟨buf, e, f⟩ := s
  obtain ⟨rfl, rfl⟩ : e = false ∧ f = false := by revert hg; cases e <;> cases f <;> simp [good]
  have hsp := List.takeWhile_append_dropWhile (p := fun c : UInt8 => decide (c.toNat ≤ 0x20)) (l := buf)
  have hall : ∀ b ∈ buf.takeWhile (fun c : UInt8 => decide (c.toNat ≤ 0x20)), b.toNat ≤ 0x20 := fun b hb => by
    simpa using List.mem_takeWhile_imp hb
  cases hd : buf.dropWhile (fun c : UInt8 => decide (c.toNat ≤ 0x20)) with
  | nil =>
    rw [hd, List.append_nil] at hsp
    rw [hsp] at hall
    exact hall
  | cons d t =>
    have hd' : 0x20 < d.toNat := by
      have := List.head?_dropWhile_not (fun c : UInt8 => decide (c.toNat ≤ 0x20)) buf
      rw [hd] at this
      simpa using this
    have := skipBlanks_ok t hd' _ hall _ (Nat.lt_succ_self _)
    rw [← hd, hsp, h] at this
    simp at this

theorem sentry_cons {c : UInt8} (t : List UInt8) (h : isSpace c = false) :
    sentry ⟨c :: t, false, false⟩ = (true, ⟨c :: t, false, false⟩) := by
  unfold sentry good
  simp [List.dropWhile, h]

theorem readChar_cons {c : UInt8} (t : List UInt8) (h : isSpace c = false) :
    readChar ⟨c :: t, false, false⟩ = (some c, ⟨t, false, false⟩) := by
  unfold readChar
  rw [sentry_cons t h]

theorem takeWhile_digits {ds r : List UInt8} (hd : ∀ c ∈ ds, IsDigit c) (hr : NoDigit r) :
    (ds ++ r).takeWhile isDigit = ds ∧ (ds ++ r).dropWhile isDigit = r := by
  have h1 : ∀ c ∈ ds, isDigit c = true := fun c hc => (isDigit_iff c).2 (hd c hc)
  have h2 : r.takeWhile isDigit = [] ∧ r.dropWhile isDigit = r := by
    cases r with
    | nil => simp
    | cons c t => simp [hr c t rfl]
  rw [List.takeWhile_append_of_pos h1, List.dropWhile_append_of_pos h1, h2.1, h2.2, List.append_nil]
  exact ⟨rfl, rfl⟩

theorem digit_ne {c : UInt8} (h : IsDigit c) : c ≠ 43 ∧ c ≠ 45 := by
  constructor <;> (rintro rfl; revert h; decide)

/-- `is >> n` on a literal in range. -/
theorem readInt_literal {t : List UInt8} {z : ℤ} (h : Literal t z) (hz : IsInt z) {r : List UInt8} (hr : NoDigit r) :
    readInt ⟨t ++ r, false, false⟩ = (some z, ⟨r, r.isEmpty, false⟩) := by
  obtain ⟨hne, hsp⟩ := literal_chars h
  have hs : sentry ⟨t ++ r, false, false⟩ = (true, ⟨t ++ r, false, false⟩) := by
    cases t with
    | nil => exact absurd rfl hne
    | cons c t => exact sentry_cons _ (hsp c (by simp)).1
  have hlo : ¬ z < INT_MIN := by have := hz.1; omega
  have hhi : ¬ INT_MAX < z := by have := hz.2; omega
  have hdv : ∀ l, digitsValue l = denoteNat l := fun _ => rfl
  unfold readInt
  rw [hs]
  simp only [hdv]
  cases h with
  | plain _ hne hd =>
    cases t with
    | nil => exact absurd rfl hne
    | cons c t =>
      have hc := digit_ne (hd c (by simp))
      obtain ⟨e1, e2⟩ := takeWhile_digits hd hr
      have c1 : ((c :: t ++ r).head? == some (45 : UInt8)) = false := by simp [hc.2]
      have c2 : ((c :: t ++ r).head? == some (43 : UInt8)) = false := by simp [hc.1]
      rw [c1, c2]
      simp only [Bool.or_false, Bool.false_eq_true, if_false]
      rw [e1, e2]
      have : (c :: t).isEmpty = false := rfl
      rw [this]
      simp only [Bool.false_eq_true, if_false]
      rw [if_neg hlo, if_neg hhi]
  | plus ds hne hd =>
    obtain ⟨e1, e2⟩ := takeWhile_digits hd hr
    have c1 : ((43 :: ds ++ r).head? == some (45 : UInt8)) = false := rfl
    have c2 : ((43 :: ds ++ r).head? == some (43 : UInt8)) = true := rfl
    have c3 : (43 :: ds ++ r).drop 1 = ds ++ r := rfl
    rw [c1, c2, c3]
    simp only [Bool.or_true, if_true, Bool.false_eq_true, if_false]
    rw [e1, e2]
    have : ds.isEmpty = false := by cases ds; exact absurd rfl ‹([] : List UInt8) ≠ []›; rfl
    rw [this]
    simp only [Bool.false_eq_true, if_false]
    rw [if_neg hlo, if_neg hhi]
  | minus ds hne hd =>
    obtain ⟨e1, e2⟩ := takeWhile_digits hd hr
    have c1 : ((45 :: ds ++ r).head? == some (45 : UInt8)) = true := rfl
    have c3 : (45 :: ds ++ r).drop 1 = ds ++ r := rfl
    rw [c1, c3]
    simp only [Bool.true_or, if_true]
    rw [e1, e2]
    have : ds.isEmpty = false := by cases ds; exact absurd rfl ‹([] : List UInt8) ≠ []›; rfl
    rw [this]
    simp only [Bool.false_eq_true, if_false]
    rw [if_neg hlo, if_neg hhi]

/-- `is >> n` always extracts something from a stream that has a character that is no white space. -/
theorem readInt_some {c : UInt8} (t : List UInt8) (h : isSpace c = false) : ∃ v s, readInt ⟨c :: t, false, false⟩ = (some v, s) := by
  unfold readInt
  rw [sentry_cons t h]
  simp only
  repeat' split
  all_goals exact ⟨_, _, rfl⟩

end IStream
end Pyincpp
