import Verif.Model.Str
import Verif.Spec.Str
import Verif.Proof.StrFind
import Verif.Proof.IntMul

/-! # Lemmas about the number readers of `Str`

The loops are compared with machines that collect the digits they read (`fsmI`, `fsmD`); the machines are compared with
the grammars. -/

namespace Pyincpp
open Lst

/-! ## Characters -/

theorem byte_all {P : UInt8 → Prop} [DecidablePred P] (h : ∀ n : Fin 256, P (UInt8.ofNat n)) (c : UInt8) : P c := by
  have := h ⟨c.toNat, c.toNat_lt⟩
  simpa using this

theorem digitTable : ∀ i : Fin 36, vget Str.upperDigits i = .ok (Str.upperDigits.getD i 0) ∧
    vget Str.lowerDigits i = .ok (Str.lowerDigits.getD i 0) ∧
    ∀ n : Fin 256, (UInt8.ofNat n = Str.upperDigits.getD i 0 ∨ UInt8.ofNat n = Str.lowerDigits.getD i 0) ↔
      digitValue (UInt8.ofNat n) = some i.val := by decide +kernel

theorem digitValue_lt (c : UInt8) (v : Nat) (h : digitValue c = some v) : v < 36 := by
  unfold digitValue at h
  split at h
  · cases h; omega
  split at h
  · cases h; omega
  split at h
  · cases h; omega
  · cases h

theorem charToIntegerLoop_eq (c : UInt8) : ∀ (n i : Nat), i + n ≤ 36 → (∀ v, digitValue c = some v → i ≤ v) →
    Str.charToIntegerLoop c n i =
      .ok (match digitValue c with | some v => if v < i + n then (v : Int) else -1 | none => -1) := by
  intro n
  induction n with
  | zero =>
    intro i hi h
    unfold Str.charToIntegerLoop
    cases hv : digitValue c with
    | none => rfl
    | some v => simp only [if_neg (by have := h v hv; omega : ¬ v < i + 0)]
  | succ n ih =>
    intro i hi h
    obtain ⟨h1, h2, h3⟩ := digitTable ⟨i, by omega⟩
    have h3 : (c = Str.upperDigits.getD i 0 ∨ c = Str.lowerDigits.getD i 0) ↔ digitValue c = some i := by
      have := h3 ⟨c.toNat, c.toNat_lt⟩
      simpa using this
    unfold Str.charToIntegerLoop
    simp only at h1 h2
    rw [h1, h2]
    simp only [Res.ok_bind, beq_iff_eq]
    by_cases hd : digitValue c = some i
    · rw [hd]
      simp only [if_pos (by omega : i < i + (n + 1))]
      rcases h3.2 hd with e | e
      · rw [if_pos e]; rfl
      · split
        · rfl
        · rfl
    · have hne : ¬ (c = Str.upperDigits.getD i 0) ∧ ¬ (c = Str.lowerDigits.getD i 0) :=
        ⟨fun e => hd (h3.1 (.inl e)), fun e => hd (h3.1 (.inr e))⟩
      rw [if_neg hne.1, if_neg hne.2, ih (i + 1) (by omega)
        (fun v hv => by have := h v hv; have : v ≠ i := fun e => hd (by rw [hv, e]); omega)]
      rw [show i + 1 + n = i + (n + 1) by omega]

theorem charToInteger_eq (c : UInt8) (b : Nat) (hb : b ≤ 36) : Str.charToInteger c (b : Int) =
    .ok (match digitValue c with | some v => if v < b then (v : Int) else -1 | none => -1) := by
  unfold Str.charToInteger
  rw [Int.toNat_natCast, charToIntegerLoop_eq c b 0 (by omega) (by intros; omega), Nat.zero_add]

theorem charToInteger_digit (c : UInt8) (b : Nat) (hb : b ≤ 36) (h : IsDigitIn b c) :
    Str.charToInteger c (b : Int) = .ok ((digitValue c).getD 0 : Nat) := by
  obtain ⟨v, hv, hlt⟩ := h
  rw [charToInteger_eq c b hb, hv]
  simp only [if_pos hlt, Option.getD_some]

instance (b : Nat) (c : UInt8) : Decidable (IsDigitIn b c) :=
  match h : digitValue c with
  | none => isFalse (fun ⟨v, hv, _⟩ => by rw [h] at hv; cases hv)
  | some v => if hv : v < b then isTrue ⟨v, h, hv⟩ else isFalse (fun ⟨w, hw, h'⟩ => by rw [h] at hw; cases hw; exact hv h')
instance (c : UInt8) : Decidable (IsBlank c) := by unfold IsBlank; infer_instance

/-- The kind of a character. -/
def evOf (b : Nat) (c : UInt8) : Str.Ev :=
  if IsBlank c then .blank else if c = 43 ∨ c = 45 then .sign else if IsDigitIn b c then .digit
  else if c = 46 then .point else if c = 101 ∨ c = 69 then .exp else .other

theorem getEvent_eq (c : UInt8) (b : Nat) (hb : b ≤ 36) : Str.getEvent c (b : Int) = .ok (evOf b c) := by
  unfold Str.getEvent evOf
  by_cases h1 : IsBlank c
  · rw [if_pos h1]
    unfold IsBlank at h1
    rw [if_pos (by rcases h1 with rfl | rfl | rfl | rfl <;> rfl)]
  · rw [if_neg h1]
    unfold IsBlank at h1
    rw [if_neg (by simp only [Bool.or_eq_true, beq_iff_eq]; tauto)]
    by_cases h2 : c = 43 ∨ c = 45
    · rw [if_pos h2, if_pos (by rcases h2 with rfl | rfl <;> rfl)]
    · rw [if_neg h2, if_neg (by simp only [Bool.or_eq_true, beq_iff_eq]; tauto)]
      by_cases h3 : IsDigitIn b c
      · rw [charToInteger_digit c b hb h3, if_pos h3, Res.ok_bind, if_pos (by omega)]; rfl
      · have : Str.charToInteger c (b : Int) = .ok (-1) := by
          rw [charToInteger_eq c b hb]
          cases hv : digitValue c with
          | none => rfl
          | some v => simp only [if_neg (fun h => h3 ⟨v, hv, h⟩ : ¬ v < b)]
        rw [this, if_neg h3, Res.ok_bind, if_neg (by simp)]
        simp only [Bool.or_eq_true, beq_iff_eq]
        split
        · rfl
        split <;> rfl

theorem digit_notBlank (c : UInt8) : ∀ b, IsDigitIn b c → ¬ IsBlank c ∧ ¬ (c = 43 ∨ c = 45) := by
  intro b ⟨v, hv, _⟩
  have : ∀ c : UInt8, digitValue c ≠ none → ¬ IsBlank c ∧ ¬ (c = 43 ∨ c = 45) := by
    apply byte_all; decide +kernel
  exact this c (by rw [hv]; simp)

theorem evOf_blank {b : Nat} {c : UInt8} : evOf b c = .blank ↔ IsBlank c := by
  unfold evOf
  constructor
  · intro h; by_contra h'; rw [if_neg h'] at h
    split at h; · cases h
    split at h; · cases h
    split at h; · cases h
    split at h <;> cases h
  · intro h; rw [if_pos h]

theorem evOf_sign {b : Nat} {c : UInt8} : evOf b c = .sign ↔ c = 43 ∨ c = 45 := by
  unfold evOf
  constructor
  · intro h
    split at h; · cases h
    split at h; · assumption
    split at h; · cases h
    split at h; · cases h
    split at h <;> cases h
  · rintro (rfl | rfl) <;> rfl

theorem evOf_digit {b : Nat} {c : UInt8} : evOf b c = .digit ↔ IsDigitIn b c := by
  unfold evOf
  constructor
  · intro h
    split at h; · cases h
    split at h; · cases h
    split at h; · assumption
    split at h; · cases h
    split at h <;> cases h
  · intro h
    rw [if_neg (digit_notBlank c b h).1, if_neg (digit_notBlank c b h).2, if_pos h]

theorem evOf_point {b : Nat} {c : UInt8} : evOf b c = .point ↔ c = 46 := by
  unfold evOf
  constructor
  · intro h
    split at h; · cases h
    split at h; · cases h
    split at h; · cases h
    split at h; · assumption
    split at h <;> cases h
  · rintro rfl
    rw [if_neg (by decide), if_neg (by decide), if_neg, if_pos rfl]
    rintro ⟨v, hv, -⟩; revert hv; unfold digitValue; simp

theorem evOf_exp {c : UInt8} : evOf 10 c = .exp ↔ c = 101 ∨ c = 69 := by
  unfold evOf
  constructor
  · intro h
    split at h; · cases h
    split at h; · cases h
    split at h; · cases h
    split at h; · cases h
    split at h
    · assumption
    · cases h
  · rintro (rfl | rfl) <;> decide

theorem numeralIn_snoc (b : Nat) (ds : List UInt8) (c : UInt8) :
    numeralIn b (ds ++ [c]) = b * numeralIn b ds + (digitValue c).getD 0 := by
  unfold numeralIn; rw [List.foldl_append]; rfl

theorem visited_eq {s : List UInt8} (hs : s.length ≤ maxLen) : Str.visited s = s := by
  rw [Str.visited, Str.size, wrap32_eq (by rw [isInt_iff]; unfold maxLen at hs; omega), Int.toNat_natCast, List.take_length]

/-- A string longer than `INT_MAX` by one has a negative `size()`, so that nothing of it is visited. -/
theorem visited_long {s : List UInt8} (hs : s.length = maxLen + 1) : Str.visited s = [] := by
  have : (Str.size s).toNat = 0 := by unfold Str.size wrap32; rw [hs]; unfold maxLen; omega
  rw [Str.visited, this, List.take_zero]

theorem leaveLoop_ok {α : Type} {s : List UInt8} (hs : s.length < maxLen) (a : α) : Str.leaveLoop s a = .ok a := by
  unfold Str.leaveLoop
  have hs' := hs
  unfold maxLen at hs'
  rw [Str.size_eq' (by omega), iadd_ok (by rw [isInt_iff]; omega), Res.ok_bind]; rfl

theorem leaveLoop_max {α : Type} {s : List UInt8} (hs : s.length = maxLen) (a : α) : Str.leaveLoop s a = .ub .overflow := by
  unfold Str.leaveLoop
  have hs' := hs
  unfold maxLen at hs'
  rw [Str.size_eq' (by omega), iadd, ck_ub (by rw [isInt_iff]; omega), Res.ub_bind]

/-! ## to_integer -/

/-- The machine of `to_integer`, collecting digits. -/
def fsmI (b : Nat) : List UInt8 → Str.St → Bool → List UInt8 → Str.St × Bool × List UInt8
  | [], st, nn, ds => (st, nn, ds)
  | c :: cs, st, nn, ds =>
    match st, evOf b c with
    | .start, .blank => fsmI b cs .start nn ds
    | .start, .sign => fsmI b cs .sign (c == 43) ds
    | .start, .digit | .sign, .digit | .int, .digit => fsmI b cs .int nn (ds ++ [c])
    | .int, .blank | .end_, .blank => fsmI b cs .end_ nn ds
    | _, _ => (.other, nn, ds)

theorem fsmI_cons {b : Nat} {c : UInt8} {ev : Str.Ev} (h : evOf b c = ev) (cs : List UInt8) (st : Str.St) (nn : Bool)
    (ds : List UInt8) : fsmI b (c :: cs) st nn ds =
    match (generalizing := false) st, ev with
    | .start, .blank => fsmI b cs .start nn ds
    | .start, .sign => fsmI b cs .sign (c == 43) ds
    | .start, .digit | .sign, .digit | .int, .digit => fsmI b cs .int nn (ds ++ [c])
    | .int, .blank | .end_, .blank => fsmI b cs .end_ nn ds
    | _, _ => (.other, nn, ds) := by
  subst h
  conv => lhs; unfold fsmI

theorem toIntegerLoop_eq (mem : Mem) (k : Nat) (hk : 2 ≤ k) (s : List UInt8) (b : Nat) (hb : b ≤ 36) :
    ∀ (cs : List UInt8) (st : Str.St) (nn : Bool) (ds : List UInt8), st ≠ .other →
      Str.toIntegerLoop mem k s (b : Int) cs st nn (enc (numeralIn b ds : Nat)) =
        (let r := fsmI b cs st nn ds
         if r.1 = .other then Str.leaveLoop s (.other, r.2.1, enc (numeralIn b r.2.2 : Nat))
         else .ok (r.1, r.2.1, enc (numeralIn b r.2.2 : Nat))) := by
  intro cs
  induction cs with
  | nil =>
    intro st nn ds hst
    unfold Str.toIntegerLoop fsmI
    simp only [if_neg hst]
  | cons c cs ih =>
    intro st nn ds hst
    have step : IsDigitIn b c →
        (do
          let p ← BInt.mul (enc (numeralIn b ds : Nat)) (← BInt.ofInt b)
          let integer ← BInt.add mem k p (← BInt.ofInt (← Str.charToInteger c (b : Int)))
          Str.toIntegerLoop mem k s (b : Int) cs .int nn integer) =
        Str.toIntegerLoop mem k s (b : Int) cs .int nn (enc (numeralIn b (ds ++ [c]) : Nat)) := by
      intro hd
      have hv : (digitValue c).getD 0 < 36 := by
        obtain ⟨v, hv, -⟩ := hd; rw [hv]; exact digitValue_lt c v hv
      rw [charToInteger_digit c b hb hd, ofInt_small (by omega) (by omega), Res.ok_bind, mul_enc, Res.ok_bind, Res.ok_bind,
        ofInt_small (by omega) (by omega), Res.ok_bind]
      obtain ⟨j, rfl⟩ : ∃ j, k = j + 2 := ⟨k - 2, by omega⟩
      have hadd : BInt.add mem (j + 2) (enc ((numeralIn b ds : Nat) * (b : Nat) : Int)) (enc (((digitValue c).getD 0 : Nat) : Int)) =
          .ok (enc ((numeralIn b ds : Nat) * (b : Nat) + ((digitValue c).getD 0 : Nat) : Int)) := by
        apply addAssign_enc_aux
        refine Or.inr (Or.inl ?_)
        rw [Int.sign_neg]
        have h1 : 0 ≤ ((numeralIn b ds : Nat) * (b : Nat) : Int).sign := Int.sign_nonneg_iff.2 (by positivity)
        have h2 : 0 ≤ (((digitValue c).getD 0 : Nat) : Int).sign := Int.sign_nonneg_iff.2 (by positivity)
        have := mul_nonneg h1 h2
        rw [mul_neg]; omega
      rw [hadd, Res.ok_bind, numeralIn_snoc]
      push_cast
      rw [mul_comm (b : Int)]
    unfold Str.toIntegerLoop fsmI
    rw [getEvent_eq c b hb, Res.ok_bind]
    cases he : evOf b c <;> cases st <;> dsimp only <;> first
      | with_reducible exact absurd rfl hst
      | with_reducible exact ih _ _ _ (by simp)
      | rw [step (evOf_digit.1 he), ih _ _ _ (by simp)]
      | rw [if_pos rfl]

theorem Sign.nonempty {sg : List UInt8} {σ : Int} (h : Sign sg σ) : sg = [] ∧ σ = 1 ∨ sg = [43] ∧ σ = 1 ∨ sg = [45] ∧ σ = -1 := by
  cases h <;> simp

/-- What has been read in each state of the machine. -/
def PreI (b : Nat) (st : Str.St) (nn : Bool) (ds pre : List UInt8) : Prop :=
  match st with
  | .start => (∀ c ∈ pre, IsBlank c) ∧ nn = true ∧ ds = []
  | .sign => ∃ ws c, pre = ws ++ [c] ∧ (∀ c ∈ ws, IsBlank c) ∧ Sign [c] (if nn then 1 else -1) ∧ ds = []
  | .int => ∃ ws sg, pre = ws ++ (sg ++ ds) ∧ (∀ c ∈ ws, IsBlank c) ∧ Sign sg (if nn then 1 else -1) ∧ ds ≠ [] ∧
      (∀ c ∈ ds, IsDigitIn b c)
  | .end_ => ∃ ws sg ws', pre = ws ++ (sg ++ (ds ++ ws')) ∧ (∀ c ∈ ws, IsBlank c) ∧ Sign sg (if nn then 1 else -1) ∧ ds ≠ [] ∧
      (∀ c ∈ ds, IsDigitIn b c) ∧ (∀ c ∈ ws', IsBlank c)
  | _ => True

theorem fsmI_sound (b : Nat) : ∀ (cs : List UInt8) (st : Str.St) (nn : Bool) (ds pre : List UInt8), PreI b st nn ds pre →
    let r := fsmI b cs st nn ds
    PreI b r.1 r.2.1 r.2.2 (pre ++ cs) := by
  intro cs
  induction cs with
  | nil => intro st nn ds pre h; unfold fsmI; rw [List.append_nil]; exact h
  | cons c cs ih =>
    intro st nn ds pre h
    rw [show pre ++ c :: cs = (pre ++ [c]) ++ cs by simp]
    unfold fsmI
    cases he : evOf b c <;> cases st <;> first | exact trivial | skip
    all_goals apply ih
    -- blank: start, int, end
    · obtain ⟨h1, h2, h3⟩ := h
      refine ⟨?_, h2, h3⟩
      intro x hx; simp at hx
      rcases hx with hx | rfl
      · exact h1 x hx
      · exact evOf_blank.1 he
    · obtain ⟨ws, sg, rfl, h1, h2, h3, h4⟩ := h
      exact ⟨ws, sg, [c], by simp, h1, h2, h3, h4, by simpa using evOf_blank.1 he⟩
    · obtain ⟨ws, sg, ws', rfl, h1, h2, h3, h4, h5⟩ := h
      refine ⟨ws, sg, ws' ++ [c], by simp, h1, h2, h3, h4, ?_⟩
      intro x hx; simp at hx
      rcases hx with hx | rfl
      · exact h5 x hx
      · exact evOf_blank.1 he
    -- sign
    · obtain ⟨h1, h2, h3⟩ := h
      refine ⟨pre, c, rfl, h1, ?_, h3⟩
      rcases evOf_sign.1 he with rfl | rfl
      · exact .plus
      · exact .minus
    -- digit: start, sign, int
    · obtain ⟨h1, h2, h3⟩ := h
      subst h3 h2
      exact ⟨pre, [], by simp, h1, .none, by simp, by simpa using evOf_digit.1 he⟩
    · obtain ⟨ws, d, rfl, h1, h2, h3⟩ := h
      subst h3
      exact ⟨ws, [d], by simp, h1, h2, by simp, by simpa using evOf_digit.1 he⟩
    · obtain ⟨ws, sg, rfl, h1, h2, h3, h4⟩ := h
      refine ⟨ws, sg, by simp, h1, h2, by simp, ?_⟩
      intro x hx; simp at hx
      rcases hx with hx | rfl
      · exact h4 x hx
      · exact evOf_digit.1 he

theorem fsmI_start_blank (b : Nat) : ∀ (ws cs : List UInt8) (nn : Bool) (ds : List UInt8), (∀ c ∈ ws, IsBlank c) →
    fsmI b (ws ++ cs) .start nn ds = fsmI b cs .start nn ds := by
  intro ws
  induction ws with
  | nil => intros; rfl
  | cons c ws ih =>
    intro cs nn ds h
    rw [List.cons_append, fsmI_cons (evOf_blank.2 (h c (by simp)))]
    exact ih cs nn ds (fun x hx => h x (by simp [hx]))

theorem fsmI_int_digits (b : Nat) : ∀ (ds' cs : List UInt8) (nn : Bool) (ds : List UInt8), (∀ c ∈ ds', IsDigitIn b c) →
    fsmI b (ds' ++ cs) .int nn ds = fsmI b cs .int nn (ds ++ ds') := by
  intro ds'
  induction ds' with
  | nil => intros; simp
  | cons c ds' ih =>
    intro cs nn ds h
    rw [List.cons_append, fsmI_cons (evOf_digit.2 (h c (by simp)))]
    refine (ih cs nn _ (fun x hx => h x (by simp [hx]))).trans ?_
    simp

theorem fsmI_end_blank (b : Nat) : ∀ (ws : List UInt8) (st : Str.St) (nn : Bool) (ds : List UInt8), (st = .int ∨ st = .end_) →
    (∀ c ∈ ws, IsBlank c) → ∃ st', (st' = .int ∨ st' = .end_) ∧ fsmI b ws st nn ds = (st', nn, ds) := by
  intro ws
  induction ws with
  | nil => intro st nn ds h _; exact ⟨st, h, by rw [fsmI]⟩
  | cons c ws ih =>
    intro st nn ds hst h
    rw [fsmI_cons (evOf_blank.2 (h c (by simp)))]
    rcases hst with rfl | rfl <;> exact ih .end_ nn ds (.inr rfl) (fun x hx => h x (by simp [hx]))

theorem fsmI_complete (b : Nat) (s : List UInt8) (z : Int) (h : IntText b s z) :
    ∃ st nn ds, (st = .int ∨ st = .end_) ∧ fsmI b s .start true [] = (st, nn, ds) ∧
      z = (if nn then 1 else -1) * (numeralIn b ds : Nat) := by
  obtain ⟨ws, sg, ds, ws', σ, h1, h2, h3, h4, h5⟩ := h
  rw [fsmI_start_blank b ws _ _ _ h1]
  obtain ⟨d, ds, rfl⟩ := List.exists_cons_of_ne_nil h3
  have hd : evOf b d = .digit := evOf_digit.2 (h4 d (by simp))
  have h4' : ∀ c ∈ ds, IsDigitIn b c := fun c hc => h4 c (by simp [hc])
  have tail : ∀ nn : Bool, ∃ st nn' ds', (st = Str.St.int ∨ st = .end_) ∧ fsmI b (ds ++ ws') .int nn [d] = (st, nn', ds') ∧
      nn' = nn ∧ ds' = d :: ds := by
    intro nn
    rw [fsmI_int_digits b ds ws' nn [d] h4']
    obtain ⟨st', hs, e⟩ := fsmI_end_blank b ws' .int nn ([d] ++ ds) (.inl rfl) h5
    exact ⟨st', nn, _, hs, e, rfl, rfl⟩
  have sgn : ∀ c : UInt8, (c = 43 ∨ c = 45) → fsmI b (c :: (d :: ds ++ ws')) .start true [] =
      fsmI b (ds ++ ws') .int (c == 43) [d] := by
    intro c hc
    rw [fsmI_cons (evOf_sign.2 hc)]
    show fsmI b (d :: (ds ++ ws')) .sign (c == 43) [] = _
    rw [fsmI_cons hd]; rfl
  cases h2 with
  | none =>
    obtain ⟨st, nn, ds', a, e, r1, r2⟩ := tail true
    refine ⟨st, nn, ds', a, ?_, by rw [r1, r2]; simp⟩
    rw [← e]
    show fsmI b (d :: (ds ++ ws')) .start true [] = _
    rw [fsmI_cons hd]; rfl
  | plus =>
    obtain ⟨st, nn, ds', a, e, r1, r2⟩ := tail true
    exact ⟨st, nn, ds', a, by rw [← e]; exact sgn 43 (.inl rfl), by rw [r1, r2]; simp⟩
  | minus =>
    obtain ⟨st, nn, ds', a, e, r1, r2⟩ := tail false
    exact ⟨st, nn, ds', a, by rw [← e]; exact sgn 45 (.inr rfl), by rw [r1, r2]; simp⟩

theorem fsmI_accept (b : Nat) (s : List UInt8) (st : Str.St) (nn : Bool) (ds : List UInt8)
    (h : fsmI b s .start true [] = (st, nn, ds)) (hst : st = .int ∨ st = .end_) :
    IntText b s ((if nn then 1 else -1) * (numeralIn b ds : Nat)) := by
  have := fsmI_sound b s .start true [] [] ⟨by simp, rfl, rfl⟩
  rw [h] at this
  simp only [List.nil_append] at this
  rcases hst with rfl | rfl
  · obtain ⟨ws, sg, rfl, h1, h2, h3, h4⟩ := this
    have := IntText.mk (b := b) ws sg ds [] _ h1 h2 h3 h4 (by simp)
    simpa using this
  · obtain ⟨ws, sg, ws', rfl, h1, h2, h3, h4, h5⟩ := this
    exact .mk ws sg ds ws' _ h1 h2 h3 h4 h5

/-! ## to_decimal -/

/-- What `to_decimal` has read. -/
structure Rd where
  sign : Int := 1
  ds : List UInt8 := []
  fs : List UInt8 := []
  esign : Int := 1
  es : List UInt8 := []

/-- The machine of `to_decimal`, collecting digits; `none`: the exponent does not fit `int`. -/
def fsmD : List UInt8 → Str.St → Rd → Option (Str.St × Rd)
  | [], st, v => some (st, v)
  | c :: cs, st, v =>
    match st, evOf 10 c with
    | .start, .blank => fsmD cs .start v
    | .start, .sign => fsmD cs .sign { v with sign := if c == 43 then 1 else -1 }
    | .start, .point | .sign, .point => fsmD cs .point v
    | .start, .digit | .sign, .digit | .int, .digit => fsmD cs .int { v with ds := v.ds ++ [c] }
    | .int, .point => fsmD cs .dec v
    | .point, .digit | .dec, .digit => fsmD cs .dec { v with fs := v.fs ++ [c] }
    | .int, .exp | .dec, .exp => fsmD cs .exp v
    | .exp, .sign => fsmD cs .expSign { v with esign := if c == 43 then 1 else -1 }
    | .exp, .digit | .expSign, .digit | .expNum, .digit =>
      if (numeralIn 10 (v.es ++ [c]) : Int) ≤ INT_MAX then fsmD cs .expNum { v with es := v.es ++ [c] } else none
    | .int, .blank | .dec, .blank | .expNum, .blank | .end_, .blank => fsmD cs .end_ v
    | _, _ => some (.other, v)

theorem fsmD_cons {c : UInt8} {ev : Str.Ev} (h : evOf 10 c = ev) (cs : List UInt8) (st : Str.St) (v : Rd) :
    fsmD (c :: cs) st v =
    match (generalizing := false) st, ev with
    | .start, .blank => fsmD cs .start v
    | .start, .sign => fsmD cs .sign { v with sign := if c == 43 then 1 else -1 }
    | .start, .point | .sign, .point => fsmD cs .point v
    | .start, .digit | .sign, .digit | .int, .digit => fsmD cs .int { v with ds := v.ds ++ [c] }
    | .int, .point => fsmD cs .dec v
    | .point, .digit | .dec, .digit => fsmD cs .dec { v with fs := v.fs ++ [c] }
    | .int, .exp | .dec, .exp => fsmD cs .exp v
    | .exp, .sign => fsmD cs .expSign { v with esign := if c == 43 then 1 else -1 }
    | .exp, .digit | .expSign, .digit | .expNum, .digit =>
      if (numeralIn 10 (v.es ++ [c]) : Int) ≤ INT_MAX then fsmD cs .expNum { v with es := v.es ++ [c] } else none
    | .int, .blank | .dec, .blank | .expNum, .blank | .end_, .blank => fsmD cs .end_ v
    | _, _ => some (.other, v) := by
  subst h
  conv => lhs; unfold fsmD

theorem evalDigits_snoc {D : Type} (ops : Str.DoubleOps D) (ds : List UInt8) (c : UInt8) : evalDigits ops (ds ++ [c]) =
    ops.add (ops.mul (evalDigits ops ds) (ops.ofInt 10)) (ops.ofInt ((digitValue c).getD 0 : Nat)) := by
  unfold evalDigits; rw [List.foldl_append]; rfl

/-- The variables of `to_decimal` that stand for what was read. -/
def Rd.vars {D : Type} (ops : Str.DoubleOps D) (v : Rd) : Str.DecVars D :=
  { sign := v.sign, decimalPart := evalDigits ops (v.ds ++ v.fs), decimalCnt := v.fs.length, expSign := v.esign,
    expPart := (numeralIn 10 v.es : Nat) }

theorem toDecimalLoop_eq {D : Type} (ops : Str.DoubleOps D) (s : List UInt8) :
    ∀ (cs : List UInt8) (st : Str.St) (v : Rd), st ≠ .other → (st = .start ∨ st = .sign ∨ st = .int → v.fs = []) →
      v.fs.length + cs.length ≤ maxLen → (numeralIn 10 v.es : Int) ≤ INT_MAX →
      Str.toDecimalLoop ops s cs st (v.vars ops) =
        (match fsmD cs st v with
         | none => .ub .overflow
         | some r => if r.1 = .other then Str.leaveLoop s (.other, r.2.vars ops) else .ok (r.1, r.2.vars ops)) := by
  intro cs
  induction cs with
  | nil =>
    intro st v hst _ _ _
    unfold Str.toDecimalLoop fsmD
    simp only [if_neg hst]
  | cons c cs ih =>
    intro st v hst hfs hlen hes
    have hlen' : v.fs.length + cs.length + 1 ≤ maxLen := by simpa [Nat.add_assoc] using hlen
    have hdig : ∀ {c}, IsDigitIn 10 c → Str.charToInteger c 10 = .ok ((digitValue c).getD 0 : Nat) :=
      fun h => charToInteger_digit _ 10 (by omega) h
    have d1 : IsDigitIn 10 c → v.fs = [] →
        (do
          let d ← Str.charToInteger c 10
          Str.toDecimalLoop ops s cs .int
            { (v.vars ops) with decimalPart := ops.add (ops.mul (v.vars ops).decimalPart (ops.ofInt 10)) (ops.ofInt d) }) =
        Str.toDecimalLoop ops s cs .int (Rd.vars ops { v with ds := v.ds ++ [c] }) := by
      intro hd hf
      rw [hdig hd, Res.ok_bind]
      unfold Rd.vars
      simp only [hf, List.append_nil, evalDigits_snoc]
    have d2 : IsDigitIn 10 c →
        (do
          let d ← Str.charToInteger c 10
          let n ← iadd (v.vars ops).decimalCnt 1
          Str.toDecimalLoop ops s cs .dec
            { (v.vars ops) with decimalPart := ops.add (ops.mul (v.vars ops).decimalPart (ops.ofInt 10)) (ops.ofInt d), decimalCnt := n }) =
        Str.toDecimalLoop ops s cs .dec (Rd.vars ops { v with fs := v.fs ++ [c] }) := by
      intro hd
      rw [hdig hd, Res.ok_bind]
      unfold Rd.vars
      dsimp only
      rw [iadd_ok (by rw [isInt_iff]; unfold maxLen at hlen'; omega), Res.ok_bind, ← List.append_assoc, evalDigits_snoc,
        List.length_append]
      rfl
    have d3 : IsDigitIn 10 c →
        (do
          let d ← Str.charToInteger c 10
          let e ← iadd (← imul (v.vars ops).expPart 10) d
          Str.toDecimalLoop ops s cs .expNum { (v.vars ops) with expPart := e }) =
        if (numeralIn 10 (v.es ++ [c]) : Int) ≤ INT_MAX then
          Str.toDecimalLoop ops s cs .expNum (Rd.vars ops { v with es := v.es ++ [c] }) else .ub .overflow := by
      intro hd
      rw [hdig hd, Res.ok_bind]
      unfold Rd.vars
      dsimp only
      rw [numeralIn_snoc]
      unfold INT_MAX at hes ⊢
      generalize numeralIn 10 v.es = e at hes ⊢
      generalize (digitValue c).getD 0 = d
      push_cast
      by_cases h1 : (e : Int) * 10 ≤ 2147483647
      · rw [imul_ok (by rw [isInt_iff]; omega), Res.ok_bind]
        by_cases h2 : 10 * (e : Int) + d ≤ 2147483647
        · rw [if_pos h2, iadd_ok (by rw [isInt_iff]; omega), Res.ok_bind, mul_comm]
        · rw [if_neg h2, iadd, ck_ub (by rw [isInt_iff]; omega), Res.ub_bind]
      · rw [imul, ck_ub (by rw [isInt_iff]; omega), Res.ub_bind, if_neg (by omega)]
    have he10 : Str.getEvent c 10 = .ok (evOf 10 c) := getEvent_eq c 10 (by omega)
    unfold Str.toDecimalLoop fsmD
    rw [he10, Res.ok_bind]
    cases he : evOf 10 c <;> cases st <;> dsimp only <;> first
      | with_reducible exact absurd rfl hst
      | rw [if_pos rfl]
      | with_reducible exact ih _ v (by simp) hfs (by omega) hes
      | with_reducible exact ih _ v (by simp) (by simp) (by omega) hes
      | have := evOf_sign.1 he; exact ih .sign { v with sign := if c == 43 then 1 else -1 } (by simp) (fun _ => hfs (.inl rfl)) (by show v.fs.length + cs.length ≤ maxLen; omega) hes
      | have := evOf_sign.1 he; exact ih .expSign { v with esign := if c == 43 then 1 else -1 } (by simp) (by simp) (by show v.fs.length + cs.length ≤ maxLen; omega) hes
      | rw [d1 (evOf_digit.1 he) (hfs (by simp)), ih .int { v with ds := v.ds ++ [c] } (by simp) (fun _ => hfs (by simp)) (by show v.fs.length + cs.length ≤ maxLen; omega) hes]
      | rw [d2 (evOf_digit.1 he), ih .dec { v with fs := v.fs ++ [c] } (by simp) (by simp) (by show (v.fs ++ [c]).length + cs.length ≤ maxLen; rw [List.length_append, List.length_singleton]; omega) hes]
      | (rw [d3 (evOf_digit.1 he)]
         split
         · rename_i hle
           rw [ih .expNum { v with es := v.es ++ [c] } (by simp) (by simp) (by show v.fs.length + cs.length ≤ maxLen; omega) hle]
         · rfl)

/-- What has been read in each state of the machine. -/
def PreD (st : Str.St) (v : Rd) (pre : List UInt8) : Prop :=
  match st with
  | .start => (∀ c ∈ pre, IsBlank c) ∧ v = {}
  | .sign => ∃ ws c, pre = ws ++ [c] ∧ (∀ c ∈ ws, IsBlank c) ∧ Sign [c] v.sign ∧ v.ds = [] ∧ v.fs = [] ∧ v.esign = 1 ∧ v.es = []
  | .int => ∃ ws sg, pre = ws ++ (sg ++ v.ds) ∧ (∀ c ∈ ws, IsBlank c) ∧ Sign sg v.sign ∧ v.ds ≠ [] ∧
      (∀ c ∈ v.ds, IsDigitIn 10 c) ∧ v.fs = [] ∧ v.esign = 1 ∧ v.es = []
  | .point => ∃ ws sg, pre = ws ++ (sg ++ [46]) ∧ (∀ c ∈ ws, IsBlank c) ∧ Sign sg v.sign ∧ v.ds = [] ∧
      v.fs = [] ∧ v.esign = 1 ∧ v.es = []
  | .dec => ∃ ws sg, pre = ws ++ (sg ++ (v.ds ++ 46 :: v.fs)) ∧ (∀ c ∈ ws, IsBlank c) ∧ Sign sg v.sign ∧
      (v.ds ≠ [] ∨ v.fs ≠ []) ∧ (∀ c ∈ v.ds, IsDigitIn 10 c) ∧ (∀ c ∈ v.fs, IsDigitIn 10 c) ∧ v.esign = 1 ∧ v.es = []
  | .exp => ∃ ws sg m e, pre = ws ++ (sg ++ (m ++ [e])) ∧ (∀ c ∈ ws, IsBlank c) ∧ Sign sg v.sign ∧ Mantissa m v.ds v.fs ∧
      (e = 101 ∨ e = 69) ∧ v.esign = 1 ∧ v.es = []
  | .expSign => ∃ ws sg m e c, pre = ws ++ (sg ++ (m ++ [e, c])) ∧ (∀ c ∈ ws, IsBlank c) ∧ Sign sg v.sign ∧
      Mantissa m v.ds v.fs ∧ (e = 101 ∨ e = 69) ∧ Sign [c] v.esign ∧ v.es = []
  | .expNum => ∃ ws sg m e sg', pre = ws ++ (sg ++ (m ++ (e :: (sg' ++ v.es)))) ∧ (∀ c ∈ ws, IsBlank c) ∧ Sign sg v.sign ∧
      Mantissa m v.ds v.fs ∧ (e = 101 ∨ e = 69) ∧ Sign sg' v.esign ∧ v.es ≠ [] ∧ (∀ c ∈ v.es, IsDigitIn 10 c)
  | .end_ => DecText pre v.sign v.ds v.fs v.esign v.es
  | .other => True

theorem mantissa_dec {ds fs : List UInt8} (h : ds ≠ [] ∨ fs ≠ []) (h1 : ∀ c ∈ ds, IsDigitIn 10 c) (h2 : ∀ c ∈ fs, IsDigitIn 10 c) :
    Mantissa (ds ++ 46 :: fs) ds fs := by
  by_cases hd : ds = []
  · subst hd; exact .frac fs (by simpa using h) h2
  · exact .full ds fs hd h1 h2

theorem mem_snoc_all {α : Type} {P : α → Prop} {l : List α} {a : α} (h : ∀ x ∈ l, P x) (ha : P a) : ∀ x ∈ l ++ [a], P x := by
  intro x hx; simp at hx
  rcases hx with hx | rfl
  · exact h x hx
  · exact ha

/-- In an accepting state the text read so far is in the language. -/
theorem PreD.accept {st : Str.St} {v : Rd} {pre : List UInt8} (h : PreD st v pre)
    (hst : st = .int ∨ st = .dec ∨ st = .expNum ∨ st = .end_) : DecText pre v.sign v.ds v.fs v.esign v.es := by
  rcases hst with rfl | rfl | rfl | rfl
  · obtain ⟨ws, sg, rfl, h1, h2, h3, h4, h5, h6, h7⟩ := h
    rw [h5, h6, h7]
    have := DecText.mk ws sg v.ds [] [] v.sign v.ds [] 1 [] h1 h2 (.int _ h3 h4) .none (by simp)
    simpa using this
  · obtain ⟨ws, sg, rfl, h1, h2, h3, h4, h5, h6, h7⟩ := h
    rw [h6, h7]
    have := DecText.mk ws sg _ [] [] v.sign v.ds v.fs 1 [] h1 h2 (mantissa_dec h3 h4 h5) .none (by simp)
    simpa using this
  · obtain ⟨ws, sg, m, e, sg', rfl, h1, h2, h3, h4, h5, h6, h7⟩ := h
    have := DecText.mk ws sg m _ [] v.sign v.ds v.fs v.esign v.es h1 h2 h3 (.some e sg' v.es _ h4 h5 h6 h7) (by simp)
    simpa using this
  · exact h

theorem DecText.blank {pre : List UInt8} {c : UInt8} {σ τ : Int} {ds fs es : List UInt8} (h : DecText pre σ ds fs τ es)
    (hc : IsBlank c) : DecText (pre ++ [c]) σ ds fs τ es := by
  obtain ⟨ws, sg, m, x, ws', _, _, _, _, _, h1, h2, h3, h4, h5⟩ := h
  have := DecText.mk ws sg m x (ws' ++ [c]) σ ds fs τ es h1 h2 h3 h4 (mem_snoc_all h5 hc)
  simpa using this

theorem fsmD_sound : ∀ (cs : List UInt8) (st : Str.St) (v : Rd) (pre : List UInt8), PreD st v pre →
    match fsmD cs st v with
    | some r => PreD r.1 r.2 (pre ++ cs)
    | none => BigExponent (pre ++ cs) := by
  intro cs
  induction cs with
  | nil => intro st v pre h; unfold fsmD; rw [List.append_nil]; exact h
  | cons c cs ih =>
    intro st v pre h
    rw [show pre ++ c :: cs = (pre ++ [c]) ++ cs by simp]
    have exps : PreD .expNum { v with es := v.es ++ [c] } (pre ++ [c]) →
        match (if (numeralIn 10 (v.es ++ [c]) : Int) ≤ INT_MAX then fsmD cs .expNum { v with es := v.es ++ [c] } else none) with
        | some r => PreD r.1 r.2 ((pre ++ [c]) ++ cs)
        | none => BigExponent ((pre ++ [c]) ++ cs) := by
      intro hp
      by_cases hle : (numeralIn 10 (v.es ++ [c]) : Int) ≤ INT_MAX
      · rw [if_pos hle]; exact ih _ _ _ hp
      · rw [if_neg hle]
        exact ⟨pre ++ [c], cs, _, _, _, _, _, rfl, hp.accept (by simp), by push Not at hle; exact hle⟩
    cases he : evOf 10 c <;> rw [fsmD_cons he] <;> cases st <;> dsimp only <;> first | exact trivial | skip
    -- blank: start, int, dec, expNum, end
    · exact ih _ _ _ ⟨mem_snoc_all h.1 (evOf_blank.1 he), h.2⟩
    · exact ih _ _ _ ((h.accept (by simp)).blank (evOf_blank.1 he))
    · exact ih _ _ _ ((h.accept (by simp)).blank (evOf_blank.1 he))
    · exact ih _ _ _ ((h.accept (by simp)).blank (evOf_blank.1 he))
    · exact ih _ _ _ ((h.accept (by simp)).blank (evOf_blank.1 he))
    -- sign: start, exp
    · obtain ⟨h1, rfl⟩ := h
      refine ih _ _ _ ⟨pre, c, rfl, h1, ?_, rfl, rfl, rfl, rfl⟩
      rcases evOf_sign.1 he with rfl | rfl
      · exact .plus
      · exact .minus
    · obtain ⟨ws, sg, m, e, rfl, h1, h2, h3, h4, h5, h6⟩ := h
      refine ih _ _ _ ⟨ws, sg, m, e, c, by simp, h1, h2, h3, h4, ?_, h6⟩
      rcases evOf_sign.1 he with rfl | rfl
      · exact .plus
      · exact .minus
    -- digit: start, sign, int, point, dec, exp, expSign, expNum
    · obtain ⟨h1, rfl⟩ := h
      exact ih _ _ _ ⟨pre, [], rfl, h1, .none, by simp, by simpa using evOf_digit.1 he, rfl, rfl, rfl⟩
    · obtain ⟨ws, d, rfl, h1, h2, h3, h4, h5, h6⟩ := h
      exact ih _ _ _ ⟨ws, [d], by simp [h3], h1, h2, by simp, by simpa [h3] using evOf_digit.1 he, h4, h5, h6⟩
    · obtain ⟨ws, sg, rfl, h1, h2, h3, h4, h5, h6, h7⟩ := h
      exact ih _ _ _ ⟨ws, sg, by simp, h1, h2, by simp, mem_snoc_all h4 (evOf_digit.1 he), h5, h6, h7⟩
    · obtain ⟨ws, sg, rfl, h1, h2, h3, h4, h5, h6⟩ := h
      exact ih _ _ _ ⟨ws, sg, by simp [h3, h4], h1, h2, by simp, by simp [h3], by simpa [h4] using evOf_digit.1 he, h5, h6⟩
    · obtain ⟨ws, sg, rfl, h1, h2, h3, h4, h5, h6, h7⟩ := h
      exact ih _ _ _ ⟨ws, sg, by simp, h1, h2, by simp, h4, mem_snoc_all h5 (evOf_digit.1 he), h6, h7⟩
    · obtain ⟨ws, sg, m, e, rfl, h1, h2, h3, h4, h5, h6⟩ := h
      exact exps ⟨ws, sg, m, e, [], by simp [h6], h1, h2, h3, h4, by rw [h5]; exact .none, by simp,
        by simpa [h6] using evOf_digit.1 he⟩
    · obtain ⟨ws, sg, m, e, d, rfl, h1, h2, h3, h4, h5, h6⟩ := h
      exact exps ⟨ws, sg, m, e, [d], by simp [h6], h1, h2, h3, h4, h5, by simp, by simpa [h6] using evOf_digit.1 he⟩
    · obtain ⟨ws, sg, m, e, sg', rfl, h1, h2, h3, h4, h5, h6, h7⟩ := h
      exact exps ⟨ws, sg, m, e, sg', by simp, h1, h2, h3, h4, h5, by simp, mem_snoc_all h7 (evOf_digit.1 he)⟩
    -- point: start, sign, int
    · obtain ⟨h1, rfl⟩ := h
      have := evOf_point.1 he
      subst this
      exact ih _ _ _ ⟨pre, [], rfl, h1, .none, rfl, rfl, rfl, rfl⟩
    · obtain ⟨ws, d, rfl, h1, h2, h3, h4, h5, h6⟩ := h
      have := evOf_point.1 he
      subst this
      exact ih _ _ _ ⟨ws, [d], by simp, h1, h2, h3, h4, h5, h6⟩
    · obtain ⟨ws, sg, rfl, h1, h2, h3, h4, h5, h6, h7⟩ := h
      have := evOf_point.1 he
      subst this
      exact ih _ _ _ ⟨ws, sg, by simp [h5], h1, h2, .inl h3, h4, by simp [h5], h6, h7⟩
    -- exp: int, dec
    · obtain ⟨ws, sg, rfl, h1, h2, h3, h4, h5, h6, h7⟩ := h
      exact ih _ _ _ ⟨ws, sg, v.ds, c, by simp, h1, h2, by rw [h5]; exact .int _ h3 h4, evOf_exp.1 he, h6, h7⟩
    · obtain ⟨ws, sg, rfl, h1, h2, h3, h4, h5, h6, h7⟩ := h
      exact ih _ _ _ ⟨ws, sg, _, c, by simp, h1, h2, mantissa_dec h3 h4 h5, evOf_exp.1 he, h6, h7⟩

/-! Completeness. -/

theorem fsmD_blank : ∀ (ws cs : List UInt8) (v : Rd), (∀ c ∈ ws, IsBlank c) → fsmD (ws ++ cs) .start v = fsmD cs .start v := by
  intro ws
  induction ws with
  | nil => intros; rfl
  | cons c ws ih =>
    intro cs v h
    rw [List.cons_append, fsmD_cons (evOf_blank.2 (h c (by simp)))]
    exact ih cs v (fun x hx => h x (by simp [hx]))

theorem fsmD_int : ∀ (ds cs : List UInt8) (v : Rd), (∀ c ∈ ds, IsDigitIn 10 c) →
    fsmD (ds ++ cs) .int v = fsmD cs .int { v with ds := v.ds ++ ds } := by
  intro ds
  induction ds with
  | nil => intros; simp
  | cons c ds ih =>
    intro cs v h
    rw [List.cons_append, fsmD_cons (evOf_digit.2 (h c (by simp)))]
    refine (ih cs _ (fun x hx => h x (by simp [hx]))).trans ?_
    simp

theorem fsmD_dec : ∀ (fs cs : List UInt8) (v : Rd), (∀ c ∈ fs, IsDigitIn 10 c) →
    fsmD (fs ++ cs) .dec v = fsmD cs .dec { v with fs := v.fs ++ fs } := by
  intro fs
  induction fs with
  | nil => intros; simp
  | cons c fs ih =>
    intro cs v h
    rw [List.cons_append, fsmD_cons (evOf_digit.2 (h c (by simp)))]
    refine (ih cs _ (fun x hx => h x (by simp [hx]))).trans ?_
    simp

theorem numeralIn_le_append (a b : List UInt8) : numeralIn 10 a ≤ numeralIn 10 (a ++ b) := by
  induction b using List.reverseRecOn with
  | nil => simp
  | append_singleton b c ih => rw [← List.append_assoc, numeralIn_snoc]; omega

theorem fsmD_expNum : ∀ (es cs : List UInt8) (v : Rd), (∀ c ∈ es, IsDigitIn 10 c) → (numeralIn 10 v.es : Int) ≤ INT_MAX →
    fsmD (es ++ cs) .expNum v =
      if (numeralIn 10 (v.es ++ es) : Int) ≤ INT_MAX then fsmD cs .expNum { v with es := v.es ++ es } else none := by
  intro es
  induction es with
  | nil => intro cs v _ hv; simp [hv]
  | cons c es ih =>
    intro cs v h hv
    rw [List.cons_append, fsmD_cons (evOf_digit.2 (h c (by simp)))]
    dsimp only
    by_cases hle : (numeralIn 10 (v.es ++ [c]) : Int) ≤ INT_MAX
    · rw [if_pos hle, ih cs _ (fun x hx => h x (by simp [hx])) hle]
      simp
    · rw [if_neg hle, if_neg]
      have := numeralIn_le_append (v.es ++ [c]) es
      rw [List.append_assoc, List.singleton_append] at this
      omega

theorem fsmD_expNum_start (e : UInt8) (es cs : List UInt8) (st : Str.St) (v : Rd) (hst : st = .exp ∨ st = .expSign)
    (h : ∀ c ∈ e :: es, IsDigitIn 10 c) (hv : v.es = []) :
    fsmD (e :: es ++ cs) st v =
      if (numeralIn 10 (e :: es) : Int) ≤ INT_MAX then fsmD cs .expNum { v with es := e :: es } else none := by
  have h1 : (numeralIn 10 ([] ++ [e]) : Int) ≤ INT_MAX := by
    rw [numeralIn_snoc]
    obtain ⟨w, hw, hlt⟩ := h e (by simp)
    rw [hw]
    unfold INT_MAX numeralIn
    simp; omega
  have step : fsmD (e :: es ++ cs) st v = fsmD (es ++ cs) .expNum { v with es := [e] } := by
    rw [List.cons_append, fsmD_cons (evOf_digit.2 (h e (by simp)))]
    rcases hst with rfl | rfl <;> dsimp only <;> rw [hv, if_pos h1] <;> rfl
  rw [step, fsmD_expNum es cs _ (fun x hx => h x (by simp [hx])) h1]
  rfl

theorem fsmD_end : ∀ (ws : List UInt8) (st : Str.St) (v : Rd), (st = .int ∨ st = .dec ∨ st = .expNum ∨ st = .end_) →
    (∀ c ∈ ws, IsBlank c) →
    ∃ st', (st' = Str.St.int ∨ st' = .dec ∨ st' = .expNum ∨ st' = .end_) ∧ fsmD ws st v = some (st', v) := by
  intro ws
  induction ws with
  | nil => intro st v h _; exact ⟨st, h, by rw [fsmD]⟩
  | cons c ws ih =>
    intro st v hst h
    rw [fsmD_cons (evOf_blank.2 (h c (by simp)))]
    rcases hst with rfl | rfl | rfl | rfl <;> exact ih .end_ v (by simp) (fun x hx => h x (by simp [hx]))

theorem fsmD_mantissa {sg m ds fs : List UInt8} {σ : Int} (h1 : Sign sg σ) (h2 : Mantissa m ds fs) (cs : List UInt8) :
    ∃ st, (st = Str.St.int ∨ st = .dec) ∧ fsmD (sg ++ (m ++ cs)) .start {} = fsmD cs st { sign := σ, ds := ds, fs := fs } := by
  have first_digit : ∀ (d : UInt8) (r : List UInt8), IsDigitIn 10 d →
      fsmD (sg ++ (d :: r)) .start {} = fsmD r .int { sign := σ, ds := [d] } := by
    intro d r hd
    have hd := evOf_digit.2 hd
    cases h1 with
    | none => rw [List.nil_append, fsmD_cons hd]; rfl
    | plus => rw [List.singleton_append, fsmD_cons (evOf_sign.2 (.inl rfl))]; dsimp only; rw [fsmD_cons hd]; rfl
    | minus => rw [List.singleton_append, fsmD_cons (evOf_sign.2 (.inr rfl))]; dsimp only; rw [fsmD_cons hd]; rfl
  have first_point : ∀ (r : List UInt8), fsmD (sg ++ (46 :: r)) .start {} = fsmD r .point { sign := σ } := by
    intro r
    have hd : evOf 10 46 = .point := evOf_point.2 rfl
    cases h1 with
    | none => rw [List.nil_append, fsmD_cons hd]
    | plus => rw [List.singleton_append, fsmD_cons (evOf_sign.2 (.inl rfl))]; dsimp only; rw [fsmD_cons hd]; rfl
    | minus => rw [List.singleton_append, fsmD_cons (evOf_sign.2 (.inr rfl))]; dsimp only; rw [fsmD_cons hd]; rfl
  cases h2 with
  | int _ hne hd =>
    obtain ⟨d, ds', rfl⟩ := List.exists_cons_of_ne_nil hne
    refine ⟨.int, .inl rfl, ?_⟩
    rw [List.cons_append, first_digit d _ (hd d (by simp)), fsmD_int ds' cs _ (fun x hx => hd x (by simp [hx]))]
    rfl
  | full _ _ hne hd hf =>
    obtain ⟨d, ds', rfl⟩ := List.exists_cons_of_ne_nil hne
    refine ⟨.dec, .inr rfl, ?_⟩
    rw [List.append_assoc, List.cons_append, first_digit d _ (hd d (by simp)), fsmD_int ds' _ _ (fun x hx => hd x (by simp [hx])),
      List.cons_append, fsmD_cons (evOf_point.2 rfl)]
    dsimp only
    rw [fsmD_dec fs cs _ hf]
    rfl
  | frac _ hne hf =>
    obtain ⟨f, fs', rfl⟩ := List.exists_cons_of_ne_nil hne
    refine ⟨.dec, .inr rfl, ?_⟩
    rw [List.cons_append, first_point, List.cons_append, fsmD_cons (evOf_digit.2 (hf f (by simp)))]
    dsimp only
    rw [fsmD_dec fs' cs _ (fun x hx => hf x (by simp [hx]))]
    rfl

theorem numeralIn_nil : numeralIn 10 [] = 0 := rfl

theorem fsmD_exponent {x es : List UInt8} {τ : Int} (h : Exponent x τ es) (cs : List UInt8) (st : Str.St)
    (hst : st = .int ∨ st = .dec) (v : Rd) (hv : v.esign = 1) (hv' : v.es = []) :
    ∃ st', (st' = Str.St.int ∨ st' = .dec ∨ st' = .expNum ∨ st' = .end_) ∧ fsmD (x ++ cs) st v =
      if (numeralIn 10 es : Int) ≤ INT_MAX then fsmD cs st' { v with esign := τ, es := es } else none := by
  cases h with
  | none =>
    refine ⟨st, by tauto, ?_⟩
    rw [if_pos (by rw [numeralIn_nil]; unfold INT_MAX; omega)]
    cases v
    simp only at hv hv'
    subst hv hv'
    rfl
  | some e sg _ _ he hs hne hd =>
    obtain ⟨d, es', rfl⟩ := List.exists_cons_of_ne_nil hne
    refine ⟨.expNum, by tauto, ?_⟩
    have first : fsmD (e :: (sg ++ d :: es') ++ cs) st v = fsmD (sg ++ ((d :: es') ++ cs)) .exp v := by
      rw [List.cons_append, fsmD_cons (evOf_exp.2 he), List.append_assoc]
      rcases hst with rfl | rfl <;> rfl
    rw [first]
    cases hs with
    | none => rw [List.nil_append, fsmD_expNum_start d es' cs .exp v (.inl rfl) hd hv', ← hv]
    | plus =>
      rw [List.singleton_append, fsmD_cons (evOf_sign.2 (.inl rfl))]; dsimp only
      exact fsmD_expNum_start d es' cs .expSign { v with esign := _ } (.inr rfl) hd hv'
    | minus =>
      rw [List.singleton_append, fsmD_cons (evOf_sign.2 (.inr rfl))]; dsimp only
      exact fsmD_expNum_start d es' cs .expSign { v with esign := _ } (.inr rfl) hd hv'

theorem fsmD_complete {s : List UInt8} {σ τ : Int} {ds fs es : List UInt8} (h : DecText s σ ds fs τ es) :
    ((numeralIn 10 es : Int) ≤ INT_MAX → ∃ st, (st = Str.St.int ∨ st = .dec ∨ st = .expNum ∨ st = .end_) ∧
      fsmD s .start {} = some (st, ⟨σ, ds, fs, τ, es⟩)) ∧
    (INT_MAX < (numeralIn 10 es : Int) → ∀ q, fsmD (s ++ q) .start {} = none) := by
  obtain ⟨ws, sg, m, x, ws', _, _, _, _, _, h1, h2, h3, h4, h5⟩ := h
  constructor
  · intro hle
    rw [fsmD_blank ws _ _ h1]
    obtain ⟨st1, a1, e1⟩ := fsmD_mantissa h2 h3 (x ++ ws')
    obtain ⟨st2, a2, e2⟩ := fsmD_exponent h4 ws' st1 a1 { sign := σ, ds := ds, fs := fs } rfl rfl
    rw [if_pos hle] at e2
    obtain ⟨st3, a3, e3⟩ := fsmD_end ws' st2 ⟨σ, ds, fs, τ, es⟩ a2 h5
    exact ⟨st3, a3, by rw [e1, e2, ← e3]⟩
  · intro hgt q
    rw [List.append_assoc, fsmD_blank ws _ _ h1]
    obtain ⟨st1, a1, e1⟩ := fsmD_mantissa h2 h3 (x ++ (ws' ++ q))
    obtain ⟨st2, a2, e2⟩ := fsmD_exponent h4 (ws' ++ q) st1 a1 { sign := σ, ds := ds, fs := fs } rfl rfl
    rw [if_neg (by omega)] at e2
    rw [← e2, ← e1]
    simp only [List.append_assoc]

end Pyincpp
