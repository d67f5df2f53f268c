import Verif.Proof.StrNum
import Mathlib.Algebra.Field.Rat
import Mathlib.Tactic.FieldSimp

/-! # Property theorems: reading numbers from a string (C23, C24) -/

namespace Pyincpp
open Lst

/-! ## C23 to_integer -/

/-- C23: a base outside 2..36 is rejected. -/
theorem C23_base (mem : Mem) (k : Nat) (s : List UInt8) (base : Int) (h : base < 2 ∨ 36 < base) :
    Str.toInteger mem k s base = .throw "Error: Invalid base for to_integer()." := by
  unfold Str.toInteger
  rw [if_pos (by omega)]

theorem toInteger_eq (mem : Mem) (k : Nat) (hk : 2 ≤ k) (s : List UInt8) (hs : s.length ≤ maxLen) (b : Nat) (hb : 2 ≤ b) (hb' : b ≤ 36) :
    Str.toInteger mem k s (b : Int) =
      (let r := fsmI b s .start true []
       if r.1 = .int ∨ r.1 = .end_ then .ok (enc ((if r.2.1 then 1 else -1) * (numeralIn b r.2.2 : Nat)))
       else if r.1 = .other then
         (do let _ ← Str.leaveLoop s (); .throw "Error: Invalid literal for to_integer().")
       else .throw "Error: Invalid literal for to_integer().") := by
  unfold Str.toInteger
  rw [if_neg (by omega), ofInt_small (by omega) (by omega), Res.ok_bind, visited_eq hs]
  have := toIntegerLoop_eq mem k hk s b hb' s .start true [] (by simp)
  rw [show (numeralIn b [] : Nat) = 0 from rfl] at this
  rw [show ((0 : Nat) : Int) = 0 from rfl] at this
  rw [this]
  obtain ⟨st, nn, ds⟩ := fsmI b s .start true []
  simp only
  by_cases ho : st = .other
  · subst ho
    simp only [if_true, reduceCtorEq, or_self, if_false, Str.leaveLoop]
    cases iadd (Str.size s) 1 <;> rfl
  · rw [if_neg ho, Res.ok_bind]
    by_cases ha : st = .int ∨ st = .end_
    · rw [if_pos ha]
      simp only
      rw [if_neg (by tauto)]
      cases nn
      · simp [neg_enc]
      · simp
    · rw [if_neg ha, if_neg ho]
      simp only
      rw [if_pos (by tauto)]

/-- C23: every text of the grammar whose length fits `int` is accepted and gives the number it denotes, in either memory mode. -/
theorem C23_accept_partial (mem : Mem) (s : List UInt8) (hs : s.length ≤ maxLen) (b : Nat) (hb : 2 ≤ b) (hb' : b ≤ 36) (z : Int) (h : IntText b s z) :
    Returns (fun k => Str.toInteger mem k s (b : Int)) (enc z) := by
  refine ⟨2, fun k hk => ?_⟩
  obtain ⟨st, nn, ds, hst, e, hz⟩ := fsmI_complete b s z h
  beta_reduce
  rw [toInteger_eq mem k hk s hs b hb hb', e]
  simp only [if_pos hst, hz]

/-- C23 is false of the code for longer texts: with `INT_MAX + 1` characters `size()` is negative, and every text is
rejected, such as a number of that many digits. -/
theorem C23_accept_not (mem : Mem) (s : List UInt8) (hs : s.length = maxLen + 1) (b : Nat) (hb : 2 ≤ b) (hb' : b ≤ 36) :
    Throws (fun k => Str.toInteger mem k s (b : Int)) "Error: Invalid literal for to_integer()." ∧
    ∃ z, IntText b (List.replicate (maxLen + 1) 49) z := by
  constructor
  · refine ⟨0, fun k _ => ?_⟩
    beta_reduce
    unfold Str.toInteger
    rw [if_neg (by omega), ofInt_small (by omega) (by omega), Res.ok_bind, visited_long hs]
    rfl
  · have h1 : ∀ c ∈ List.replicate (maxLen + 1) (49 : UInt8), c = 49 := fun c hc => List.eq_of_mem_replicate hc
    have hd : IsDigitIn b 49 := by
      interval_cases b <;> decide
    have := IntText.mk (b := b) [] [] (List.replicate (maxLen + 1) 49) [] 1 (by simp) .none
      (by intro h; have := congrArg List.length h; simp at this) (fun c hc => by rw [h1 c hc]; exact hd) (by simp)
    rw [List.nil_append, List.nil_append, List.append_nil] at this
    exact ⟨_, this⟩

/-- C23: the grammar is unambiguous. -/
theorem C23_unique (s : List UInt8) (b : Nat) (z z' : Int) (h : IntText b s z) (h' : IntText b s z') : z = z' := by
  obtain ⟨st, nn, ds, -, e, hz⟩ := fsmI_complete b s z h
  obtain ⟨st', nn', ds', -, e', hz'⟩ := fsmI_complete b s z' h'
  rw [e] at e'; cases e'; rw [hz, hz']

/-- C23: every other text of fewer than `INT_MAX` characters throws. -/
theorem C23_reject_partial (mem : Mem) (s : List UInt8) (hs : s.length < maxLen) (b : Nat) (hb : 2 ≤ b) (hb' : b ≤ 36)
    (h : ∀ z, ¬ IntText b s z) :
    Throws (fun k => Str.toInteger mem k s (b : Int)) "Error: Invalid literal for to_integer()." := by
  refine ⟨2, fun k hk => ?_⟩
  beta_reduce
  rw [toInteger_eq mem k hk s (by omega) b hb hb']
  cases hr : fsmI b s .start true [] with | mk st r =>
  obtain ⟨nn, ds⟩ := r
  simp only
  rw [if_neg (fun ha => h _ (fsmI_accept b s st nn ds hr ha))]
  split
  · rw [leaveLoop_ok hs, Res.ok_bind]
  · rfl

/-- C23 is false of the code for a string of `INT_MAX` characters that the machine leaves early: `i = size(); ++i` overflows. -/
theorem C23_reject_not (mem : Mem) :
    HitsUB (fun k => Str.toInteger mem k (List.replicate maxLen 33) 10) .overflow ∧ ∀ z, ¬ IntText 10 (List.replicate maxLen 33) z := by
  obtain ⟨n, hn⟩ : ∃ n, maxLen = n + 1 := ⟨maxLen - 1, by unfold maxLen; omega⟩
  have hr : fsmI 10 (List.replicate maxLen 33) .start true [] = (.other, true, []) := by
    rw [hn, List.replicate_succ, fsmI_cons (show evOf 10 33 = .other by decide)]
  constructor
  · refine ⟨2, fun k hk => ?_⟩
    have := toInteger_eq mem k hk (List.replicate maxLen 33) (List.length_replicate ..).le 10 (by omega) (by omega)
    beta_reduce
    refine this.trans ?_
    rw [hr]
    simp only [reduceCtorEq, or_self, if_false, if_true]
    rw [leaveLoop_max (List.length_replicate ..), Res.ub_bind]
  · intro z h
    obtain ⟨st, nn, ds, hst, e, -⟩ := fsmI_complete 10 _ z h
    rw [hr] at e; cases e; simp at hst

-- " -fF " in base 16
example : IntText 16 [32, 45, 102, 70, 32] (-255) := by
  have := IntText.mk (b := 16) [32] [45] [102, 70] [32] (-1) (by decide) .minus (by simp) (by decide) (by decide)
  exact this
example : Str.toInteger .strict 2 [32, 45, 102, 70, 32] 16 = .ok ⟨-1, [5, 5, 2]⟩ := by decide +kernel
example : Str.toInteger .strict 2 [49, 32, 49] 10 = .throw "Error: Invalid literal for to_integer()." := by decide +kernel

/-! ## C24 to_decimal -/

/-- The value that `to_decimal` computes from the parts of the text. -/
def decValue {D : Type} (ops : Str.DoubleOps D) (σ : Int) (ds fs : List UInt8) (τ : Int) (es : List UInt8) : D :=
  ops.mul (ops.ofInt σ) (ops.mul (ops.div (evalDigits ops (ds ++ fs)) (ops.pow10 (ops.ofInt fs.length)))
    (ops.pow10 (ops.mul (ops.ofInt τ) (ops.ofInt (numeralIn 10 es : Nat)))))

theorem named_iff (signs : List (List UInt8)) (names : List String) (s : List UInt8) :
    IsNamed signs names s ↔ s ∈ signs.flatMap (fun sg => names.map (fun n => sg ++ n.toList.map (fun c => c.toNat.toUInt8))) := by
  simp only [IsNamed, List.mem_flatMap, List.mem_map, eq_comm]

theorem posInfs_iff (s : List UInt8) : Str.posInfs.any (· == s) = true ↔ IsNamed [[], [43]] infNames s := by
  rw [named_iff, List.any_eq_true]
  simp only [beq_iff_eq, exists_eq_right]
  constructor
  · intro h; revert h; revert s; decide +kernel
  · intro h; revert h; revert s; decide +kernel
theorem negInfs_iff (s : List UInt8) : Str.negInfs.any (· == s) = true ↔ IsNamed [[45]] infNames s := by
  rw [named_iff, List.any_eq_true]
  simp only [beq_iff_eq, exists_eq_right]
  constructor
  · intro h; revert h; revert s; decide +kernel
  · intro h; revert h; revert s; decide +kernel
theorem nans_iff (s : List UInt8) : Str.nans.any (· == s) = true ↔ IsNamed [[], [43], [45]] nanNames s := by
  rw [named_iff, List.any_eq_true]
  simp only [beq_iff_eq, exists_eq_right]
  constructor
  · intro h; revert h; revert s; decide +kernel
  · intro h; revert h; revert s; decide +kernel

/-- `s` is one of the listed spellings. -/
def IsSpecial (s : List UInt8) : Prop :=
  IsNamed [[], [43]] infNames s ∨ IsNamed [[45]] infNames s ∨ IsNamed [[], [43], [45]] nanNames s

theorem special_other (s : List UInt8) (h : IsSpecial s) : ∃ v, fsmD s .start {} = some (.other, v) := by
  have key : ∀ s ∈ Str.posInfs ++ Str.negInfs ++ Str.nans, ((fsmD s .start {}).map (·.1)) = some .other := by decide +kernel
  have hm : s ∈ Str.posInfs ++ Str.negInfs ++ Str.nans := by
    simp only [List.mem_append]
    rcases h with h | h | h
    · have := (posInfs_iff s).2 h; simp at this; tauto
    · have := (negInfs_iff s).2 h; simp at this; tauto
    · have := (nans_iff s).2 h; simp at this; tauto
  have := key s hm
  cases hr : fsmD s .start {} with
  | none => rw [hr] at this; cases this
  | some r => rw [hr] at this; obtain ⟨st, v⟩ := r; cases this; exact ⟨v, rfl⟩

theorem toDecimal_eq {D : Type} (ops : Str.DoubleOps D) (s : List UInt8) (hs : s.length ≤ maxLen) (h : ¬ IsSpecial s) :
    Str.toDecimal ops s =
      (match fsmD s .start {} with
       | none => .ub .overflow
       | some r =>
         if r.1 = .int ∨ r.1 = .dec ∨ r.1 = .expNum ∨ r.1 = .end_ then
           .ok (decValue ops r.2.sign r.2.ds r.2.fs r.2.esign r.2.es)
         else if r.1 = .other then (do let _ ← Str.leaveLoop s (); .throw "Error: Invalid literal for to_decimal().")
         else .throw "Error: Invalid literal for to_decimal().") := by
  unfold Str.toDecimal
  unfold IsSpecial at h
  rw [← posInfs_iff, ← negInfs_iff, ← nans_iff] at h
  rw [if_neg (by tauto), if_neg (by tauto), if_neg (by tauto), visited_eq hs]
  have := toDecimalLoop_eq ops s s .start {} (by simp) (by simp) (by simpa using hs)
    (by show ((numeralIn 10 [] : Nat) : Int) ≤ INT_MAX; rw [numeralIn_nil]; unfold INT_MAX; omega)
  have e0 : Rd.vars ops {} = { decimalPart := ops.ofInt 0 } := rfl
  rw [e0] at this
  rw [this]
  cases fsmD s .start {} with
  | none => rfl
  | some r =>
    obtain ⟨st, v⟩ := r
    simp only
    by_cases ho : st = .other
    · subst ho
      simp only [if_true, reduceCtorEq, or_self, if_false, Str.leaveLoop]
      cases iadd (Str.size s) 1 <;> rfl
    · rw [if_neg ho, Res.ok_bind]
      by_cases ha : st = .int ∨ st = .dec ∨ st = .expNum ∨ st = .end_
      · rw [if_pos ha]
        simp only
        rw [if_neg (by tauto)]; rfl
      · rw [if_neg ha, if_neg ho]
        simp only
        rw [if_pos (by tauto)]

/-- C24: the listed spellings of infinity and not-a-number. -/
theorem C24_special {D : Type} (ops : Str.DoubleOps D) (s : List UInt8) :
    (IsNamed [[], [43]] infNames s → Str.toDecimal ops s = .ok ops.inf) ∧
    (IsNamed [[45]] infNames s → Str.toDecimal ops s = .ok ops.negInf) ∧
    (IsNamed [[], [43], [45]] nanNames s → Str.toDecimal ops s = .ok ops.nan) := by
  have d1 : ∀ s ∈ Str.negInfs, Str.posInfs.any (· == s) = false := by decide +kernel
  have d2 : ∀ s ∈ Str.nans, Str.posInfs.any (· == s) = false ∧ Str.negInfs.any (· == s) = false := by decide +kernel
  rw [← posInfs_iff, ← negInfs_iff, ← nans_iff]
  unfold Str.toDecimal
  refine ⟨fun h => ?_, fun h => ?_, fun h => ?_⟩
  · rw [if_pos h]; rfl
  · have hm : s ∈ Str.negInfs := by simpa using h
    rw [if_neg (by rw [d1 s hm]; simp), if_pos h]; rfl
  · have hm : s ∈ Str.nans := by simpa using h
    rw [if_neg (by rw [(d2 s hm).1]; simp), if_neg (by rw [(d2 s hm).2]; simp), if_pos h]; rfl

/-- C24: a text of the grammar whose exponent fits `int` is accepted, and the value is computed from the parts it denotes
(whatever the operations of `double` do). -/
theorem C24_accept_partial {D : Type} (ops : Str.DoubleOps D) (s : List UInt8) (hs : s.length ≤ maxLen) (σ : Int)
    (ds fs : List UInt8) (τ : Int) (es : List UInt8) (h : DecText s σ ds fs τ es) (he : (numeralIn 10 es : Int) ≤ INT_MAX) :
    Str.toDecimal ops s = .ok (decValue ops σ ds fs τ es) := by
  obtain ⟨st, ha, e⟩ := (fsmD_complete h).1 he
  have hsp : ¬ IsSpecial s := by
    intro hs; obtain ⟨v, e'⟩ := special_other s hs
    rw [e] at e'; cases e'; simp at ha
  rw [toDecimal_eq ops s hs hsp, e]
  simp only [if_pos ha]

/-- C24: the grammar is unambiguous up to the size of exponents. -/
theorem C24_unique (s : List UInt8) (σ σ' : Int) (ds fs ds' fs' : List UInt8) (τ τ' : Int) (es es' : List UInt8)
    (h : DecText s σ ds fs τ es) (h' : DecText s σ' ds' fs' τ' es') (he : (numeralIn 10 es : Int) ≤ INT_MAX) :
    (σ, ds, fs, τ, es) = (σ', ds', fs', τ', es') := by
  obtain ⟨st, -, e⟩ := (fsmD_complete h).1 he
  by_cases he' : (numeralIn 10 es' : Int) ≤ INT_MAX
  · obtain ⟨st', -, e'⟩ := (fsmD_complete h').1 he'
    rw [e] at e'; cases e'; rfl
  · have := (fsmD_complete h').2 (by omega) []
    rw [List.append_nil, e] at this; cases this

/-- C24: a text outside the language throws, unless it starts with a decimal text whose exponent does not fit `int`. -/
theorem C24_reject_partial {D : Type} (ops : Str.DoubleOps D) (s : List UInt8) (hs : s.length < maxLen) (h1 : ¬ IsSpecial s)
    (h2 : ∀ σ ds fs τ es, ¬ DecText s σ ds fs τ es) (h3 : ¬ BigExponent s) :
    Str.toDecimal ops s = .throw "Error: Invalid literal for to_decimal()." := by
  have hp := fsmD_sound s .start {} [] ⟨by simp, rfl⟩
  rw [toDecimal_eq ops s (by omega) h1]
  rw [List.nil_append] at hp
  cases hr : fsmD s .start {} with
  | none => rw [hr] at hp; exact absurd hp h3
  | some r =>
    rw [hr] at hp
    obtain ⟨st, v⟩ := r
    simp only at hp ⊢
    rw [if_neg (fun ha => h2 _ _ _ _ _ (hp.accept ha))]
    split
    · rw [leaveLoop_ok hs, Res.ok_bind]
    · rfl

/-- C24 is false of the code for exponents beyond `INT_MAX`: undefined behaviour, even if the text is malformed further on. -/
theorem C24_overflow_not {D : Type} (ops : Str.DoubleOps D) (s : List UInt8) (hs : s.length ≤ maxLen) (h : BigExponent s) :
    Str.toDecimal ops s = .ub .overflow := by
  obtain ⟨p, q, σ, ds, fs, τ, es, rfl, hd, hgt⟩ := h
  have e := (fsmD_complete hd).2 hgt q
  have hsp : ¬ IsSpecial (p ++ q) := by
    intro hs; obtain ⟨v, e'⟩ := special_other _ hs
    rw [e] at e'; cases e'
  rw [toDecimal_eq ops _ hs hsp, e]

/-- C24 is false: "1e2147483648". -/
theorem C24_overflow_not_witness {D : Type} (ops : Str.DoubleOps D) :
    Str.toDecimal ops [49, 101, 50, 49, 52, 55, 52, 56, 51, 54, 52, 56] = .ub .overflow := by
  apply C24_overflow_not ops _ (by simp [maxLen])
  refine ⟨[49, 101, 50, 49, 52, 55, 52, 56, 51, 54, 52, 56], [], 1, [49], [], 1, [50, 49, 52, 55, 52, 56, 51, 54, 52, 56], by simp,
    ?_, by decide +kernel⟩
  exact DecText.mk [] [] [49] (101 :: ([] ++ [50, 49, 52, 55, 52, 56, 51, 54, 52, 56])) [] 1 [49] [] 1 _ (by simp) .none
    (.int [49] (by simp) (by decide)) (.some 101 [] _ 1 (.inl rfl) .none (by simp) (by decide)) (by simp)

/-- C24 is false of the code for a string of `INT_MAX` characters that the machine leaves early, as for `to_integer`. -/
theorem C24_reject_not {D : Type} (ops : Str.DoubleOps D) : Str.toDecimal ops (List.replicate maxLen 33) = .ub .overflow := by
  obtain ⟨n, hn⟩ : ∃ n, maxLen = n + 1 := ⟨maxLen - 1, by unfold maxLen; omega⟩
  have hr : fsmD (List.replicate maxLen 33) .start {} = some (.other, {}) := by
    rw [hn, List.replicate_succ, fsmD_cons (show evOf 10 33 = .other by decide)]
  have hsp : ¬ IsSpecial (List.replicate maxLen 33) := by
    have key : ∀ s ∈ Str.posInfs ++ Str.negInfs ++ Str.nans, s.head? ≠ some 33 := by decide +kernel
    intro h
    have hm : List.replicate maxLen 33 ∈ Str.posInfs ++ Str.negInfs ++ Str.nans := by
      simp only [List.mem_append]
      rcases h with h | h | h
      · have := (posInfs_iff _).2 h
        obtain ⟨x, hx, e⟩ := List.any_eq_true.1 this
        rw [beq_iff_eq.1 e] at hx; tauto
      · have := (negInfs_iff _).2 h
        obtain ⟨x, hx, e⟩ := List.any_eq_true.1 this
        rw [beq_iff_eq.1 e] at hx; tauto
      · have := (nans_iff _).2 h
        obtain ⟨x, hx, e⟩ := List.any_eq_true.1 this
        rw [beq_iff_eq.1 e] at hx; tauto
    apply key _ hm
    rw [hn, List.replicate_succ]; rfl
  rw [toDecimal_eq ops _ (by rw [List.length_replicate]) hsp, hr]
  simp only [reduceCtorEq, or_self, if_false, if_true]
  rw [leaveLoop_max (List.length_replicate ..), Res.ub_bind]

/-- Exact rational arithmetic as an interpretation of `double` (the special values are arbitrary). -/
def ratOps : Str.DoubleOps ℚ where
  ofInt n := n
  mul a b := a * b
  div a b := a / b
  add a b := a + b
  pow10 q := (10 : ℚ) ^ q.num
  inf := 0
  negInf := 0
  nan := 0

theorem evalDigits_rat (ds : List UInt8) : evalDigits ratOps ds = (numeralIn 10 ds : ℚ) := by
  induction ds using List.reverseRecOn with
  | nil => simp [evalDigits, numeralIn, ratOps]
  | append_singleton ds c ih =>
    rw [evalDigits_snoc, ih, numeralIn_snoc]
    simp only [ratOps]
    push_cast
    ring

/-- C24 with exact arithmetic: the value is the decimal number written. -/
theorem C24_exact_partial (s : List UInt8) (hs : s.length ≤ maxLen) (σ : Int) (ds fs : List UInt8) (τ : Int) (es : List UInt8)
    (h : DecText s σ ds fs τ es) (he : (numeralIn 10 es : Int) ≤ INT_MAX) :
    Str.toDecimal ratOps s =
      .ok (σ * ((numeralIn 10 (ds ++ fs) : ℚ) / 10 ^ fs.length * (10 : ℚ) ^ (τ * (numeralIn 10 es : Nat)))) := by
  rw [C24_accept_partial ratOps s hs σ ds fs τ es h he]
  apply congrArg Res.ok
  unfold decValue
  rw [evalDigits_rat]
  simp only [ratOps]
  have h1 : ((τ : ℚ) * (((numeralIn 10 es : Nat) : Int) : ℚ)).num = τ * (numeralIn 10 es : Nat) := by
    rw [← Int.cast_mul, Rat.num_intCast]
  rw [h1, Rat.num_intCast, zpow_natCast]

-- " -12.5e-1"
example : DecText [32, 45, 49, 50, 46, 53, 101, 45, 49] (-1) [49, 50] [53] (-1) [49] :=
  DecText.mk [32] [45] ([49, 50] ++ 46 :: [53]) (101 :: ([45] ++ [49])) [] (-1) [49, 50] [53] (-1) [49] (by decide) .minus
    (.full _ _ (by simp) (by decide) (by decide)) (.some 101 [45] [49] (-1) (.inl rfl) .minus (by simp) (by decide)) (by simp)
example : IsNamed [[45]] infNames [45, 105, 110, 102] := ⟨[45], by simp, "inf", by simp [infNames], by decide⟩
-- "1e", "."
example : Str.toDecimal ratOps [49, 101] = .throw "Error: Invalid literal for to_decimal()." := by decide +kernel
example : Str.toDecimal ratOps [46] = .throw "Error: Invalid literal for to_decimal()." := by decide +kernel

end Pyincpp
