import Verif.Proof.IntMisc
import Verif.Proof.IntText
import Verif.Spec.IntProgram
import Verif.Props.IntBasic

/-! # C05, C10–C22: self assignment, histories, number theory, conversions -/

namespace Pyincpp

/-! ## C05 -/

/-- C05 is false: `x = 5; x += x` leaves 20. -/
theorem C05_fails : BInt.addAssign .lenient true 1 (enc 5) (enc 5) = .ok (enc 20) ∧
    Returns (fun k => BInt.add .lenient k (enc 5) (enc 5)) (enc 10) := by
  refine ⟨?_, C03_add 5 5⟩
  have h5 : enc 5 = ⟨1, [5]⟩ := by simp [enc]
  have h20 : enc 20 = ⟨1, [0, 2]⟩ := by simp [enc]
  rw [h5, h20]; decide

/-- C05, exact extent for `+=`: `x += x` gives `2x` plus an excess that is zero exactly when every digit of `x` is at
most 4; by the standard it is undefined behaviour for every `x ≠ 0`. -/
theorem C05_add_self_exact (x : ℤ) (hx : x ≠ 0) :
    HitsUB (fun k => BInt.addAssign .strict true k (enc x) (enc x)) .outOfBounds ∧
    ∃ e : ℤ, 0 ≤ e ∧ (e = 0 ↔ ∀ d ∈ (enc x).chunks, d ≤ 4) ∧
      Returns (fun k => BInt.addAssign .lenient true k (enc x) (enc x)) (enc (x.sign * (2 * |x| + e))) := by
  obtain ⟨h1, e, he, hiff, -, h2⟩ := addSame_self hx
  have hs : (enc x).sign ≠ 0 := by
    rw [enc_sign]; intro h; exact hx (Int.sign_eq_zero_iff_zero.mp h)
  have hu : ∀ mem k, 1 ≤ k → BInt.addAssign mem true k (enc x) (enc x) = BInt.addSame mem true (enc x) (enc x) := by
    intro mem k hk
    obtain ⟨j, rfl⟩ : ∃ j, k = j + 1 := ⟨k - 1, by omega⟩
    rw [BInt.addAssign, if_neg (by tauto), if_neg (by simp)]
  exact ⟨⟨1, fun k hk => (hu _ k hk).trans h1⟩, e, he, hiff, 1, fun k hk => (hu _ k hk).trans h2⟩

/-- C05 for the other four operators, and for `+=` when no digit exceeds 4. The missing part is what
`C05_add_self_exact` shows to be false. -/
theorem C05_self_partial (x : ℤ) :
    ((∀ d ∈ (enc x).chunks, d ≤ 4) → Returns (fun k => BInt.addAssign .lenient true k (enc x) (enc x)) (enc (x + x))) ∧
    Returns (fun k => BInt.subAssign .lenient k (enc x) (enc x)) (enc 0) ∧
    BInt.mulAssign (enc x) (enc x) = .ok (enc (x * x)) ∧
    (x ≠ 0 → Returns (fun k => BInt.divAssign .lenient k (enc x) (enc x)) (enc 1)) ∧
    (x ≠ 0 → Returns (fun k => BInt.modAssign .lenient k (enc x) (enc x)) (enc 0)) := by
  refine ⟨fun h => ?_, ?_, mul_enc x x, fun hx => ?_, fun hx => ?_⟩
  · by_cases hx : x = 0
    · subst hx
      refine ⟨1, fun k hk => ?_⟩
      obtain ⟨j, rfl⟩ : ∃ j, k = j + 1 := ⟨k - 1, by omega⟩
      beta_reduce
      rw [BInt.addAssign, if_pos (by rw [enc_sign]; simp)]
      simp [enc_zero]
    · obtain ⟨-, e, -, hiff, hr⟩ := C05_add_self_exact x hx
      rw [hiff.mpr h, add_zero, mul_left_comm, Int.sign_mul_abs, two_mul] at hr
      exact hr
  · have := C03_sub x x
    rw [sub_self] at this; exact this
  · have := C07_div x x hx
    rw [Int.tdiv_self hx] at this; exact this
  · have := C08_mod_exact x x hx
    rw [if_neg (lt_irrefl _), Int.emod_self] at this; exact this

-- 42 has only digits ≤ 4; 57 has not.
example : ∀ d ∈ (enc 42).chunks, d ≤ 4 := by simp [enc]
example : BInt.addAssign .lenient true 1 ⟨1, [2, 4]⟩ ⟨1, [2, 4]⟩ = .ok ⟨1, [4, 8]⟩ := by decide
example : BInt.addAssign .lenient true 1 ⟨1, [7, 5]⟩ ⟨1, [7, 5]⟩ ≠ .ok ⟨1, [4, 1, 1]⟩ := by decide
example : BInt.addAssign .strict true 1 ⟨1, [2, 4]⟩ ⟨1, [2, 4]⟩ = .ub .outOfBounds := by decide

/-! ## C10 -/

theorem enc_upd (σ : ℕ → ℤ) (i : ℕ) (z : ℤ) : upd (fun n => enc (σ n)) i (enc z) = fun n => enc (upd σ i z n) := by
  funext n; unfold upd; split <;> rfl

/-- A computation whose outcome is, for all fuels from 11 on, the same canonical value or the same exception. -/
def Settles (f : ℕ → Res BInt) : Prop :=
  (∃ z, ∀ k, 11 ≤ k → f k = .ok (enc z)) ∨ (∃ m, ∀ k, 11 ≤ k → f k = .throw m)

theorem run_settles (o : IntBin) (x y : ℤ) : Settles (fun k => o.run .lenient k (enc x) (enc y)) := by
  cases o
  · exact Or.inl ⟨_, fun k hk => add_enc (by omega) x y⟩
  · exact Or.inl ⟨_, fun k hk => sub_enc (by omega) x y⟩
  · exact Or.inl ⟨_, fun k hk => mul_enc x y⟩
  · by_cases hy : y = 0
    · subst hy; exact Or.inr ⟨_, fun k _ => div_by_zero _ k x⟩
    · exact Or.inl ⟨_, fun k hk => div_enc hk x hy⟩
  · by_cases hy : y = 0
    · subst hy; exact Or.inr ⟨_, fun k _ => mod_by_zero _ k x⟩
    · exact Or.inl ⟨_, fun k hk => mod_enc hk x hy⟩

theorem runAssign_eq_run (o : IntBin) (mem : Mem) (k : ℕ) (x y : BInt) :
    o.runAssign mem k false x y = o.run mem k x y := by cases o <;> rfl

theorem runAssign_eq_run' (o : IntBin) (ho : o ≠ .add) (b : Bool) (mem : Mem) (k : ℕ) (x y : BInt) :
    o.runAssign mem k b x y = o.run mem k x y := by cases o <;> first | rfl | exact absurd rfl ho

theorem addAssign_self_settles (x : ℤ) :
    ∃ z, (∀ k, 11 ≤ k → BInt.addAssign .lenient true k (enc x) (enc x) = .ok (enc z)) ∧
      ((∀ d ∈ (enc x).chunks, d ≤ 4) → z = x + x) := by
  have key : ∀ k, 11 ≤ k → BInt.addAssign .lenient true k (enc x) (enc x) = BInt.addAssign .lenient true 1 (enc x) (enc x) := by
    intro k hk
    obtain ⟨j, rfl⟩ : ∃ j, k = j + 1 := ⟨k - 1, by omega⟩
    rw [BInt.addAssign, BInt.addAssign]; simp
  by_cases hx : x = 0
  · obtain ⟨N, h⟩ := (C05_self_partial x).1 (by subst hx; simp [enc_zero])
    refine ⟨x + x, fun k hk => ?_, fun _ => rfl⟩
    rw [key k hk, ← key (max 11 N) (le_max_left _ _)]
    exact h _ (le_max_right _ _)
  · obtain ⟨-, e, -, hiff, N, h⟩ := C05_add_self_exact x hx
    refine ⟨x.sign * (2 * |x| + e), fun k hk => ?_, fun hd => ?_⟩
    · rw [key k hk, ← key (max 11 N) (le_max_left _ _)]
      exact h _ (le_max_right _ _)
    · rw [hiff.mpr hd, add_zero, mul_left_comm, Int.sign_mul_abs, two_mul]

theorem assign_settles (o : IntBin) (i j : ℕ) (σ : ℕ → ℤ) :
    Settles (fun k => o.runAssign .lenient k (i == j) (enc (σ i)) (enc (σ j))) := by
  by_cases hs : o = .add ∧ i = j
  · obtain ⟨rfl, rfl⟩ := hs
    obtain ⟨z, hz, -⟩ := addAssign_self_settles (σ i)
    refine Or.inl ⟨z, fun k hk => ?_⟩
    simp only [beq_self_eq_true]
    exact hz k hk
  · have := run_settles o (σ i) (σ j)
    have e : (fun k => o.runAssign .lenient k (i == j) (enc (σ i)) (enc (σ j))) =
        fun k => o.run .lenient k (enc (σ i)) (enc (σ j)) := by
      funext k
      by_cases ho : o = .add
      · have hij : (i == j) = false := by simp; tauto
        rw [hij, runAssign_eq_run]
      · exact runAssign_eq_run' o ho _ _ _ _ _
    rw [e]; exact this

theorem step_canonical (σ : ℕ → ℤ) (o : IntOp) (ho : ∀ i, o ≠ .int i INT_MIN) (ho' : ∀ i n, o = .int i n → IsInt n) :
    ∃ σ' : ℕ → ℤ, ∀ k, 11 ≤ k → o.step .lenient k (fun n => enc (σ n)) = .ok (fun n => enc (σ' n)) := by
  have st : ∀ i (f : ℕ → Res BInt), Settles f →
      ∃ σ' : ℕ → ℤ, ∀ k, 11 ≤ k → store (fun n => enc (σ n)) i (f k) = .ok (fun n => enc (σ' n)) := by
    rintro i f (⟨z, hz⟩ | ⟨m, hm⟩)
    · exact ⟨upd σ i z, fun k hk => by rw [hz k hk, ← enc_upd]; rfl⟩
    · exact ⟨σ, fun k hk => by rw [hm k hk]; rfl⟩
  have stc : ∀ i (r : Res BInt), (∃ z, r = .ok (enc z)) ∨ (∃ m, r = .throw m) →
      ∃ σ' : ℕ → ℤ, ∀ k, 11 ≤ k → store (fun n => enc (σ n)) i r = .ok (fun n => enc (σ' n)) := by
    rintro i r (⟨z, hz⟩ | ⟨m, hm⟩)
    · exact st i (fun _ => r) (Or.inl ⟨z, fun _ _ => hz⟩)
    · exact st i (fun _ => r) (Or.inr ⟨m, fun _ _ => hm⟩)
  cases o with
  | lit i t =>
    apply stc
    by_cases h : ∃ z, Literal t z
    · obtain ⟨z, h⟩ := h
      exact Or.inl ⟨z, ofChars_literal h⟩
    · exact Or.inr ⟨_, ofChars_not_literal h⟩
  | int i n =>
    apply stc
    exact Or.inl ⟨n, ofInt_enc (ho' i n rfl) (by intro h; exact ho i (by rw [h]))⟩
  | copy i j => exact ⟨_, fun k _ => congrArg _ (enc_upd σ i (σ j))⟩
  | move i j =>
    refine ⟨upd (upd σ i (σ j)) j 0, fun k _ => ?_⟩
    rw [← enc_upd, ← enc_upd, enc_zero]; rfl
  | bin o i j l => exact st _ _ (run_settles o (σ j) (σ l))
  | assign o i j => exact st _ _ (assign_settles o i j σ)
  | inc i => exact stc _ _ (Or.inl ⟨_, inc_enc (σ i)⟩)
  | dec i => exact stc _ _ (Or.inl ⟨_, dec_enc (σ i)⟩)
  | neg i j => exact ⟨upd σ i (-σ j), fun k _ => by rw [← enc_upd, ← neg_enc]; rfl⟩
  | abs i j => exact ⟨upd σ i |σ j|, fun k _ => by rw [← enc_upd, ← abs_enc]; rfl⟩

/-- C10, canonical form: after *any* program (no `Int(INT_MIN)`, which is undefined), every variable holds the
canonical representation of some integer – in particular no program crashes or hangs. -/
theorem C10_canonical (prog : List IntOp) (σ : ℕ → ℤ) (hmin : ∀ i, IntOp.int i INT_MIN ∉ prog)
    (hint : ∀ i n, IntOp.int i n ∈ prog → IsInt n) :
    ∃ σ' : ℕ → ℤ, Returns (fun k => IntOp.run .lenient k prog (fun n => enc (σ n))) (fun n => enc (σ' n)) := by
  suffices h : ∃ σ' : ℕ → ℤ, ∀ k, 11 ≤ k → IntOp.run .lenient k prog (fun n => enc (σ n)) = .ok (fun n => enc (σ' n)) by
    obtain ⟨σ', h⟩ := h
    exact ⟨σ', 11, h⟩
  induction prog generalizing σ with
  | nil => exact ⟨σ, fun k _ => rfl⟩
  | cons o os ih =>
    obtain ⟨σ₁, h₁⟩ := step_canonical σ o (fun i h => hmin i (by simp [h])) (fun i n h => hint i n (by simp [h]))
    obtain ⟨σ₂, h₂⟩ := ih σ₁ (fun i h => hmin i (by simp [h])) (fun i n h => hint i n (by simp [h]))
    refine ⟨σ₂, fun k hk => ?_⟩
    rw [IntOp.run, h₁ k hk]
    exact h₂ k hk

theorem run_math {k : ℕ} (hk : 11 ≤ k) (σ : ℕ → ℤ) (i : ℕ) (o : IntBin) (x y : ℤ) (hmod : o = .mod → 0 ≤ x) :
    store (fun n => enc (σ n)) i (o.run .lenient k (enc x) (enc y)) = .ok (fun n => enc (mstore σ i (o.math x y) n)) := by
  have s : ∀ (r : Res BInt) (z : ℤ), r = .ok (enc z) →
      store (fun n => enc (σ n)) i r = .ok (fun n => enc (mstore σ i (some z) n)) := by
    rintro r z rfl
    change _ = Res.ok (fun n => enc (upd σ i z n))
    rw [← enc_upd]; rfl
  have t : ∀ (r : Res BInt) (m : String), r = .throw m →
      store (fun n => enc (σ n)) i r = .ok (fun n => enc (mstore σ i none n)) := by
    rintro r z rfl; rfl
  cases o
  · exact s _ _ (add_enc (by omega) x y)
  · exact s _ _ (sub_enc (by omega) x y)
  · exact s _ _ (mul_enc x y)
  · by_cases hy : y = 0
    · subst hy; exact t _ _ (div_by_zero _ k x)
    · simp only [IntBin.math, hy, if_false]; exact s _ _ (div_enc hk x hy)
  · by_cases hy : y = 0
    · subst hy; exact t _ _ (mod_by_zero _ k x)
    · simp only [IntBin.math, hy, if_false]
      refine s _ _ ?_
      rw [← codeMod_of_nonneg (hmod rfl)]
      exact mod_enc hk x hy

/-- C10, values: a program without the three defective statements (`IntOp.Fair`) computes in every variable what the
same statements give on mathematical integers. Missing: the defective statements, see `C05_fails`, `C08_fails` and
`C21_fails`. -/
theorem C10_history_partial (prog : List IntOp) (σ σ' : ℕ → ℤ) (h : IntOp.FairRun prog σ σ') :
    Returns (fun k => IntOp.run .lenient k prog (fun n => enc (σ n))) (fun n => enc (σ' n)) := by
  refine ⟨11, fun k hk => ?_⟩
  beta_reduce
  induction h with
  | nil => rfl
  | @cons o os σ σ₁ σ₂ hf hm _ ih =>
    have s : ∀ i (r : Res BInt) (z : ℤ), r = .ok (enc z) →
        store (fun n => enc (σ n)) i r = .ok (fun n => enc (upd σ i z n)) := by
      rintro i r z rfl
      rw [← enc_upd]; rfl
    have hstep : o.step .lenient k (fun n => enc (σ n)) = .ok (fun n => enc (σ₁ n)) := by
      cases hm with
      | lit hl => exact s _ _ _ (ofChars_literal hl)
      | litBad hl => rw [IntOp.step, ofChars_not_literal hl]; rfl
      | int hi => exact s _ _ _ (ofInt_enc hi hf)
      | copy => rw [← enc_upd]; rfl
      | move => rw [← enc_upd, ← enc_upd, enc_zero]; rfl
      | @bin o i j l => exact run_math hk σ i o _ _ (by rintro rfl; exact hf)
      | @assign o i j =>
        by_cases ho : o = .add
        · subst ho
          by_cases hij : i = j
          · subst hij
            obtain ⟨z, hz, h2⟩ := addAssign_self_settles (σ i)
            refine s _ _ _ ?_
            rw [← h2 (hf rfl)]
            simp only [beq_self_eq_true]
            exact hz k hk
          · have e : (i == j) = false := by simpa using hij
            rw [IntOp.step, e, runAssign_eq_run]
            exact run_math hk σ i .add _ _ (by simp)
        · rw [IntOp.step, runAssign_eq_run' o ho]
          exact run_math hk σ i o _ _ (by rintro rfl; exact hf)
      | inc => exact s _ _ _ (inc_enc _)
      | dec => exact s _ _ _ (dec_enc _)
      | neg => rw [← enc_upd, ← neg_enc]; rfl
      | abs => rw [← enc_upd, ← abs_enc]; rfl
    rw [IntOp.run, hstep]
    exact ih

/-- C10: the representation is unique, so `==`, equal text and equal representation are the same thing; equal
values hash equally whatever the library hashes are. -/
theorem C10_equal_iff (x y : ℤ) :
    (BInt.eq (enc x) (enc y) = true ↔ x = y) ∧ (enc x = enc y ↔ x = y) ∧
    (BInt.print (enc x) = BInt.print (enc y) ↔ x = y) ∧
    (x = y → ∀ h8 h32, BInt.hash h8 h32 (enc x) = BInt.hash h8 h32 (enc y)) := by
  refine ⟨C09_eq x y, ⟨fun h => enc_injective h, fun h => by rw [h]⟩, ⟨fun h => ?_, fun h => by rw [h]⟩, fun h _ _ => by rw [h]⟩
  obtain ⟨t, h1, h2⟩ := C02_print_parse x
  obtain ⟨t', h1', h2'⟩ := C02_print_parse y
  rw [h1, h1'] at h
  cases h
  rw [h2] at h2'
  exact enc_injective (Res.ok.inj h2')

-- a program meeting the hypotheses: a = 17; b = "-5"; c = a / b; c -= a; ++c
example : IntOp.FairRun [.int 0 17, .lit 1 [45, 53], .bin .div 2 0 1, .assign .sub 2 0, .inc 2] (fun _ => 0)
    (upd (upd (upd (upd (upd (fun _ => 0) 0 17) 1 (-5)) 2 (-3)) 2 (-20)) 2 (-19)) := by
  refine .cons (σ₁ := upd (fun _ => 0) 0 17) (by simp [IntOp.Fair, INT_MIN]) (.int (by decide)) ?_
  refine .cons (by trivial) (.lit (Literal.minus [53] (by simp) (by simp [IsDigit]))) ?_
  refine .cons (by trivial) .bin ?_
  refine .cons (by trivial) .assign ?_
  exact .cons (by trivial) .inc .nil

/-! ## C11 -/

/-- C11: `++` adds and `--` subtracts exactly one. -/
theorem C11_inc_dec (x : ℤ) : BInt.inc (enc x) = .ok (enc (x + 1)) ∧ BInt.dec (enc x) = .ok (enc (x - 1)) :=
  ⟨inc_enc x, dec_enc x⟩

example : BInt.inc ⟨1, [9, 9]⟩ = .ok ⟨1, [0, 0, 1]⟩ := by decide
example : BInt.inc ⟨-1, [1]⟩ = .ok ⟨0, []⟩ := by decide
example : BInt.dec ⟨1, [0, 0, 1]⟩ = .ok ⟨1, [9, 9]⟩ := by decide

/-! ## C12 -/

/-- C12: the inspectors, absolute value and negation. `digits` is the least number of decimal places that hold `|x|`. -/
theorem C12_inspectors (x : ℤ) :
    (∃ d : ℕ, BInt.digits (enc x) = .ok (d : ℤ) ∧ (∀ n : ℕ, d ≤ n ↔ |x| < 10 ^ n)) ∧
    (BInt.isZero (enc x) = true ↔ x = 0) ∧ (BInt.isPositive (enc x) = true ↔ 0 < x) ∧
    (BInt.isNegative (enc x) = true ↔ x < 0) ∧ BInt.isEven (enc x) = .ok (decide (x % 2 = 0)) ∧
    BInt.isOdd (enc x) = .ok (decide (x % 2 = 1)) ∧ BInt.abs (enc x) = enc |x| ∧ BInt.neg (enc x) = enc (-x) := by
  refine ⟨⟨_, digits_enc x, fun n => enc_length_le_iff x n⟩, ?_, ?_, ?_, isEven_enc x, isOdd_enc x, abs_enc x, neg_enc x⟩
  · rw [isZero_enc]; simp
  · rw [isPositive_enc]; simp
  · rw [isNegative_enc]; simp

example : BInt.digits ⟨-1, [7, 0, 3]⟩ = .ok 3 := by decide
example : BInt.digits ⟨0, []⟩ = .ok 0 := by decide

/-! ## C13 -/

/-- C13: `is_prime` terminates and decides primality. -/
theorem C13_is_prime (z : ℤ) :
    Returns (fun k => BInt.isPrime .lenient k (enc z)) (decide (0 < z ∧ Nat.Prime z.toNat)) := by
  refine ⟨z.toNat + 11, fun k hk => ?_⟩
  beta_reduce
  rw [isPrime_enc hk]
  congr 1
  rw [decide_eq_decide]
  constructor
  · intro h
    exact ⟨by have := h.pos; omega, h⟩
  · exact fun h => h.2

example : BInt.isPrime .lenient 30 ⟨1, [7, 1]⟩ = .ok true := by decide +kernel
example : BInt.isPrime .lenient 30 ⟨1, [5, 1]⟩ = .ok false := by decide +kernel

/-! ## C14 -/

/-- C14: `next_prime` terminates and returns the least prime above `z`. -/
theorem C14_next_prime (z : ℤ) : ∃ p : ℕ, p.Prime ∧ z < p ∧ (∀ q : ℕ, q.Prime → z < q → p ≤ q) ∧
    Returns (fun k => BInt.nextPrime .lenient k (enc z)) (enc p) := by
  classical
  have hex : ∃ p : ℕ, p.Prime ∧ z < p := by
    obtain ⟨p, hp, hpp⟩ := Nat.exists_infinite_primes (z.toNat + 1)
    exact ⟨p, hpp, by omega⟩
  refine ⟨Nat.find hex, (Nat.find_spec hex).1, (Nat.find_spec hex).2, fun q hq hz => Nat.find_min' hex ⟨hq, hz⟩,
    Nat.find hex + 11, fun k hk => ?_⟩
  refine nextPrime_enc (Nat.find_spec hex).1 (Nat.find_spec hex).2 ?_ hk
  intro q hz hlt hq
  exact Nat.find_min hex hlt ⟨hq, hz⟩

example : BInt.nextPrime .lenient 30 ⟨1, [4, 1]⟩ = .ok ⟨1, [7, 1]⟩ := by decide +kernel

/-! ## C15 -/

/-- C15: the factorial of a natural number. -/
theorem C15_factorial (n : ℕ) : Returns (fun k => BInt.factorial k (enc n)) (enc n.factorial) :=
  ⟨n + 1, fun _ hk => factorial_enc hk⟩

/-- C15: negative integers throw. -/
theorem C15_factorial_neg (k : ℕ) (z : ℤ) (h : z < 0) :
    BInt.factorial k (enc z) = .throw "Error: Negative integer have no factorial." := factorial_neg k h

example : BInt.factorial 6 ⟨1, [5]⟩ = .ok ⟨1, [0, 2, 1]⟩ := by decide

/-! ## C16

The property is false of the code: the Newton iteration oscillates when `x + 1` is a perfect square. -/

/-- C16 is false: `sqrt(8)` never returns. -/
theorem C16_fails : Diverges (fun k => BInt.sqrt .lenient k (enc 8)) :=
  ⟨11, fun _ hk => sqrt_bad (n := 8) (by norm_num) ⟨3, by norm_num⟩ hk⟩

/-- C16, exact extent: for `n ≥ 0` the call hangs exactly when `n ≥ 4` and `n + 1` is a perfect square; otherwise it
returns the integer square root. -/
theorem C16_sqrt_exact (n : ℕ) :
    ((4 ≤ n ∧ ∃ m, n + 1 = m * m) → Diverges (fun k => BInt.sqrt .lenient k (enc n))) ∧
    (¬ (4 ≤ n ∧ ∃ m, n + 1 = m * m) →
      ∃ r : ℕ, r * r ≤ n ∧ n < (r + 1) * (r + 1) ∧ Returns (fun k => BInt.sqrt .lenient k (enc n)) (enc r)) := by
  constructor
  · intro h
    exact ⟨11, fun _ hk => sqrt_bad h.1 h.2 hk⟩
  · intro h
    refine ⟨Nat.sqrt n, Nat.sqrt_le n, Nat.lt_succ_sqrt n, ?_⟩
    by_cases h4 : 4 ≤ n
    · exact sqrt_good h4 (by intro hb; exact h ⟨h4, hb⟩)
    · exact ⟨0, fun _ _ => sqrt_small (by omega)⟩

/-- C16 for all `n ≥ 0` for which `n + 1` is no perfect square (and for `n < 4`). Missing: the inputs on which the
code hangs, see `C16_sqrt_exact`. -/
theorem C16_sqrt_partial (n : ℕ) (h : n < 4 ∨ ¬ ∃ m, n + 1 = m * m) :
    ∃ r : ℕ, r * r ≤ n ∧ n < (r + 1) * (r + 1) ∧ Returns (fun k => BInt.sqrt .lenient k (enc n)) (enc r) := by
  refine (C16_sqrt_exact n).2 ?_
  rintro ⟨h1, h2⟩
  rcases h with h | h
  · omega
  · exact h h2

/-- C16: negative integers throw. -/
theorem C16_sqrt_neg (mem : Mem) (k : ℕ) (z : ℤ) (h : z < 0) :
    BInt.sqrt mem k (enc z) = .throw "Error: Cannot compute square root of a negative integer." := sqrt_neg h

example : (10 : ℕ) < 4 ∨ ¬ ∃ m, 10 + 1 = m * m := by
  right; rintro ⟨m, hm⟩
  have : m < 4 := by nlinarith
  interval_cases m <;> omega
example : BInt.sqrt .lenient 20 ⟨1, [0, 1]⟩ = .ok ⟨1, [3]⟩ := by decide +kernel
example : BInt.sqrt .lenient 20 ⟨1, [8]⟩ = .fuel := by decide +kernel

/-! ## C17 -/

/-- C17: `pow(b, e)` for `e ≥ 0` (the default modulus is 0). -/
theorem C17_pow (b : ℤ) (e : ℕ) : Returns (fun k => BInt.pow .lenient k (enc b) (enc e) (enc 0)) (enc (b ^ e)) :=
  ⟨e + 11, fun _ hk => pow_plain hk⟩

/-- C17: `pow(b, e)` for `e < 0`. -/
theorem C17_pow_neg (b e : ℤ) (he : e < 0) (k : ℕ) :
    (b = 1 → BInt.pow .lenient k (enc b) (enc e) (enc 0) = .ok (enc 1)) ∧
    (b = -1 → BInt.pow .lenient k (enc b) (enc e) (enc 0) = .ok (enc (if Even e then 1 else -1))) ∧
    (1 < |b| → BInt.pow .lenient k (enc b) (enc e) (enc 0) = .ok (enc 0)) ∧
    (b = 0 → BInt.pow .lenient k (enc b) (enc e) (enc 0) = .throw "Error: Math domain error.") := by
  rw [pow_shape]
  refine ⟨?_, ?_, ?_, ?_⟩
  · rintro rfl; simp
  · rintro rfl
    rw [if_pos (by simp)]
    by_cases h : Even e
    · have := Int.even_iff.mp h
      rw [if_neg (by omega), if_pos h]
    · have : e % 2 = 1 := by rw [Int.even_iff] at h; omega
      rw [if_pos ⟨rfl, this⟩, if_neg h]
  · intro h
    rw [if_neg (by omega), if_pos he, if_neg (by rintro rfl; simp at h)]
  · rintro rfl
    simp [he]

example : BInt.pow .lenient 15 ⟨-1, [3]⟩ ⟨1, [3]⟩ ⟨0, []⟩ = .ok ⟨-1, [7, 2]⟩ := by decide +kernel

/-! ## C18

`pow(b, e, m) = (b ** e) % m` is false of the code for negative bases and for `|m| = 1`. -/

/-- C18 is false: `pow(-1, 1, 5)` is -1 although `(-1)**1 % 5` is 1, and `pow(7, 0, 1)` is 1 although `1 % 1` is 0. -/
theorem C18_fails :
    (BInt.pow .lenient 11 (enc (-1)) (enc 1) (enc 5) = .ok (enc (-1)) ∧
      Returns (fun k => BInt.mod .lenient k (enc ((-1) ^ 1)) (enc 5)) (enc 1)) ∧
    (BInt.pow .lenient 11 (enc 7) (enc 0) (enc 1) = .ok (enc 1) ∧
      Returns (fun k => BInt.mod .lenient k (enc (7 ^ 0)) (enc 1)) (enc 0)) := by
  have e1 : enc (-1) = ⟨-1, [1]⟩ := by simp [enc]
  have e5 : enc 5 = ⟨1, [5]⟩ := by simp [enc]
  have e7 : enc 7 = ⟨1, [7]⟩ := by simp [enc]
  have e11 : enc 1 = ⟨1, [1]⟩ := by simp [enc]
  refine ⟨⟨?_, ⟨11, fun k hk => ?_⟩⟩, ⟨?_, ⟨11, fun k hk => ?_⟩⟩⟩
  · rw [e1, e5, e11]; decide
  · beta_reduce
    rw [mod_enc hk _ (by norm_num)]; simp [codeMod, enc]
  · rw [e7, e11, enc_zero]; decide
  · beta_reduce
    rw [mod_enc hk _ (by norm_num)]; simp [codeMod, enc]

/-- C18, a negative base that is no unit: `pow(-2, 17, 100)` is -72 although `(-2)**17 % 100` is 72. -/
theorem C18_fails_negative_base :
    BInt.pow .lenient 28 (enc (-2)) (enc 17) (enc 100) = .ok (enc (-72)) ∧
      Returns (fun k => BInt.mod .lenient k (enc ((-2) ^ 17)) (enc 100)) (enc 72) := by
  have e2 : enc (-2) = ⟨-1, [2]⟩ := by simp [enc]
  have e17 : enc 17 = ⟨1, [7, 1]⟩ := by simp [enc]
  have e100 : enc 100 = ⟨1, [0, 0, 1]⟩ := by simp [enc]
  have e72 : enc (-72) = ⟨-1, [2, 7]⟩ := by simp [enc]
  refine ⟨?_, ⟨11, fun k hk => ?_⟩⟩
  · rw [e2, e17, e100, e72]; decide +kernel
  · beta_reduce
    rw [mod_enc hk _ (by norm_num)]; simp [codeMod, enc]

/-- C18 for a non-negative base, unless `|m| = 1` and (`e = 0` or `b = 1`). -/
theorem C18_pow_mod_partial (b m : ℤ) (e : ℕ) (hm : m ≠ 0) (hb : 0 ≤ b) (h1 : |m| = 1 → e ≠ 0 ∧ b ≠ 1) :
    ∃ r : ℤ, Returns (fun k => BInt.pow .lenient k (enc b) (enc e) (enc m)) (enc r) ∧
      Returns (fun k => BInt.mod .lenient k (enc (b ^ e)) (enc m)) (enc r) ∧ r = b ^ e % |m| := by
  have hmp : 0 < |m| := abs_pos.mpr hm
  have hpow : 0 ≤ b ^ e := pow_nonneg hb e
  have hmod : Returns (fun k => BInt.mod .lenient k (enc (b ^ e)) (enc m)) (enc (b ^ e % |m|)) := by
    refine ⟨11, fun k hk => ?_⟩
    beta_reduce
    rw [mod_enc hk _ hm, codeMod_of_pos hpow, Int.emod_abs]
  refine ⟨b ^ e % |m|, ⟨e + 11, fun k hk => ?_⟩, hmod, rfl⟩
  beta_reduce
  rw [pow_shape]
  by_cases hb1 : |b| = 1
  · have hb1' : b = 1 := by rwa [abs_of_nonneg hb] at hb1
    subst hb1'
    rw [if_pos (by simp), if_neg (by norm_num)]
    have : |m| ≠ 1 := fun h => (h1 h).2 rfl
    rw [one_pow, Int.emod_eq_of_lt (by norm_num) (by omega)]
  · rw [if_neg hb1, if_neg (by omega)]
    obtain ⟨p, q, r, he, hr1, hr2, hr3, hr4, -⟩ := pow_loop_mod (k := k) (b := b) (e := e) hm (by omega) (by have := size_le_self e; omega)
    rw [he]
    simp only [Res.ok_bind, Res.pure_eq]
    congr 2
    by_cases he0 : e = 0
    · rw [hr4 he0, he0, pow_zero, Int.emod_eq_of_lt (by norm_num)]
      have : |m| ≠ 1 := fun h => (h1 h).1 he0
      omega
    · have h3 := hr3 hb
      have h2 := hr2 (by omega)
      rw [abs_of_nonneg h3] at h2 hr1
      rw [abs_of_nonneg hb] at hr1
      rw [← hr1, Int.emod_eq_of_lt h3 h2]

/-- C18 for every base with `|b| ≠ 1` and exponent `≥ 1`: the call terminates and the result is right up to sign. -/
theorem C18_pow_mod_abs (b m : ℤ) (e : ℕ) (hm : m ≠ 0) (hb : |b| ≠ 1) (he : 0 < e) :
    ∃ r : ℤ, Returns (fun k => BInt.pow .lenient k (enc b) (enc e) (enc m)) (enc r) ∧ |r| = |b| ^ e % |m| := by
  refine ⟨powCode m b 1 e, ⟨e + 11, fun k hk => ?_⟩, ?_⟩
  · obtain ⟨p, q, r, he1, -, -, -, -, hr⟩ := pow_loop_mod (k := k) (b := b) (e := e) hm (by omega) (by have := size_le_self e; omega)
    beta_reduce
    rw [pow_shape, if_neg hb, if_neg (by omega), he1, hr]; rfl
  · obtain ⟨p, q, r, -, hr1, hr2, -, -, hr⟩ := pow_loop_mod (k := e + 11) (b := b) (e := e) hm (by omega)
      (by have := size_le_self e; omega)
    rw [← hr, ← hr1, Int.emod_eq_of_lt (abs_nonneg r) (hr2 he)]

example : (7 : ℤ) ≠ 0 ∧ (0:ℤ) ≤ 3 ∧ (|(7:ℤ)| = 1 → (5:ℕ) ≠ 0 ∧ (3:ℤ) ≠ 1) := by norm_num
example : BInt.pow .lenient 16 ⟨1, [3]⟩ ⟨1, [5]⟩ ⟨1, [7]⟩ = .ok ⟨1, [5]⟩ := by decide +kernel

/-! ## C19 -/

/-- C19: `log(x, b)` is the largest `r` with `b ^ r ≤ x`. The hypothesis is that the number of digits fits `int`,
which `digits()` (int.hpp:273-283) assumes. -/
theorem C19_log (x b : ℕ) (hx : 0 < x) (hb : 2 ≤ b) (hsize : (Nat.digits 10 x).length ≤ 2147483647) :
    ∃ r : ℕ, Returns (fun k => BInt.log .lenient k (enc x) (enc b)) (enc r) ∧ b ^ r ≤ x ∧ x < b ^ (r + 1) := by
  refine ⟨Nat.log b x, ⟨x + 11, fun k hk => log_enc hx hb hk ?_⟩, Nat.pow_log_le_self b (by omega),
    Nat.lt_pow_succ_log_self (by omega) x⟩
  simpa [enc] using hsize

/-- C19: outside the domain it throws. -/
theorem C19_log_domain (x b : ℤ) (h : x ≤ 0 ∨ b < 2) (k : ℕ) :
    BInt.log .lenient k (enc x) (enc b) = .throw "Error: Math domain error." := log_domain k h

example : 0 < 1000 ∧ 2 ≤ 7 ∧ (Nat.digits 10 1000).length ≤ 2147483647 := by simp
example : BInt.log .lenient 20 ⟨1, [0, 5]⟩ ⟨1, [7]⟩ = .ok ⟨1, [2]⟩ := by decide +kernel

/-! ## C20 -/

/-- C20: gcd and lcm terminate and are the non-negative gcd and lcm of the integers. -/
theorem C20_gcd_lcm (a b : ℤ) :
    Returns (fun k => BInt.gcd .lenient k (enc a) (enc b)) (enc (Int.gcd a b)) ∧
    Returns (fun k => BInt.lcm .lenient k (enc a) (enc b)) (enc (Int.lcm a b)) :=
  ⟨⟨b.natAbs + 11, fun _ hk => gcd_enc hk⟩, ⟨b.natAbs + 11, fun _ hk => lcm_enc hk⟩⟩

example : BInt.gcd .lenient 30 ⟨-1, [2, 1]⟩ ⟨1, [8, 1]⟩ = .ok ⟨1, [6]⟩ := by decide +kernel
example : BInt.gcd .lenient 12 ⟨0, []⟩ ⟨0, []⟩ = .ok ⟨0, []⟩ := by decide +kernel

/-! ## C21

False of the code for the minimum of `int` and of wider signed types. -/

/-- C21 is false: `Int(INT_MIN)` negates `INT_MIN`, and so does `to_integer<int>()` of -2147483648. -/
theorem C21_fails : BInt.ofInt INT_MIN = .ub .overflow ∧
    BInt.toInteger ⟨32, true⟩ (enc INT_MIN) = .ub .overflow := by
  refine ⟨ofInt_min, ?_⟩
  have := toInteger_min (t := ⟨32, true⟩) (Or.inr (Or.inr (Or.inl rfl))) rfl
  simpa [INT_MIN] using this

/-- C21 for every `int` but `INT_MIN`. -/
theorem C21_of_int_partial (n : ℤ) (h : IsInt n) (h' : n ≠ INT_MIN) : BInt.ofInt n = .ok (enc n) := ofInt_enc h h'

/-- C21 for every built-in type (8, 16, 32, 64 bits, signed or not) and every value that fits, except the minimum of
a signed type of at least 32 bits, for which it is undefined behaviour. -/
theorem C21_to_integer_exact (t : BInt.IntTy) (ht : t.Std) (z : ℤ) (hlo : (if t.signed then -2 ^ (t.bits - 1) else 0) ≤ z)
    (hhi : z < 2 ^ (if t.signed then t.bits - 1 else t.bits)) :
    BInt.toInteger t (enc z) =
      if t.signed = true ∧ 32 ≤ t.bits ∧ z = -2 ^ (t.bits - 1) then .ub .overflow else .ok z := by
  have hz : t.fits z := by
    unfold BInt.IntTy.fits
    split
    · rename_i hs; rw [if_pos hs] at hlo hhi; exact ⟨hlo, hhi⟩
    · rename_i hs; rw [if_neg hs] at hlo hhi; exact ⟨hlo, hhi⟩
  rcases fits_abs ht hz with h | ⟨hs, rfl⟩
  · rw [toInteger_enc ht hz h, if_neg]
    rintro ⟨hs, -, rfl⟩
    rw [abs_neg, abs_of_pos (by positivity)] at h
    unfold BInt.IntTy.fits at h
    rw [if_pos hs] at h
    omega
  · rw [toInteger_min ht hs]
    by_cases hb : t.bits < 32
    · rw [if_pos hb, if_neg (by omega)]
    · rw [if_neg hb, if_pos ⟨hs, by omega, rfl⟩]

/-- C21, the positive half of `C21_to_integer_exact`. -/
theorem C21_to_integer_partial (t : BInt.IntTy) (ht : t.Std) (z : ℤ) (hlo : (if t.signed then -2 ^ (t.bits - 1) else 0) ≤ z)
    (hhi : z < 2 ^ (if t.signed then t.bits - 1 else t.bits))
    (h : t.signed = true → z ≠ -2 ^ (t.bits - 1)) : BInt.toInteger t (enc z) = .ok z := by
  rw [C21_to_integer_exact t ht z hlo hhi, if_neg]
  rintro ⟨hs, -, hz⟩; exact h hs hz

example : (⟨16, true⟩ : BInt.IntTy).Std ∧ (if (⟨16, true⟩ : BInt.IntTy).signed then -2 ^ (16 - 1) else 0) ≤ (-32768 : ℤ) := by
  constructor
  · right; left; rfl
  · decide
example : BInt.toInteger ⟨8, false⟩ ⟨1, [5, 5, 2]⟩ = .ok 255 := by decide
example : BInt.toInteger ⟨8, true⟩ ⟨-1, [8, 2, 1]⟩ = .ok (-128) := by decide

/-! ## C22 -/

/-- C22: whatever the random source yields (digits 0..9, the replacement for a leading zero 1..9), `random(d)` is a
non-negative canonical `Int` with exactly `d` digits, or `len` digits for `random()`. -/
theorem C22_random (len : ℕ) (draw : ℕ → ℤ) (most d : ℤ) (hd : -1 ≤ d) (hdraw : ∀ i, 0 ≤ draw i ∧ draw i ≤ 9)
    (hmost : 1 ≤ most ∧ most ≤ 9) :
    ∃ z : ℤ, 0 ≤ z ∧ BInt.random len draw most d = .ok (enc z) ∧
      BInt.digits (enc z) = .ok (if d = -1 then (len : ℤ) else d) := by
  obtain ⟨z, h0, h1, h2⟩ := random_enc (len := len) hd hdraw hmost
  refine ⟨z, h0, h1, ?_⟩
  rw [digits_enc, h2]
  congr 1
  split
  · rfl
  · omega

/-- C22: `random()` has at most 4300 digits, because `digits_limit` yields at most 4300 (int.hpp:827). -/
theorem C22_random_default (len : ℕ) (hlen : len ≤ 4300) (draw : ℕ → ℤ) (most : ℤ)
    (hdraw : ∀ i, 0 ≤ draw i ∧ draw i ≤ 9) (hmost : 1 ≤ most ∧ most ≤ 9) :
    ∃ z : ℤ, 0 ≤ z ∧ BInt.random len draw most (-1) = .ok (enc z) ∧ z < 10 ^ 4300 := by
  obtain ⟨z, h0, h1, h2⟩ := random_enc (len := len) (d := -1) (le_refl _) hdraw hmost
  refine ⟨z, h0, h1, ?_⟩
  have := (enc_length_le_iff z 4300).mp (by rw [h2, if_pos rfl]; exact hlen)
  rwa [abs_of_nonneg h0] at this

/-- C22: below -1 it throws. -/
theorem C22_random_throws (len : ℕ) (draw : ℕ → ℤ) (most d : ℤ) (hd : d < -1) :
    BInt.random len draw most d = .throw "Error: `digits` must be a non-negative integer or default = -1." :=
  random_neg hd

example : BInt.random 7 (fun _ => 0) 4 3 = .ok ⟨1, [0, 0, 4]⟩ := by decide

end Pyincpp
