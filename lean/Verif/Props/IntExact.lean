import Verif.Props.IntMore

/-! # C05 and C10: what the code computes, defects included -/

namespace Pyincpp

theorem doubleDigits_eq (l : List ℕ) (c : ℕ) :
    (doubleDigits l c : ℤ) = 2 * val (l.map fun d : ℕ => (d : ℤ)) + c + carrySum (l.map fun d : ℕ => (d : ℤ)) c := by
  induction l generalizing c with
  | nil => simp [doubleDigits, carrySum]; ring
  | cons d ds ih =>
    rw [doubleDigits, List.map_cons, carrySum, val_cons]
    push_cast
    rw [ih]
    push_cast
    have := Int.mul_ediv_add_emod (2 * ((d : ℤ) + c)) 10
    have h5 : (2 * ((d : ℤ) + c)) / 10 = (d + c) / 5 := by omega
    rw [h5] at this
    linear_combination this

/-- C05: the value of `x` after `x += x`, for every `x`. -/
theorem C05_add_self_value (x : ℤ) :
    Returns (fun k => BInt.addAssign .lenient true k (enc x) (enc x)) (enc (selfAdd x)) := by
  by_cases hx : x = 0
  · subst hx
    have := (C05_self_partial 0).1 (by simp [enc_zero])
    simpa [selfAdd] using this
  · obtain ⟨-, e, -, -, he, h2⟩ := addSame_self hx
    have hs : (enc x).sign ≠ 0 := by
      rw [enc_sign]; intro h; exact hx (Int.sign_eq_zero_iff_zero.mp h)
    have hv : selfAdd x = x.sign * (2 * |x| + e) := by
      unfold selfAdd
      rw [doubleDigits_eq, he, ← enc_val x]
      simp [enc]
    refine ⟨1, fun k hk => ?_⟩
    obtain ⟨j, rfl⟩ : ∃ j, k = j + 1 := ⟨k - 1, by omega⟩
    beta_reduce
    rw [BInt.addAssign, if_neg (by tauto), if_neg (by simp), hv]
    exact h2

-- 5 += 5 gives 20, 17 += 17 gives 44 (17 + 17 with the carry doubled), 99 += 99 gives 408
example : selfAdd 5 = 20 ∧ selfAdd 17 = 44 ∧ selfAdd (-17) = -44 ∧ selfAdd 99 = 408 ∧ selfAdd 42 = 84 := by
  have : Int.sign 5 = 1 ∧ Int.sign 17 = 1 ∧ Int.sign (-17) = -1 ∧ Int.sign 99 = 1 ∧ Int.sign 42 = 1 := by decide
  simp [selfAdd, doubleDigits, this]

theorem run_code {k : ℕ} (hk : 11 ≤ k) (σ : ℕ → ℤ) (i : ℕ) (o : IntBin) (x y : ℤ) :
    store (fun n => enc (σ n)) i (o.run .lenient k (enc x) (enc y)) = .ok (fun n => enc (mstore σ i (o.code x y) n)) := by
  by_cases ho : o = .mod
  · subst ho
    by_cases hy : y = 0
    · subst hy
      rw [IntBin.run, mod_by_zero]
      simp [IntBin.code, store, mstore]
    · rw [IntBin.run, mod_enc hk x hy]
      simp only [IntBin.code, if_neg hy, codeMod]
      have e : ∀ z, (enc z).chunks.length = (Nat.digits 10 z.natAbs).length := fun z => by simp [enc]
      rw [e, e]
      split
      · simp only [store, mstore]; rw [← enc_upd]
      · simp only [store, mstore]; rw [← enc_upd]
  · have e : o.code x y = o.math x y := by cases o <;> first | rfl | exact absurd rfl ho
    rw [e]
    exact run_math hk σ i o x y (fun h => absurd h ho)

theorem step_code (σ : ℕ → ℤ) (o : IntOp) (ho : ∀ i n, o = .int i n → IsInt n) {k : ℕ} (hk : 11 ≤ k) :
    o.step .lenient k (fun n => enc (σ n)) =
      match o.code σ with
      | some σ' => .ok (fun n => enc (σ' n))
      | none => .ub .overflow := by
  have s : ∀ i (r : Res BInt) (z : ℤ), r = .ok (enc z) →
      store (fun n => enc (σ n)) i r = .ok (fun n => enc (upd σ i z n)) := by
    rintro i r z rfl
    rw [← enc_upd]; rfl
  cases o with
  | lit i t =>
    by_cases h : ∃ z, Literal t z
    · simp only [IntOp.code, dif_pos h]
      exact s _ _ _ (ofChars_literal h.choose_spec)
    · simp only [IntOp.code, dif_neg h]
      rw [IntOp.step, ofChars_not_literal h]; rfl
  | int i n =>
    by_cases h : n = INT_MIN
    · subst h
      simp only [IntOp.code, if_true]
      rw [IntOp.step, ofInt_min]; rfl
    · simp only [IntOp.code, if_neg h]
      exact s _ _ _ (ofInt_enc (ho i n rfl) h)
  | copy i j => simp only [IntOp.code]; rw [← enc_upd]; rfl
  | move i j => simp only [IntOp.code]; rw [← enc_upd, ← enc_upd, enc_zero]; rfl
  | bin o i j l => exact run_code hk σ i o _ _
  | assign o i j =>
    by_cases h : o = .add ∧ i = j
    · obtain ⟨rfl, rfl⟩ := h
      simp only [IntOp.code, and_self, if_true]
      refine s _ _ _ ?_
      simp only [beq_self_eq_true]
      have key : ∀ k, 1 ≤ k → BInt.addAssign .lenient true k (enc (σ i)) (enc (σ i)) =
          BInt.addAssign .lenient true 1 (enc (σ i)) (enc (σ i)) := by
        intro k hk
        obtain ⟨j, rfl⟩ : ∃ j, k = j + 1 := ⟨k - 1, by omega⟩
        rw [BInt.addAssign, BInt.addAssign]; simp
      obtain ⟨N, hN⟩ := C05_add_self_value (σ i)
      have := hN (N + 1) (by omega)
      beta_reduce at this
      rw [key _ (by omega)] at this
      exact (key k (by omega)).trans this
    · simp only [IntOp.code, if_neg h]
      rw [IntOp.step]
      by_cases ho : o = .add
      · have hij : (i == j) = false := by simp; tauto
        rw [hij, runAssign_eq_run]
        exact run_code hk σ i o _ _
      · rw [runAssign_eq_run' o ho]
        exact run_code hk σ i o _ _
  | inc i => exact s _ _ _ (inc_enc _)
  | dec i => exact s _ _ _ (dec_enc _)
  | neg i j => simp only [IntOp.code]; rw [← enc_upd, ← neg_enc]; rfl
  | abs i j => simp only [IntOp.code]; rw [← enc_upd, ← abs_enc]; rfl

/-- C10, exact semantics: *every* program ends with the values `IntOp.codeRun` says, or is undefined exactly when an
`Int(INT_MIN)` is reached. -/
theorem C10_exact (prog : List IntOp) (σ : ℕ → ℤ) (hint : ∀ i n, IntOp.int i n ∈ prog → IsInt n) :
    (∀ σ', IntOp.codeRun prog σ = some σ' →
      Returns (fun k => IntOp.run .lenient k prog (fun n => enc (σ n))) (fun n => enc (σ' n))) ∧
    (IntOp.codeRun prog σ = none → HitsUB (fun k => IntOp.run .lenient k prog (fun n => enc (σ n))) .overflow) ∧
    (IntOp.codeRun prog σ = none ↔ ∃ i, IntOp.int i INT_MIN ∈ prog) := by
  have main : ∀ k, 11 ≤ k → IntOp.run .lenient k prog (fun n => enc (σ n)) =
      match IntOp.codeRun prog σ with
      | some σ' => .ok (fun n => enc (σ' n))
      | none => .ub .overflow := by
    intro k hk
    induction prog generalizing σ with
    | nil => rfl
    | cons o os ih =>
      rw [IntOp.run, step_code σ o (fun i n h => hint i n (by simp [h])) hk, IntOp.codeRun]
      cases o.code σ with
      | none => rfl
      | some σ₁ => exact ih σ₁ (fun i n h => hint i n (by simp [h]))
  refine ⟨fun σ' h => ⟨11, fun k hk => ?_⟩, fun h => ⟨11, fun k hk => ?_⟩, ?_⟩
  · beta_reduce; rw [main k hk, h]
  · beta_reduce; rw [main k hk, h]
  · clear main hint
    induction prog generalizing σ with
    | nil => simp [IntOp.codeRun]
    | cons o os ih =>
      rw [IntOp.codeRun]
      by_cases h : ∃ i, o = .int i INT_MIN
      · obtain ⟨i, rfl⟩ := h
        simp only [IntOp.code, if_true, Option.bind_none, true_iff]
        exact ⟨i, by simp⟩
      · have hs : ∃ σ₁, o.code σ = some σ₁ := by
          cases o with
          | int i n =>
            exact ⟨_, if_neg (fun e => h ⟨i, by rw [e]⟩)⟩
          | _ => exact ⟨_, rfl⟩
        obtain ⟨σ₁, h1⟩ := hs
        rw [h1, Option.bind_some, ih σ₁]
        refine exists_congr fun i => ?_
        rw [List.mem_cons]
        constructor
        · exact Or.inr
        · rintro (e | e)
          · exact absurd ⟨i, e.symm⟩ h
          · exact e

-- a = 7; a += a; b = -a; b %= a, with all defects: 14 with the carry doubled is 24; (-24) % 24 = 0
example : IntOp.codeRun [.int 0 7, .assign .add 0 0, .neg 1 0, .assign .mod 1 0] (fun _ => 5) =
    some (upd (upd (upd (upd (fun _ => 5) 0 7) 0 24) 1 (-24)) 1 0) := by
  norm_num [IntOp.codeRun, IntOp.code, INT_MIN, selfAdd, doubleDigits, upd, mstore, IntBin.code,
    (by decide : Int.sign 7 = 1)]

end Pyincpp
