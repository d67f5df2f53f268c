import Verif.Props.IntStrict
import Verif.Props.IntExact

/-! # Which programs over `Int` stay inside their buffers (C04, C10) -/

namespace Pyincpp

/-- The operands for which a binary operator stays inside its digit vectors. -/
def IntBin.Inside : IntBin → ℤ → ℤ → Prop
  | .add, x, y => ¬ (x.sign * y.sign = -1 ∧ (enc x).chunks.length = (enc y).chunks.length)
  | .sub, x, y => ¬ (x.sign * y.sign = 1 ∧ (enc x).chunks.length = (enc y).chunks.length)
  | .mul, _, _ => True
  | .div, x, y => y = 0 ∨ DivSafe x y
  | .mod, x, y => y = 0 ∨ DivSafe x y

/-- The values of the variables for which a statement stays inside; `x += x` does for zero only. -/
def IntOp.Inside (σ : ℕ → ℤ) : IntOp → Prop
  | .bin o _ j l => o.Inside (σ j) (σ l)
  | .assign o i j => if o = .add ∧ i = j then σ i = 0 else o.Inside (σ i) (σ j)
  | _ => True

theorem runBin_strict {k : ℕ} (hk : 11 ≤ k) (o : IntBin) (x y : ℤ) :
    (o.Inside x y → o.run .strict k (enc x) (enc y) = o.run .lenient k (enc x) (enc y)) ∧
    (¬ o.Inside x y → o.run .strict k (enc x) (enc y) = .ub .outOfBounds) := by
  obtain ⟨j, rfl⟩ : ∃ j, k = j + 2 := ⟨k - 2, by omega⟩
  have hs : x.sign * (-y).sign = - (x.sign * y.sign) := by rw [Int.sign_neg]; ring
  have hl : (enc (-y)).chunks.length = (enc y).chunks.length := by rw [enc_neg_chunks]
  cases o with
  | add =>
    have hl' : BInt.addAssign .lenient false (j + 2) (enc x) (enc y) = .ok (enc (x + y)) :=
      addAssign_enc_aux .lenient j (by unfold SubSafe; tauto)
    simp only [IntBin.Inside, IntBin.run, BInt.add, not_not]
    refine ⟨fun h => ?_, fun h => addAssign_strict_ub j (by unfold SubSafe; rw [hs, hl]; simp [h.1, h.2])⟩
    rw [hl']
    refine addAssign_enc_aux .strict j ?_
    unfold SubSafe
    rw [hs, hl]
    by_cases h1 : x.sign * y.sign = -1
    · right; right; tauto
    · right; left; omega
  | sub =>
    have hl' : BInt.subAssign .lenient (j + 2) (enc x) (enc y) = .ok (enc (x - y)) :=
      subAssign_enc_aux .lenient j (by unfold SubSafe; tauto)
    simp only [IntBin.Inside, IntBin.run, BInt.sub, not_not]
    refine ⟨fun h => ?_, fun h => subAssign_strict_ub j (by unfold SubSafe; simp [h.1, h.2])⟩
    rw [hl']
    refine subAssign_enc_aux .strict j ?_
    unfold SubSafe
    tauto
  | mul => exact ⟨fun _ => rfl, fun h => absurd trivial h⟩
  | div =>
    by_cases hy : y = 0
    · subst hy
      refine ⟨fun _ => ?_, fun h => absurd (Or.inl rfl) h⟩
      simp [IntBin.run, BInt.div, BInt.divAssign, checkZero, enc_zero]
    · refine ⟨fun h => ?_, fun h => ?_⟩
      · exact ((div_strict hk x hy).trans (if_pos (h.resolve_left hy))).trans (div_enc hk x hy).symm
      · exact (div_strict hk x hy).trans (if_neg fun hd => h (Or.inr hd))
  | mod =>
    by_cases hy : y = 0
    · subst hy
      refine ⟨fun _ => ?_, fun h => absurd (Or.inl rfl) h⟩
      simp [IntBin.run, BInt.mod, BInt.modAssign, checkZero, enc_zero]
    · refine ⟨fun h => ?_, fun h => ?_⟩
      · exact ((mod_strict hk x hy).trans (if_pos (h.resolve_left hy))).trans (mod_enc hk x hy).symm
      · exact (mod_strict hk x hy).trans (if_neg fun hd => h (Or.inr hd))

theorem step_strict {k : ℕ} (hk : 11 ≤ k) (σ : ℕ → ℤ) (o : IntOp) :
    (o.Inside σ → o.step .strict k (fun n => enc (σ n)) = o.step .lenient k (fun n => enc (σ n))) ∧
    (¬ o.Inside σ → o.step .strict k (fun n => enc (σ n)) = .ub .outOfBounds) := by
  cases o with
  | bin o i j l =>
    have := runBin_strict hk o (σ j) (σ l)
    refine ⟨fun h => ?_, fun h => ?_⟩
    · simp only [IntOp.step, this.1 h]
    · simp only [IntOp.step, this.2 h, store]
  | assign o i j =>
    by_cases h : o = .add ∧ i = j
    · obtain ⟨rfl, rfl⟩ := h
      simp only [IntOp.Inside, and_self, if_true]
      obtain ⟨m, rfl⟩ : ∃ m, k = m + 1 := ⟨k - 1, by omega⟩
      constructor
      · intro h0
        simp [IntOp.step, IntBin.runAssign, h0, enc_zero, BInt.addAssign]
      · intro h0
        obtain ⟨N, hN⟩ := (C05_add_self_exact (σ i) h0).1
        have key : ∀ k, 1 ≤ k → BInt.addAssign .strict true k (enc (σ i)) (enc (σ i)) =
            BInt.addAssign .strict true 1 (enc (σ i)) (enc (σ i)) := by
          intro k hk
          obtain ⟨j, rfl⟩ : ∃ j, k = j + 1 := ⟨k - 1, by omega⟩
          rw [BInt.addAssign, BInt.addAssign]; simp
        have := hN (N + 1) (by omega)
        beta_reduce at this
        rw [key _ (by omega)] at this
        have := (key (m + 1) (by omega)).trans this
        simp only [IntOp.step, IntBin.runAssign, beq_self_eq_true, this, store]
    · simp only [IntOp.Inside, if_neg h]
      have hr : ∀ mem, o.runAssign mem k (i == j) (enc (σ i)) (enc (σ j)) = o.run mem k (enc (σ i)) (enc (σ j)) := by
        intro mem
        cases o with
        | add =>
          have hij : (i == j) = false := by simp; tauto
          rw [hij]
          rfl
        | _ => rfl
      have := runBin_strict hk o (σ i) (σ j)
      refine ⟨fun h => ?_, fun h => ?_⟩
      · simp only [IntOp.step, hr, this.1 h]
      · simp only [IntOp.step, hr, this.2 h, store]
  | _ => exact ⟨fun _ => rfl, fun h => absurd trivial h⟩

/-- Every statement the program comes to stays inside. -/
def IntOp.AllInside (prog : List IntOp) (σ : ℕ → ℤ) : Prop :=
  ∀ pre o post, prog = pre ++ o :: post → ∀ σ', IntOp.codeRun pre σ = some σ' → o.Inside σ'

theorem allInside_cons (o : IntOp) (os : List IntOp) (σ : ℕ → ℤ) :
    IntOp.AllInside (o :: os) σ ↔ o.Inside σ ∧ ∀ σ', o.code σ = some σ' → IntOp.AllInside os σ' := by
  constructor
  · refine fun h => ⟨h [] o os rfl σ rfl, fun σ' e pre p post he σ₂ hr => ?_⟩
    refine h (o :: pre) p post (by rw [he]; rfl) σ₂ ?_
    rw [IntOp.codeRun, e]
    exact hr
  · rintro ⟨h1, h2⟩ pre p post he σ₂ hr
    cases pre with
    | nil =>
      simp only [List.nil_append, List.cons.injEq] at he
      cases hr
      rw [← he.1]
      exact h1
    | cons q pre =>
      simp only [List.cons_append, List.cons.injEq] at he
      obtain ⟨rfl, rfl⟩ := he
      rw [IntOp.codeRun] at hr
      cases hc : o.code σ with
      | none => rw [hc] at hr; cases hr
      | some σ₁ =>
        rw [hc] at hr
        exact h2 σ₁ hc pre p post rfl σ₂ hr

/-- C04 for programs: a program over `Int` variables is free of accesses outside the digit vectors exactly if every statement it comes to is
(`IntOp.AllInside`, from `C04_sub_exact` to `C04_div_exact`), and then it ends with what C10 says. -/
theorem C04_program_exact (prog : List IntOp) (σ : ℕ → ℤ) (hint : ∀ i n, IntOp.int i n ∈ prog → IsInt n) :
    (¬ IntOp.AllInside prog σ → HitsUB (fun k => IntOp.run .strict k prog (fun n => enc (σ n))) .outOfBounds) ∧
    (IntOp.AllInside prog σ → ∀ σ', IntOp.codeRun prog σ = some σ' →
      Returns (fun k => IntOp.run .strict k prog (fun n => enc (σ n))) (fun n => enc (σ' n))) ∧
    (IntOp.AllInside prog σ → IntOp.codeRun prog σ = none →
      HitsUB (fun k => IntOp.run .strict k prog (fun n => enc (σ n))) .overflow) := by
  have inside : ∀ k, 11 ≤ k → IntOp.AllInside prog σ →
      IntOp.run .strict k prog (fun n => enc (σ n)) = IntOp.run .lenient k prog (fun n => enc (σ n)) := by
    intro k hk
    induction prog generalizing σ with
    | nil => intro _; rfl
    | cons o os ih =>
      intro h
      rw [allInside_cons] at h
      rw [IntOp.run, IntOp.run, (step_strict hk σ o).1 h.1, step_code σ o (fun i n h => hint i n (by simp [h])) hk]
      cases hc : o.code σ with
      | none => rfl
      | some σ₁ => exact ih σ₁ (fun i n h => hint i n (by simp [h])) (h.2 σ₁ hc)
  have exact := C10_exact prog σ hint
  refine ⟨fun h => ⟨11, fun k hk => ?_⟩, fun h σ' hr => ?_, fun h hr => ?_⟩
  · clear exact inside
    induction prog generalizing σ with
    | nil => exact absurd (fun pre o post he => by cases pre <;> cases he) h
    | cons o os ih =>
      rw [allInside_cons] at h
      beta_reduce
      rw [IntOp.run]
      by_cases h1 : o.Inside σ
      · rw [(step_strict hk σ o).1 h1, step_code σ o (fun i n h => hint i n (by simp [h])) hk]
        have h2 : ∃ σ', o.code σ = some σ' ∧ ¬ IntOp.AllInside os σ' := by
          by_contra hc
          push Not at hc
          exact h ⟨h1, hc⟩
        obtain ⟨σ₁, hc, hn⟩ := h2
        rw [hc]
        exact ih σ₁ (fun i n h => hint i n (by simp [h])) hn
      · rw [(step_strict hk σ o).2 h1]
        rfl
  · obtain ⟨N, hN⟩ := exact.1 σ' hr
    exact ⟨N + 11, fun k hk => (inside k (by omega) h).trans (hN k (by omega))⟩
  · obtain ⟨N, hN⟩ := exact.2.1 hr
    exact ⟨N + 11, fun k hk => (inside k (by omega) h).trans (hN k (by omega))⟩

/-- `b = a * a; c = b - a` stays inside for `a = 12` (144 - 12), not for `a = 2` (4 - 2). -/
example : IntOp.AllInside [.bin .mul 1 0 0, .bin .sub 2 1 0] (fun _ => 12) ∧
    ¬ IntOp.AllInside [.bin .mul 1 0 0, .bin .sub 2 1 0] (fun _ => 2) := by
  constructor <;> simp only [allInside_cons, IntOp.Inside, IntBin.Inside, IntOp.code, IntBin.code, mstore, Option.some.injEq, forall_eq', true_and]
  · refine ⟨by norm_num [upd, enc, IntBin.math], fun pre o post he => by cases pre <;> cases he⟩
  · norm_num [upd, enc, IntBin.math]
    exact fun h => absurd (by decide) h

end Pyincpp
