import Verif.Cpp

/-! # Proof rules for the loops of `Verif/Cpp.lean` -/

namespace Pyincpp

theorem forUp_inv {σ : Type} {body : Nat → σ → Res σ} (Inv : Nat → σ → Prop) :
    ∀ (n i : Nat) (s : σ), Inv i s →
    (∀ j s, i ≤ j → j < i + n → Inv j s → ∃ s', body j s = .ok s' ∧ Inv (j + 1) s') →
    ∃ s', forUp body i n s = .ok s' ∧ Inv (i + n) s'
  | 0, i, s, h, _ => ⟨s, rfl, by simpa using h⟩
  | n + 1, i, s, h, hb => by
    obtain ⟨s₁, e₁, h₁⟩ := hb i s (Nat.le_refl _) (by omega) h
    obtain ⟨s₂, e₂, h₂⟩ := forUp_inv Inv n (i + 1) s₁ h₁ (fun j s hj hj' => hb j s (by omega) (by omega))
    refine ⟨s₂, ?_, by rw [show i + (n + 1) = i + 1 + n by omega]; exact h₂⟩
    simp [forUp, e₁, e₂]

theorem forRange_inv {σ : Type} {body : Nat → σ → Res σ} (Inv : Nat → σ → Prop) {lo hi : Nat} (hlo : lo ≤ hi)
    {s : σ} (h0 : Inv lo s)
    (hb : ∀ j s, lo ≤ j → j < hi → Inv j s → ∃ s', body j s = .ok s' ∧ Inv (j + 1) s') :
    ∃ s', forRange lo hi body s = .ok s' ∧ Inv hi s' := by
  obtain ⟨s', e, h⟩ := forUp_inv Inv (hi - lo) lo s h0 (fun j s hj hj' => hb j s hj (by omega))
  exact ⟨s', e, by rw [show lo + (hi - lo) = hi by omega] at h; exact h⟩

/-- A for-loop splits at any point. -/
theorem forUp_add {σ : Type} {body : Nat → σ → Res σ} :
    ∀ (n m i : Nat) (s : σ), forUp body i (n + m) s = (forUp body i n s >>= fun s' => forUp body (i + n) m s')
  | 0, m, i, s => by simp [forUp]
  | n + 1, m, i, s => by
    rw [show n + 1 + m = (n + m) + 1 by omega]
    simp only [forUp]
    cases body i s with
    | ok s' => simp only [Res.ok_bind]; rw [forUp_add n m (i + 1) s', show i + 1 + n = i + (n + 1) by omega]
    | throw m => rfl
    | ub k => rfl
    | fuel => rfl

theorem forDown_inv {σ : Type} {body : Nat → σ → Res σ} (Inv : Nat → σ → Prop) :
    ∀ (n : Nat) (s : σ), Inv n s →
    (∀ j s, j < n → Inv (j + 1) s → ∃ s', body j s = .ok s' ∧ Inv j s') →
    ∃ s', forDown body n s = .ok s' ∧ Inv 0 s'
  | 0, s, h, _ => ⟨s, rfl, h⟩
  | n + 1, s, h, hb => by
    obtain ⟨s₁, e₁, h₁⟩ := hb n s (by omega) h
    obtain ⟨s₂, e₂, h₂⟩ := forDown_inv Inv n s₁ h₁ (fun j s hj => hb j s (by omega))
    exact ⟨s₂, by simp [forDown, e₁, e₂], h₂⟩

/-- `for (...; i < n && cond; ...)`: at the end the invariant holds at the index reached, and either the index
is the bound or the condition is false. -/
theorem forUpWhile_inv {σ : Type} {cond : Nat → σ → Res Bool} {body : Nat → σ → Res σ} (Inv : Nat → σ → Prop) :
    ∀ (n i : Nat) (s : σ), Inv i s →
    (∀ j s, i ≤ j → j < i + n → Inv j s →
      (cond j s = .ok false) ∨ (cond j s = .ok true ∧ ∃ s', body j s = .ok s' ∧ Inv (j + 1) s')) →
    ∃ s' j, forUpWhile cond body i n s = .ok s' ∧ i ≤ j ∧ j ≤ i + n ∧ Inv j s' ∧
      (j = i + n ∨ cond j s' = .ok false)
  | 0, i, s, h, _ => ⟨s, i, rfl, Nat.le_refl _, by omega, h, Or.inl rfl⟩
  | n + 1, i, s, h, hb => by
    rcases hb i s (Nat.le_refl _) (by omega) h with hc | ⟨hc, s₁, e₁, h₁⟩
    · exact ⟨s, i, by simp [forUpWhile, hc], Nat.le_refl _, by omega, h, Or.inr hc⟩
    · obtain ⟨s₂, j, e₂, hj, hj', h₂, hend⟩ := forUpWhile_inv Inv n (i + 1) s₁ h₁
        (fun j s hj hj' => hb j s (by omega) (by omega))
      refine ⟨s₂, j, by simp [forUpWhile, hc, e₁, e₂], by omega, by omega, h₂, ?_⟩
      rcases hend with h | h
      · left; omega
      · right; exact h

/-- A while-loop with invariant and decreasing measure terminates within `measure + 1` steps. -/
theorem whileF_inv {σ : Type} {cond : σ → Res Bool} {body : σ → Res σ} (Inv : σ → Prop) (μ : σ → Nat)
    (hstep : ∀ s, Inv s → (cond s = .ok false) ∨
      (cond s = .ok true ∧ ∃ s', body s = .ok s' ∧ Inv s' ∧ μ s' < μ s)) :
    ∀ (k : Nat) (s : σ), Inv s → μ s < k →
    ∃ s', whileF cond body k s = .ok s' ∧ Inv s' ∧ cond s' = .ok false
  | 0, s, _, hk => absurd hk (Nat.not_lt_zero _)
  | k + 1, s, h, hk => by
    rcases hstep s h with hc | ⟨hc, s₁, e₁, h₁, hμ⟩
    · exact ⟨s, by simp [whileF, hc], h, hc⟩
    · obtain ⟨s₂, e₂, h₂, hc₂⟩ := whileF_inv Inv μ hstep k s₁ h₁ (by omega)
      exact ⟨s₂, by simp [whileF, hc, e₁, e₂], h₂, hc₂⟩

/-- A while-loop whose condition stays true under an invariant never ends. -/
theorem whileF_diverges {σ : Type} {cond : σ → Res Bool} {body : σ → Res σ} (Inv : σ → Prop)
    (hstep : ∀ s, Inv s → cond s = .ok true ∧ ((∃ s', body s = .ok s' ∧ Inv s') ∨ body s = .fuel)) :
    ∀ (k : Nat) (s : σ), Inv s → whileF cond body k s = .fuel
  | 0, s, _ => rfl
  | k + 1, s, h => by
    obtain ⟨hc, ⟨s', e, h'⟩ | e⟩ := hstep s h
    · simp [whileF, hc, e, whileF_diverges Inv hstep k s' h']
    · simp [whileF, hc, e]

end Pyincpp
