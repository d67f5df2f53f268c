import Verif.Spec.FracExact
import Verif.Props.FracProgram

/-! # C53, C77: exactly when `gcd`, `lcm` and whole programs overflow -/

namespace Pyincpp
namespace Frac

variable {x y : Frac}

theorem Valid.num_val (h : x.Valid) : x.val.num = x.num :=
  Rat.num_div_eq_of_coprime h.pos (Int.isCoprime_iff_gcd_eq_one.1 h.coprime)

theorem Valid.den_val (h : x.Valid) : (x.val.den : ℤ) = x.den :=
  Rat.den_div_eq_of_coprime h.pos (Int.isCoprime_iff_gcd_eq_one.1 h.coprime)

theorem ExactIf.iff {fits : Prop} {q : ℚ} {r : Res Frac} (h : ExactIf fits q r) : r = .ub .overflow ↔ ¬ fits := by
  refine ⟨fun e hf => ?_, h.2⟩
  obtain ⟨f, e', -⟩ := h.1 hf
  rw [e'] at e
  cases e

theorem op_iff (o : Op) (hx : x.Valid) (hy : y.Valid) : o.run x y = .ub .overflow ↔ ¬ o.Fit x.val y.val := by
  cases o with
  | add => simp only [Op.run, Op.Fit, hx.num_val, hy.num_val, hx.den_val, hy.den_val]; exact (add_exact hx hy).iff
  | sub => simp only [Op.run, Op.Fit, hx.num_val, hy.num_val, hx.den_val, hy.den_val]; exact (sub_exact hx hy).iff
  | mul => simp only [Op.run, Op.Fit, hx.num_val, hy.num_val, hx.den_val, hy.den_val]; exact (mul_exact hx hy).iff
  | div =>
    simp only [Op.run, Op.Fit, hx.num_val, hy.num_val, hx.den_val, hy.den_val]
    by_cases h0 : y.val = 0
    · rw [div_zero hx hy h0]; simp [h0]
    · rw [(div_exact hx hy h0).iff]; simp only [h0, false_or]
  | mod =>
    simp only [Op.run, Op.Fit, hx.num_val, hy.num_val, hx.den_val, hy.den_val]
    by_cases h0 : y.val = 0
    · rw [mod_zero hy h0]; simp [h0]
    · rw [(mod_exact hx hy h0).iff]; simp only [h0, false_or]

theorem euclidFit_zero (a : ℚ) : EuclidFit a 0 := .done

theorem euclidFit_step {a b : ℚ} (hb : b ≠ 0) : EuclidFit a b ↔ Op.Fit .mod a b ∧ EuclidFit b (a - b * truncQ (a / b)) := by
  constructor
  · intro h
    cases h with
    | done => exact absurd rfl hb
    | step _ h1 h2 => exact ⟨h1, h2⟩
  · rintro ⟨h1, h2⟩
    exact .step hb h1 h2

theorem gcdLoop_iff {L : ℤ} (hL : 0 < L) : ∀ (Y X : ℕ) (x y : Frac), x.Valid → y.Valid →
    x.val = (X : ℤ) / L → y.val = (Y : ℤ) / L → ∀ k, Y < k → (gcdLoop k x y = .ub .overflow ↔ ¬ EuclidFit x.val y.val) := by
  intro Y
  induction Y using Nat.strong_induction_on with
  | _ Y ih =>
    intro X x y hx hy ex ey k hk
    obtain ⟨k, rfl⟩ : ∃ j, k = j + 1 := ⟨k - 1, by omega⟩
    rw [gcdLoop, isZero_eq hy]
    by_cases h0 : y.val = 0
    · rw [if_pos (decide_eq_true (hy.val_eq_zero.1 h0)), h0]
      simp [euclidFit_zero]
    · rw [if_neg (by rw [decide_eq_true_iff, ← hy.val_eq_zero]; exact h0), euclidFit_step h0]
      have hY : Y ≠ 0 := by
        rintro rfl
        exact h0 (by rw [ey]; simp)
      have hop := op_iff .mod hx hy
      by_cases hf : Op.Fit .mod x.val y.val
      · have e := (mod_step hx hy hL hY ex ey).1.resolve_left (fun e => hop.1 e hf)
        obtain ⟨r, e, hr, er⟩ := e
        have e2 : r.val = x.val - y.val * truncQ (x.val / y.val) := by
          have hm := mod_exact hx hy h0
          by_cases hm' : mod x y = .ub .overflow
          · rw [hm'] at e; cases e
          · obtain ⟨f, e', -, q⟩ := hm.1 (not_not.1 (fun h => hm' (hm.2 h)))
            rw [e] at e'
            cases e'
            exact q
        rw [e, Res.ok_bind, ih (X % Y) (Nat.mod_lt _ (by omega)) Y y r hy hr ey er k (by have := Nat.mod_lt X (show 0 < Y by omega); omega), e2]
        simp only [hf, true_and]
      · rw [show mod x y = .ub .overflow from hop.2 hf]
        simp [hf]

theorem gcd_iff (hx : x.Valid) (hy : y.Valid) : ∃ N, ∀ k, N ≤ k → (gcd x y k = .ub .overflow ↔ ¬ GcdFit x.val y.val) := by
  obtain ⟨a, ea, va, qa⟩ := abs_ok hx
  obtain ⟨b, eb, vb, qb⟩ := abs_ok hy
  obtain ⟨e1, e2⟩ := common va vb
  have na : 0 ≤ a.num := va.num_sign.2 (by rw [qa]; positivity)
  have nb : 0 ≤ b.num := vb.num_sign.2 (by rw [qb]; positivity)
  have hX := mul_nonneg na vb.pos.le
  have hY := mul_nonneg nb va.pos.le
  obtain ⟨X, eX⟩ := Int.eq_ofNat_of_zero_le hX
  obtain ⟨Y, eY⟩ := Int.eq_ofNat_of_zero_le hY
  rw [eX] at e1
  rw [eY] at e2
  refine ⟨Y + 1, fun k hk => ?_⟩
  unfold gcd GcdFit
  rw [ea, Res.ok_bind, eb, Res.ok_bind, ← qa, ← qb]
  exact gcdLoop_iff (mul_pos va.pos vb.pos) Y X a b va vb e1 e2 k hk

end Frac

open Frac FracOp
variable {x y : Frac}

/-- C53: `gcd` overflows exactly if a remainder of Euclid's algorithm does, and otherwise returns the greatest common divisor. -/
theorem C53_gcd_exact (hx : x.Valid) (hy : y.Valid) :
    (GcdFit x.val y.val → ∃ g, Returns (gcd x y) g ∧ g.Valid ∧ IsGcd g.val x.val y.val) ∧
    (¬ GcdFit x.val y.val → HitsUB (gcd x y) .overflow) := by
  obtain ⟨N, h⟩ := gcd_iff hx hy
  refine ⟨fun hf => (C53_gcd hx hy).resolve_left ?_, fun hf => ⟨N, fun k hk => (h k hk).2 hf⟩⟩
  rintro ⟨M, hM⟩
  exact (h (max N M) (le_max_left _ _)).1 (hM _ (le_max_right _ _)) hf

/-- C53: `lcm` overflows exactly if the product, `gcd` or the quotient does. -/
theorem C53_lcm_exact (hx : x.Valid) (hy : y.Valid) :
    (LcmFit x.val y.val → ∃ l, Returns (lcm x y) l ∧ l.Valid ∧
      (x.val = 0 ∨ y.val = 0 → l.val = 0) ∧ (x.val ≠ 0 → y.val ≠ 0 → IsLcm l.val x.val y.val)) ∧
    (¬ LcmFit x.val y.val → HitsUB (lcm x y) .overflow) := by
  by_cases hz : x.val = 0 ∨ y.val = 0
  · refine ⟨fun _ => ⟨⟨0, 1⟩, (C53_lcm hx hy).1 hz, valid_int (by decide), fun _ => by simp [Frac.val], fun h1 h2 => absurd hz (by tauto)⟩,
      fun h => absurd ?_ h⟩
    rcases hz with h | h
    · exact .inl h
    · exact .inr (.inl h)
  · have hz' := hz
    push Not at hz'
    obtain ⟨h1, h2⟩ := hz'
    have hl : ∀ k, lcm x y k = (do
        let p ← mul x y
        let p ← abs p
        let g ← gcd x y k
        div p g) := by
      intro k
      unfold Frac.lcm
      rw [isZero_eq hx, isZero_eq hy, decide_eq_false (fun e => h1 (hx.val_eq_zero.2 e)), decide_eq_false (fun e => h2 (hy.val_eq_zero.2 e))]
      rfl
    have key : (LcmFit x.val y.val ↔ ¬ HitsUB (lcm x y) .overflow) ∧ (¬ LcmFit x.val y.val → HitsUB (lcm x y) .overflow) := by
      have hfit : LcmFit x.val y.val ↔
          Op.Fit .mul x.val y.val ∧ GcdFit x.val y.val ∧ ∀ g, IsGcd g x.val y.val → Op.Fit .div |x.val * y.val| g := by
        unfold LcmFit; simp only [h1, h2, false_or]
      have hno : ∀ {r : Res Frac}, (∃ N, ∀ k, N ≤ k → lcm x y k = r) → r ≠ .ub .overflow → ¬ HitsUB (lcm x y) .overflow := by
        rintro r ⟨N, h⟩ hr ⟨M, hM⟩
        exact hr ((h (max N M) (le_max_left _ _)).symm.trans (hM _ (le_max_right _ _)))
      by_cases f1 : Op.Fit .mul x.val y.val
      swap
      · have : HitsUB (lcm x y) .overflow := ⟨0, fun k _ => by rw [hl, show mul x y = _ from (op_iff .mul hx hy).2 f1]; rfl⟩
        exact ⟨by rw [hfit]; simp [f1, this], fun _ => this⟩
      have m1 := mul_exact hx hy
      obtain ⟨p, ep, vp, qp⟩ := m1.1 (not_not.1 (fun h => (op_iff .mul hx hy).1 (m1.2 h) f1))
      obtain ⟨p', ep', vp', qp'⟩ := abs_ok vp
      rw [qp] at qp'
      by_cases f2 : GcdFit x.val y.val
      swap
      · obtain ⟨N, h⟩ := (C53_gcd_exact hx hy).2 f2
        have : HitsUB (lcm x y) .overflow := ⟨N, fun k hk => by rw [hl, ep, Res.ok_bind, ep', Res.ok_bind, h k hk]; rfl⟩
        exact ⟨by rw [hfit]; simp [f2, this], fun _ => this⟩
      obtain ⟨g, ⟨N, h⟩, vg, qg⟩ := (C53_gcd_exact hx hy).1 f2
      have f3 : (∀ g, IsGcd g x.val y.val → Op.Fit .div |x.val * y.val| g) ↔ Op.Fit .div p'.val g.val := by
        rw [qp']
        refine ⟨fun h => h _ qg, fun h g' hg' => ?_⟩
        rw [(C53_gcd_greatest qg).2.2 g' hg']
        exact h
      have hr : ∃ N, ∀ k, N ≤ k → lcm x y k = div p' g := ⟨N, fun k hk => by rw [hl, ep, Res.ok_bind, ep', Res.ok_bind, h k hk]; rfl⟩
      have hd := op_iff .div vp' vg
      have hu : div p' g = .ub .overflow → HitsUB (lcm x y) .overflow := fun e => by
        obtain ⟨M, hM⟩ := hr
        exact ⟨M, fun k hk => (hM k hk).trans e⟩
      rw [hfit, f3]
      simp only [f1, f2, true_and]
      exact ⟨⟨fun hf => hno hr (fun e => hd.1 e hf), fun hn => not_not.1 (fun hf => hn (hu (hd.2 hf)))⟩, fun hf => hu (hd.2 hf)⟩
    refine ⟨fun hf => ?_, key.2⟩
    obtain ⟨l, r, v, q⟩ := ((C53_lcm hx hy).2 h1 h2).resolve_left (key.1.1 hf)
    exact ⟨l, r, v, fun h => absurd h hz, fun _ _ => q⟩

namespace FracOp

/-- A statement overflows exactly if it does not stay in range. -/
theorem step_iff (o : FracOp) (ht : o.Typed) (s : Store Frac) (hs : ∀ i, (s i).Valid) :
    HitsUB (fun k => o.step k s) .overflow ↔ ¬ o.Fit (vals s) := by
  have hbin : ∀ (o' : Frac.Op) (i : ℕ) {x y : Frac}, x.Valid → y.Valid →
      (∀ k, o.step k s = store s i (o'.run x y)) → (HitsUB (fun k => o.step k s) .overflow ↔ ¬ o'.Fit x.val y.val) := by
    intro o' i x y hx hy h
    rw [← op_iff o' hx hy]
    constructor
    · rintro ⟨N, hN⟩
      have e := hN N le_rfl
      beta_reduce at e
      rw [h] at e
      cases hr : o'.run x y with
      | ok f => rw [hr] at e; simp [store] at e
      | throw m => rw [hr] at e; simp [store] at e
      | ub u => rw [hr] at e; simpa [store] using e
      | fuel => rw [hr] at e; simp [store] at e
    · intro e
      exact ⟨0, fun k _ => by beta_reduce; rw [h, e]; rfl⟩
  have hok : ∀ s', (∃ N, ∀ k, N ≤ k → o.step k s = .ok s') → ¬ HitsUB (fun k => o.step k s) .overflow := by
    rintro s' ⟨N, h⟩ ⟨M, h'⟩
    have := h' (max N M) (le_max_right _ _)
    beta_reduce at this
    rw [h _ (le_max_left _ _)] at this
    cases this
  cases o with
  | make i n d =>
    simp only [Fit]
    by_cases h0 : d = 0
    · subst h0
      have := hok s ⟨0, fun k _ => by simp only [step]; rw [make_zero]; rfl⟩
      simp [this]
    · by_cases hm : n = INT_MIN ∨ d = INT_MIN
      · have hu : HitsUB (fun k => step k s (.make i n d)) .overflow := ⟨0, fun k _ => by simp only [step]; rw [make_min h0 hm]; rfl⟩
        exact iff_of_true hu (by tauto)
      · push Not at hm
        obtain ⟨f, e, -⟩ := (C49_construct_partial n d ht.1 ht.2).2 h0 hm.1 hm.2
        exact iff_of_false (hok (s.put i f) ⟨0, fun k _ => by simp only [step]; rw [e]; rfl⟩) (by tauto)
  | copy i j => exact iff_of_false (hok _ ⟨0, fun k _ => rfl⟩) (by simp [Fit])
  | move i j => exact iff_of_false (hok _ ⟨0, fun k _ => rfl⟩) (by simp [Fit])
  | bin o i j l => exact hbin o i (hs j) (hs l) (fun k => rfl)
  | assign o i j => exact hbin o i (hs i) (hs j) (fun k => by simp only [step]; rw [assign_step, getD_self])
  | inc i =>
    have := hbin .add i (hs i) one_ok.2.1 (fun k => inc_step s i)
    rwa [one_ok.2.2] at this
  | dec i =>
    have := hbin .sub i (hs i) one_ok.2.1 (fun k => dec_step s i)
    rwa [one_ok.2.2] at this
  | neg i j =>
    obtain ⟨f, e, -⟩ := neg_ok (hs j)
    exact iff_of_false (hok (s.put i f) ⟨0, fun k _ => by simp only [step]; rw [e]; rfl⟩) (by simp [Fit])
  | abs i j =>
    obtain ⟨f, e, -⟩ := abs_ok (hs j)
    exact iff_of_false (hok (s.put i f) ⟨0, fun k _ => by simp only [step]; rw [e]; rfl⟩) (by simp [Fit])
  | gcd i j l =>
    obtain ⟨h1, h2⟩ := C53_gcd_exact (hs j) (hs l)
    by_cases hf : GcdFit (s j).val (s l).val
    · obtain ⟨g, ⟨N, h⟩, -⟩ := h1 hf
      exact iff_of_false (hok (s.put i g) ⟨N, fun k hk => by simp only [step]; rw [h k hk]; rfl⟩) (not_not.2 hf)
    · obtain ⟨N, h⟩ := h2 hf
      exact iff_of_true ⟨N, fun k hk => by simp only [step]; rw [h k hk]; rfl⟩ hf
  | lcm i j l =>
    obtain ⟨h1, h2⟩ := C53_lcm_exact (hs j) (hs l)
    by_cases hf : LcmFit (s j).val (s l).val
    · obtain ⟨g, ⟨N, h⟩, -⟩ := h1 hf
      exact iff_of_false (hok (s.put i g) ⟨N, fun k hk => by simp only [step]; rw [h k hk]; rfl⟩) (not_not.2 hf)
    · obtain ⟨N, h⟩ := h2 hf
      exact iff_of_true ⟨N, fun k hk => by simp only [step]; rw [h k hk]; rfl⟩ hf
  | less j l =>
    obtain ⟨h1, h2⟩ := C52_less_partial (hs j) (hs l)
    simp only [Fit, LessFit, vals, (hs j).num_val, (hs j).den_val, (hs l).num_val, (hs l).den_val]
    by_cases hf : IsInt ((s j).num * (s l).den) ∧ IsInt ((s j).den * (s l).num) ∧
        IsInt ((s j).num * (s l).den - (s j).den * (s l).num)
    · exact iff_of_false (hok s ⟨0, fun k _ => by simp only [step]; rw [(h1 hf).1]; rfl⟩) (not_not.2 hf)
    · exact iff_of_true ⟨0, fun k _ => by simp only [step]; rw [(h2 hf).1]; rfl⟩ hf

end FracOp

/-- C77: for every program it is decided by the rational numbers whether an `int` operation overflows: if all statements stay in range,
the program ends with exactly the rational values in lowest terms; otherwise it overflows. -/
theorem C77_exact (prog : List FracOp) (ht : ∀ o ∈ prog, o.Typed) (s : Store Frac) (hs : ∀ i, (s i).Valid) :
    (∀ σ', ExactRun prog (fun i => (s i).val) σ' →
      Returns (fun k => FracOp.run k prog s) (fun i => ⟨(σ' i).num, (σ' i).den⟩) ∧ MathRun prog (fun i => (s i).val) σ') ∧
    ((¬ ∃ σ', ExactRun prog (fun i => (s i).val) σ') → HitsUB (fun k => FracOp.run k prog s) .overflow) := by
  have key : ∀ (prog : List FracOp), (∀ o ∈ prog, o.Typed) → ∀ (s : Store Frac), (∀ i, (s i).Valid) →
      (∃ s', Returns (fun k => FracOp.run k prog s) s' ∧ (∀ i, (s' i).Valid) ∧ ExactRun prog (vals s) (vals s')) ∨
      ((¬ ∃ σ', ExactRun prog (vals s) σ') ∧ HitsUB (fun k => FracOp.run k prog s) .overflow) := by
    intro prog
    induction prog with
    | nil => exact fun _ s hs => .inl ⟨s, ⟨0, fun k _ => rfl⟩, hs, .nil⟩
    | cons o os ih =>
      intro ht s hs
      have hi := step_iff o (ht o (by simp)) s hs
      by_cases hf : o.Fit (vals s)
      · obtain ⟨s₁, ⟨N, h⟩, v, m⟩ := (good o (ht o (by simp)) s hs).resolve_left (fun h => hi.1 h hf)
        have hrun : ∀ k, N ≤ k → FracOp.run k (o :: os) s = FracOp.run k os s₁ := fun k hk => by
          simp only [FracOp.run]
          rw [show step k s o = _ from h k hk]
          rfl
        rcases ih (fun o ho => ht o (by simp [ho])) s₁ v with ⟨s₂, ⟨M, h'⟩, v', r⟩ | ⟨hn, ⟨M, h'⟩⟩
        · exact .inl ⟨s₂, ⟨max N M, fun k hk => (hrun k (by omega)).trans (h' k (by omega))⟩, v', .cons hf m r⟩
        · refine .inr ⟨?_, ⟨max N M, fun k hk => (hrun k (by omega)).trans (h' k (by omega))⟩⟩
          rintro ⟨σ', hr⟩
          cases hr with
          | cons _ m' r' =>
            rw [math_unique m' m] at r'
            exact hn ⟨_, r'⟩
      · obtain ⟨N, h⟩ := hi.2 hf
        refine .inr ⟨?_, ⟨N, fun k hk => by simp only [FracOp.run]; rw [show step k s o = _ from h k hk]; rfl⟩⟩
        rintro ⟨σ', hr⟩
        cases hr with
        | cons hf' _ _ => exact hf hf'
  have math : ∀ {prog σ σ'}, ExactRun prog σ σ' → MathRun prog σ σ' := by
    intro prog σ σ' h
    induction h with
    | nil => exact .nil
    | cons _ m _ ih => exact .cons m ih
  rcases key prog ht s hs with ⟨s', r, v, e⟩ | ⟨hn, hu⟩
  · refine ⟨fun σ' h => ⟨?_, math h⟩, fun hn => absurd ⟨_, e⟩ hn⟩
    have : vals s' = σ' := C77_determined (math e) (math h)
    subst this
    have e : s' = (fun i => ⟨(vals s' i).num, (vals s' i).den⟩) := by
      funext i
      simp only [vals]
      rw [(v i).num_val, (v i).den_val]
    rw [← e]
    exact r
  · exact ⟨fun σ' h => absurd ⟨_, h⟩ hn, fun _ => hu⟩

/-- C77 fails for `gcd`: none of the operators overflows on 3/46337 and 2/46327, and the greatest common divisor 1/(46337 * 46327) fits, but
`gcd` overflows. -/
theorem C77_gcd_not :
    (∀ o : Frac.Op, o.run ⟨3, 46337⟩ ⟨2, 46327⟩ ≠ .ub .overflow) ∧ (⟨1, 46337 * 46327⟩ : Frac).Valid ∧
    IsGcd (⟨1, 46337 * 46327⟩ : Frac).val (⟨3, 46337⟩ : Frac).val (⟨2, 46327⟩ : Frac).val ∧
    HitsUB (gcd ⟨3, 46337⟩ ⟨2, 46327⟩) .overflow := by
  refine ⟨?_, ⟨by decide, isCoprime_one_left, by decide, by decide⟩, ?_, ⟨3, fun k hk => ?_⟩⟩
  · intro o
    cases o <;> decide +kernel
  · have h := isGcd_div (3 * 46327) (2 * 46337) (L := 46337 * 46327) (by norm_num)
    rw [show Int.gcd (3 * 46327) (2 * 46337) = 1 by decide +kernel] at h
    norm_num [Frac.val] at h ⊢
    exact h
  · obtain ⟨k, rfl⟩ : ∃ j, k = j + 3 := ⟨k - 3, by omega⟩
    have a1 : Frac.abs ⟨3, 46337⟩ = .ok ⟨3, 46337⟩ := rfl
    have a2 : Frac.abs ⟨2, 46327⟩ = .ok ⟨2, 46327⟩ := rfl
    have m1 : Frac.mod ⟨3, 46337⟩ ⟨2, 46327⟩ = .ok ⟨46307, 46337 * 46327⟩ := by decide +kernel
    have m2 : Frac.mod ⟨2, 46327⟩ ⟨46307, 46337 * 46327⟩ = .ub .overflow := by decide +kernel
    have z1 : Frac.isZero ⟨2, 46327⟩ = false := by decide +kernel
    have z2 : Frac.isZero ⟨46307, 46337 * 46327⟩ = false := by decide +kernel
    unfold Frac.gcd
    rw [a1, Res.ok_bind, a2, Res.ok_bind, gcdLoop, if_neg (by rw [z1]; decide), m1, Res.ok_bind, gcdLoop, if_neg (by rw [z2]; decide), m2]
    rfl

-- gcd(1/2, -1/3): the remainders 1/6 and 0
example : GcdFit (1 / 2) (-1 / 3) := by
  unfold GcdFit
  rw [show |(1 / 2 : ℚ)| = 1 / 2 by norm_num [abs_of_pos], show |(-1 / 3 : ℚ)| = 1 / 3 by norm_num [abs_of_neg]]
  refine .step (by norm_num) (.inr ?_) ?_
  · decide +kernel
  rw [show (1 / 2 - 1 / 3 * (truncQ (1 / 2 / (1 / 3)) : ℚ) : ℚ) = 1 / 6 by rw [show truncQ (1 / 2 / (1 / 3)) = 1 by decide +kernel]; norm_num]
  refine .step (by norm_num) (.inr ?_) ?_
  · decide +kernel
  rw [show (1 / 3 - 1 / 6 * (truncQ (1 / 3 / (1 / 6)) : ℚ) : ℚ) = 0 by rw [show truncQ (1 / 3 / (1 / 6)) = 2 by decide +kernel]; norm_num]
  exact .done

-- a = 1/2; ++a;
example : ∃ σ', ExactRun [.make 0 1 2, .inc 0] (fun _ => 0) σ' := by
  refine ⟨_, .cons (.inr (by decide)) .make (.cons ?_ .inc .nil)⟩
  show Op.Fit .add (qstore (fun _ => 0) 0 (if (2 : ℤ) = 0 then none else some (((1 : ℤ) : ℚ) / (2 : ℤ))) 0) 1
  rw [if_neg (by decide), show qstore (fun _ => 0) 0 (some (((1 : ℤ) : ℚ) / (2 : ℤ))) 0 = 1 / 2 by simp [qstore, upd]]
  unfold Op.Fit
  decide +kernel

end Pyincpp
