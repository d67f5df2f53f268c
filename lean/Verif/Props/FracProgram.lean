import Verif.Spec.FracProgram
import Verif.Props.Fraction
import Verif.Props.Objects

/-! # C77: programs over fractions -/

namespace Pyincpp
open Frac

namespace FracOp

variable {x y : Frac}

/-- The rational values of all variables. -/
def vals (s : Store Frac) : ℕ → ℚ := fun i => (s i).val

theorem valid_small (h : x.Valid) {b : ℕ} (hs : Small b x.val) : |x.num| ≤ b ∧ x.den ≤ b := by
  have hc : x.num.natAbs.Coprime x.den.natAbs := Int.isCoprime_iff_gcd_eq_one.1 h.coprime
  obtain ⟨h1, h2⟩ := hs
  have e1 : x.val.num = x.num := Rat.num_div_eq_of_coprime h.pos hc
  have e2 : (x.val.den : ℤ) = x.den := Rat.den_div_eq_of_coprime h.pos hc
  rw [e1] at h1
  refine ⟨?_, ?_⟩
  · rw [Int.abs_eq_natAbs]; exact_mod_cast h1
  · rw [← e2]; exact_mod_cast h2

/-- The binary operators: overflow, the exact result, or division by zero. -/
theorem op_cases (o : Frac.Op) (hx : x.Valid) (hy : y.Valid) :
    o.run x y = .ub .overflow ∨ (∃ f, o.run x y = .ok f ∧ f.Valid ∧ o.math x.val y.val = some f.val) ∨
      (∃ m, o.run x y = .throw m ∧ o.math x.val y.val = none) := by
  have key : ∀ {fits : Prop} {q : ℚ} {r : Res Frac}, ExactIf fits q r →
      r = .ub .overflow ∨ (∃ f, r = .ok f ∧ f.Valid ∧ some q = some f.val) := by
    intro fits q r h
    by_cases hf : fits
    · obtain ⟨f, e, v, hq⟩ := h.1 hf
      exact .inr ⟨f, e, v, by rw [hq]⟩
    · exact .inl (h.2 hf)
  cases o with
  | add => exact (key (add_exact hx hy)).imp_right .inl
  | sub => exact (key (sub_exact hx hy)).imp_right .inl
  | mul => exact (key (mul_exact hx hy)).imp_right .inl
  | div =>
    by_cases h0 : y.val = 0
    · exact .inr (.inr ⟨_, div_zero hx hy h0, by simp [Frac.Op.math, h0]⟩)
    · simp only [Frac.Op.math, if_neg h0]
      exact (key (div_exact hx hy h0)).imp_right .inl
  | mod =>
    by_cases h0 : y.val = 0
    · exact .inr (.inr ⟨_, mod_zero hy h0, by simp [Frac.Op.math, h0]⟩)
    · simp only [Frac.Op.math, if_neg h0]
      exact (key (mod_exact hx hy h0)).imp_right .inl

theorem small_mul {a b : ℤ} {m : ℕ} (ha : |a| ≤ m) (hb : |b| ≤ m) : |a * b| ≤ m * m := by
  rw [abs_mul]
  exact mul_le_mul ha hb (abs_nonneg _) (by positivity)

/-- Small operands do not overflow. -/
theorem op_fits (o : Frac.Op) (hx : x.Valid) (hy : y.Valid) (sx : Small 32767 x.val) (sy : Small 32767 y.val) :
    o.run x y ≠ .ub .overflow := by
  obtain ⟨x1, x2⟩ := valid_small hx sx
  obtain ⟨y1, y2⟩ := valid_small hy sy
  have x3 : |x.den| ≤ (32767 : ℕ) := by rw [abs_of_pos hx.pos]; exact x2
  have y3 : |y.den| ≤ (32767 : ℕ) := by rw [abs_of_pos hy.pos]; exact y2
  have a1 := abs_le.1 (small_mul x1 y3)
  have a2 := abs_le.1 (small_mul x3 y1)
  have a3 := abs_le.1 (small_mul x3 y3)
  have a4 := abs_le.1 (small_mul x1 y1)
  push_cast at a1 a2 a3 a4
  have key : ∀ {fits : Prop} {q : ℚ} {r : Res Frac}, fits → ExactIf fits q r → r ≠ .ub .overflow := by
    intro fits q r hf h e
    obtain ⟨f, e', -⟩ := h.1 hf
    rw [e] at e'; cases e'
  have hI : IsInt (x.num * y.den) := ⟨by rw [INT_MIN]; linarith, by rw [INT_MAX]; linarith⟩
  have hI2 : IsInt (x.den * y.num) := ⟨by rw [INT_MIN]; linarith, by rw [INT_MAX]; linarith⟩
  have hM : (2147483647 : ℤ) = INT_MAX := rfl
  cases o with
  | add =>
    refine key ⟨hI, hI2, ?_, ?_⟩ (add_exact hx hy)
    · rw [abs_le]; constructor <;> rw [← hM] <;> linarith
    · rw [← hM]; linarith
  | sub =>
    refine key ⟨hI, hI2, ?_, ?_⟩ (sub_exact hx hy)
    · rw [abs_le]; constructor <;> rw [← hM] <;> linarith
    · rw [← hM]; linarith
  | mul =>
    refine key ⟨?_, ?_⟩ (mul_exact hx hy)
    · rw [abs_le]; constructor <;> rw [← hM] <;> linarith
    · rw [← hM]; linarith
  | div =>
    by_cases h0 : y.val = 0
    · intro h
      have := (div_zero hx hy h0).symm.trans h
      cases this
    · refine key ⟨?_, ?_⟩ (div_exact hx hy h0)
      · rw [abs_le]; constructor <;> rw [← hM] <;> linarith
      · rw [abs_le]; constructor <;> rw [← hM] <;> linarith
  | mod =>
    by_cases h0 : y.val = 0
    · intro h
      have := (mod_zero (x := x) hy h0).symm.trans h
      cases this
    · refine key ⟨hI, ?_, ?_, ?_⟩ (mod_exact hx hy h0)
      · rw [mul_comm]; exact hI2
      · rintro ⟨e, -⟩
        rw [e, INT_MIN] at a1
        linarith
      · rw [← hM]; linarith

theorem vals_put (s : Store Frac) (i : ℕ) (f : Frac) : vals (s.put i f) = upd (vals s) i f.val := by
  funext j
  simp only [vals, Store.put, upd]
  split <;> rfl

theorem valid_put {s : Store Frac} (hs : ∀ i, (s i).Valid) (i : ℕ) {f : Frac} (hf : f.Valid) : ∀ j, (s.put i f j).Valid := by
  intro j
  simp only [Store.put]
  split
  · exact hf
  · exact hs j

/-- What a statement does. -/
def Good (o : FracOp) (s : Store Frac) : Prop :=
  HitsUB (fun k => o.step k s) .overflow ∨
    ∃ s', Returns (fun k => o.step k s) s' ∧ (∀ i, (s' i).Valid) ∧ o.Math (vals s) (vals s')

theorem good_ub {o : FracOp} {s : Store Frac} (h : ∀ k, o.step k s = .ub .overflow) : Good o s := .inl ⟨0, fun k _ => h k⟩

theorem good_put {o : FracOp} {s : Store Frac} (hs : ∀ i, (s i).Valid) (i : ℕ) {f : Frac} (hf : f.Valid)
    (h : ∀ k, o.step k s = .ok (s.put i f)) (hm : o.Math (vals s) (upd (vals s) i f.val)) : Good o s :=
  .inr ⟨s.put i f, ⟨0, fun k _ => h k⟩, valid_put hs i hf, by rw [vals_put]; exact hm⟩

theorem good_same {o : FracOp} {s : Store Frac} (hs : ∀ i, (s i).Valid) (h : ∀ k, o.step k s = .ok s)
    (hm : o.Math (vals s) (vals s)) : Good o s := .inr ⟨s, ⟨0, fun k _ => h k⟩, hs, hm⟩

theorem put_self (s : Store Frac) (i : ℕ) : s.put i (s i) = s := by
  funext j
  simp only [Store.put]
  split
  · next h => rw [h]
  · rfl

/-- A compound assignment is the operator followed by an assignment. -/
theorem assign_step (o : Frac.Op) (s : Store Frac) (i : ℕ) (rhs : Option Frac) :
    onObject s i (assignM o rhs) = store s i (o.run (s i) (rhs.getD (s i))) := by
  obtain ⟨h1, h2, h3⟩ := C50_assign o rhs (s i)
  unfold onObject
  cases hr : o.run (s i) (rhs.getD (s i)) with
  | ok f => rw [h1 f hr]; rfl
  | throw m => rw [h2 m hr]; simp only [store, put_self]
  | ub u => rw [h3 u hr]; rfl
  | fuel =>
    unfold assignM
    rw [Meth.get_bind, hr]; rfl

theorem good_bin {o' : FracOp} {s : Store Frac} (hs : ∀ i, (s i).Valid) (o : Frac.Op) (i : ℕ) (hx : x.Valid) (hy : y.Valid)
    (h : ∀ k, o'.step k s = store s i (o.run x y)) (hm : o'.Math (vals s) (qstore (vals s) i (o.math x.val y.val))) :
    Good o' s := by
  rcases op_cases o hx hy with e | ⟨f, e, v, q⟩ | ⟨m, e, q⟩
  · exact good_ub (fun k => by rw [h, e]; rfl)
  · refine good_put hs i v (fun k => by rw [h, e]; rfl) ?_
    rw [q] at hm; exact hm
  · refine good_same hs (fun k => by rw [h, e]; rfl) ?_
    rw [q] at hm; exact hm

theorem one_ok : ofInt 1 = .ok ⟨1, 1⟩ ∧ (⟨1, 1⟩ : Frac).Valid ∧ (⟨1, 1⟩ : Frac).val = 1 :=
  ⟨by decide, valid_int (by decide), by simp [Frac.val]⟩

theorem inc_step (s : Store Frac) (i : ℕ) : onObject s i incM = store s i (Frac.Op.add.run (s i) ⟨1, 1⟩) := by
  have : incM = assignM .add (some ⟨1, 1⟩) := by unfold incM; rw [one_ok.1]; rfl
  rw [this, assign_step]; rfl

theorem dec_step (s : Store Frac) (i : ℕ) : onObject s i decM = store s i (Frac.Op.sub.run (s i) ⟨1, 1⟩) := by
  have : decM = assignM .sub (some ⟨1, 1⟩) := by unfold decM; rw [one_ok.1]; rfl
  rw [this, assign_step]; rfl

theorem getD_self (s : Store Frac) (i j : ℕ) : (if i = j then none else some (s j) : Option Frac).getD (s i) = s j := by
  split
  · next h => rw [h]; rfl
  · rfl

/-- Every statement keeps lowest terms and computes the rational result, unless an `int` operation overflows. -/
theorem good (o : FracOp) (ht : o.Typed) (s : Store Frac) (hs : ∀ i, (s i).Valid) : Good o s := by
  cases o with
  | make i n d =>
    by_cases h0 : d = 0
    · subst h0
      refine good_same hs (fun k => by simp only [step]; rw [make_zero]; rfl) ?_
      have := Math.make (i := i) (n := n) (d := 0) (σ := vals s)
      exact this
    · by_cases hm : n = INT_MIN ∨ d = INT_MIN
      · exact good_ub (fun k => by simp only [step]; rw [make_min h0 hm]; rfl)
      · push Not at hm
        obtain ⟨f, e, v, q⟩ := (C49_construct_partial n d ht.1 ht.2).2 h0 hm.1 hm.2
        refine good_put hs i v (fun k => by simp only [step]; rw [e]; rfl) ?_
        have := Math.make (i := i) (n := n) (d := d) (σ := vals s)
        rw [if_neg h0] at this
        rw [q]; exact this
  | copy i j => exact good_put hs i (hs j) (fun k => rfl) .copy
  | move i j =>
    refine .inr ⟨(s.put i (s j)).put j ⟨0, 1⟩, ⟨0, fun k _ => ?_⟩, valid_put (valid_put hs i (hs j)) j (valid_int (by decide)), ?_⟩
    · simp only [step]
      rw [C63_move_fraction]
      congr 1
      funext n
      simp only [moved, Store.put, Function.update_apply]
    · rw [vals_put, vals_put, show (⟨0, 1⟩ : Frac).val = 0 by simp [Frac.val]]
      exact .move
  | bin o i j l => exact good_bin hs o i (hs j) (hs l) (fun k => rfl) .bin
  | assign o i j =>
    refine good_bin hs o i (hs i) (hs j) (fun k => ?_) .assign
    simp only [step]
    rw [assign_step, getD_self]
  | inc i =>
    refine good_bin hs .add i (hs i) one_ok.2.1 (fun k => inc_step s i) ?_
    rw [one_ok.2.2]; exact .inc
  | dec i =>
    refine good_bin hs .sub i (hs i) one_ok.2.1 (fun k => dec_step s i) ?_
    rw [one_ok.2.2]; exact .dec
  | neg i j =>
    obtain ⟨f, e, v, q⟩ := neg_ok (hs j)
    refine good_put hs i v (fun k => by simp only [step]; rw [e]; rfl) ?_
    rw [q]; exact .neg
  | abs i j =>
    obtain ⟨f, e, v, q⟩ := abs_ok (hs j)
    refine good_put hs i v (fun k => by simp only [step]; rw [e]; rfl) ?_
    rw [q]; exact .abs
  | gcd i j l =>
    rcases C53_gcd (hs j) (hs l) with ⟨N, h⟩ | ⟨g, ⟨N, h⟩, v, q⟩
    · exact .inl ⟨N, fun k hk => by simp only [step]; rw [h k hk]; rfl⟩
    · refine .inr ⟨s.put i g, ⟨N, fun k hk => by simp only [step]; rw [h k hk]; rfl⟩, valid_put hs i v, ?_⟩
      rw [vals_put]; exact .gcd q
  | lcm i j l =>
    obtain ⟨h1, h2⟩ := C53_lcm (hs j) (hs l)
    by_cases h0 : (s j).val = 0 ∨ (s l).val = 0
    · obtain ⟨N, h⟩ := h1 h0
      refine .inr ⟨s.put i ⟨0, 1⟩, ⟨N, fun k hk => by simp only [step]; rw [h k hk]; rfl⟩,
        valid_put hs i (valid_int (by decide)), ?_⟩
      rw [vals_put, show (⟨0, 1⟩ : Frac).val = 0 by simp [Frac.val]]
      exact .lcmZero h0
    · push Not at h0
      rcases h2 h0.1 h0.2 with ⟨N, h⟩ | ⟨g, ⟨N, h⟩, v, q⟩
      · exact .inl ⟨N, fun k hk => by simp only [step]; rw [h k hk]; rfl⟩
      · refine .inr ⟨s.put i g, ⟨N, fun k hk => by simp only [step]; rw [h k hk]; rfl⟩, valid_put hs i v, ?_⟩
        rw [vals_put]; exact .lcm h0.1 h0.2 q
  | less j l =>
    obtain ⟨h1, h2⟩ := C52_less_partial (hs j) (hs l)
    by_cases hf : IsInt ((s j).num * (s l).den) ∧ IsInt ((s j).den * (s l).num) ∧
        IsInt ((s j).num * (s l).den - (s j).den * (s l).num)
    · exact good_same hs (fun k => by simp only [step]; rw [(h1 hf).1]; rfl) .less
    · exact good_ub (fun k => by simp only [step]; rw [(h2 hf).1]; rfl)

theorem lcm_unique {a b l m : ℚ} (h : IsLcm l a b) (h' : IsLcm m a b) : l = m :=
  le_antisymm (h.2.2.2 m h'.1 h'.2.1 h'.2.2.1) (h'.2.2.2 l h.1 h.2.1 h.2.2.1)

/-- The meaning of a statement is a function. -/
theorem math_unique {o : FracOp} {σ σ₁ σ₂ : ℕ → ℚ} (h₁ : o.Math σ σ₁) (h₂ : o.Math σ σ₂) : σ₁ = σ₂ := by
  cases h₁ <;> cases h₂ <;> try rfl
  · next h _ h' => rw [(C53_gcd_greatest h').2.2 _ h]
  · next h _ _ _ h' => rw [lcm_unique h h']
  · next h1 h2 _ h => exact absurd h (by tauto)
  · next h _ h1 h2 _ => exact absurd h (by tauto)

/-- Small operands do not overflow. -/
theorem fits_step (o : FracOp) (s : Store Frac) (hs : ∀ i, (s i).Valid) (hf : o.Fits (vals s)) :
    ¬ HitsUB (fun k => o.step k s) .overflow := by
  have hbin : ∀ (o' : Frac.Op) (i : ℕ) {x y : Frac}, x.Valid → y.Valid → Small 32767 x.val → Small 32767 y.val →
      (∀ k, o.step k s = store s i (o'.run x y)) → ¬ HitsUB (fun k => o.step k s) .overflow := by
    rintro o' i x y hx hy sx sy h ⟨N, hN⟩
    have e := hN N le_rfl
    beta_reduce at e
    rw [h] at e
    cases hr : o'.run x y with
    | ok f => rw [hr] at e; simp [store] at e
    | throw m => rw [hr] at e; simp [store] at e
    | ub u =>
      rw [hr] at e
      simp only [store, Res.ub.injEq] at e
      exact op_fits o' hx hy sx sy (by rw [hr, e])
    | fuel => rw [hr] at e; simp [store] at e
  have hok : ∀ s', (∃ N, ∀ k, N ≤ k → o.step k s = .ok s') → ¬ HitsUB (fun k => o.step k s) .overflow := by
    rintro s' ⟨N, h⟩ ⟨M, h'⟩
    have := h' (max N M) (le_max_right _ _)
    beta_reduce at this
    rw [h _ (le_max_left _ _)] at this
    cases this
  have s1 : Small 32767 (⟨1, 1⟩ : Frac).val := by rw [one_ok.2.2]; unfold Small; decide
  cases o with
  | make i n d =>
    simp only [Fits, INT_MAX] at hf
    by_cases h0 : d = 0
    · subst h0
      exact hok s ⟨0, fun k _ => by simp only [step]; rw [make_zero]; rfl⟩
    · have hn : |n| ≤ INT_MAX := by rw [Int.abs_eq_natAbs, INT_MAX]; exact hf.1
      have hd : |d| ≤ INT_MAX := by rw [Int.abs_eq_natAbs, INT_MAX]; exact hf.2
      obtain ⟨f, e, -⟩ := make_ok hn hd h0
      exact hok (s.put i f) ⟨0, fun k _ => by simp only [step]; rw [e]; rfl⟩
  | copy i j => exact hok _ ⟨0, fun k _ => rfl⟩
  | move i j => exact hok _ ⟨0, fun k _ => rfl⟩
  | bin o i j l => exact hbin o i (hs j) (hs l) hf.1 hf.2 (fun k => rfl)
  | assign o i j =>
    exact hbin o i (hs i) (hs j) hf.1 hf.2 (fun k => by simp only [step]; rw [assign_step, getD_self])
  | inc i => exact hbin .add i (hs i) one_ok.2.1 hf s1 (fun k => inc_step s i)
  | dec i => exact hbin .sub i (hs i) one_ok.2.1 hf s1 (fun k => dec_step s i)
  | neg i j =>
    obtain ⟨f, e, -⟩ := neg_ok (hs j)
    exact hok (s.put i f) ⟨0, fun k _ => by simp only [step]; rw [e]; rfl⟩
  | abs i j =>
    obtain ⟨f, e, -⟩ := abs_ok (hs j)
    exact hok (s.put i f) ⟨0, fun k _ => by simp only [step]; rw [e]; rfl⟩
  | gcd i j l =>
    obtain ⟨x1, x2⟩ := valid_small (hs j) hf.1
    obtain ⟨y1, y2⟩ := valid_small (hs l) hf.2
    obtain ⟨e1, e2⟩ := common (hs j) (hs l)
    have px := (hs j).pos
    have py := (hs l).pos
    have x3 : |(s j).den| ≤ (215 : ℕ) := by rw [abs_of_pos px]; exact x2
    have y3 : |(s l).den| ≤ (215 : ℕ) := by rw [abs_of_pos py]; exact y2
    have a1 := small_mul x1 y3
    have a2 := small_mul y1 x3
    have a3 := small_mul x3 y3
    have pL := mul_pos px py
    rw [abs_of_pos pL] at a3
    push_cast at a1 a2 a3
    obtain ⟨g, ⟨N, h⟩, -⟩ := C53_gcd_fits (hs j) (hs l) pL e1 e2
      ((mul_le_mul a1 a3 pL.le (by norm_num)).trans (by rw [INT_MAX]; norm_num))
      ((mul_le_mul a2 a3 pL.le (by norm_num)).trans (by rw [INT_MAX]; norm_num))
      ((mul_le_mul a3 a3 pL.le (by norm_num)).trans (by rw [INT_MAX]; norm_num))
    exact hok (s.put i g) ⟨N, fun k hk => by simp only [step]; rw [h k hk]; rfl⟩
  | lcm i j l =>
    by_cases h0 : (s j).val = 0 ∨ (s l).val = 0
    · obtain ⟨N, h⟩ := (C53_lcm (hs j) (hs l)).1 h0
      exact hok _ ⟨N, fun k hk => by simp only [step]; rw [h k hk]; rfl⟩
    · push Not at h0
      obtain ⟨x1, x2⟩ := valid_small (hs j) hf.1
      obtain ⟨y1, y2⟩ := valid_small (hs l) hf.2
      obtain ⟨e1, e2⟩ := common (hs j) (hs l)
      have px := (hs j).pos
      have py := (hs l).pos
      have hX : (s j).num * (s l).den ≠ 0 := mul_ne_zero (fun h => h0.1 ((hs j).val_eq_zero.2 h)) py.ne'
      have hY : (s l).num * (s j).den ≠ 0 := mul_ne_zero (fun h => h0.2 ((hs l).val_eq_zero.2 h)) px.ne'
      have x3 : |(s j).den| ≤ (35 : ℕ) := by rw [abs_of_pos px]; exact x2
      have y3 : |(s l).den| ≤ (35 : ℕ) := by rw [abs_of_pos py]; exact y2
      have a1 := small_mul x1 y3
      have a2 := small_mul y1 x3
      have a3 := small_mul x3 y3
      have pL := mul_pos px py
      rw [abs_of_pos pL] at a3
      push_cast at a1 a2 a3
      obtain ⟨g, ⟨N, h⟩, -⟩ := C53_lcm_fits (hs j) (hs l) pL hX hY e1 e2
        ((mul_le_mul (mul_le_mul a1 a2 (abs_nonneg _) (by norm_num)) a3 pL.le (by norm_num)).trans (by rw [INT_MAX]; norm_num))
        ((mul_le_mul (mul_le_mul a3 a3 pL.le (by norm_num)) a1 (abs_nonneg _) (by norm_num)).trans (by rw [INT_MAX]; norm_num))
      exact hok (s.put i g) ⟨N, fun k hk => by simp only [step]; rw [h k hk]; rfl⟩
  | less j l =>
    obtain ⟨x1, x2⟩ := valid_small (hs j) hf.1
    obtain ⟨y1, y2⟩ := valid_small (hs l) hf.2
    have x3 : |(s j).den| ≤ (32767 : ℕ) := by rw [abs_of_pos (hs j).pos]; exact x2
    have y3 : |(s l).den| ≤ (32767 : ℕ) := by rw [abs_of_pos (hs l).pos]; exact y2
    have a1 := abs_le.1 (small_mul x1 y3)
    have a2 := abs_le.1 (small_mul x3 y1)
    push_cast at a1 a2
    have := (C52_less_partial (hs j) (hs l)).1 ⟨⟨by rw [INT_MIN]; linarith, by rw [INT_MAX]; linarith⟩,
      ⟨by rw [INT_MIN]; linarith, by rw [INT_MAX]; linarith⟩, ⟨by rw [INT_MIN]; linarith, by rw [INT_MAX]; linarith⟩⟩
    exact hok s ⟨0, fun k _ => by simp only [step]; rw [this.1]; rfl⟩

end FracOp

open FracOp

/-- C77: whatever statements a program performs, either an `int` operation overflows, or the program ends with every variable
in lowest terms and every value as on rational numbers. Missing: that no operation overflows (`C77_not`); it does not when
the operands are small (`C77_small`). -/
theorem C77_history_partial (prog : List FracOp) (ht : ∀ o ∈ prog, o.Typed) (s : Store Frac) (hs : ∀ i, (s i).Valid) :
    HitsUB (fun k => FracOp.run k prog s) .overflow ∨
    ∃ s', Returns (fun k => FracOp.run k prog s) s' ∧ (∀ i, (s' i).Valid) ∧
      MathRun prog (fun i => (s i).val) (fun i => (s' i).val) := by
  induction prog generalizing s with
  | nil => exact .inr ⟨s, ⟨0, fun k _ => rfl⟩, hs, .nil⟩
  | cons o os ih =>
    rcases good o (ht o (by simp)) s hs with ⟨N, h⟩ | ⟨s₁, ⟨N, h⟩, v, m⟩
    · exact .inl ⟨N, fun k hk => by simp only [FracOp.run]; rw [show step k s o = _ from h k hk]; rfl⟩
    · rcases ih (fun o ho => ht o (by simp [ho])) s₁ v with ⟨M, h'⟩ | ⟨s₂, ⟨M, h'⟩, v', m'⟩
      · refine .inl ⟨max N M, fun k hk => ?_⟩
        simp only [FracOp.run]
        rw [show step k s o = _ from h k (by omega)]
        exact h' k (by omega)
      · refine .inr ⟨s₂, ⟨max N M, fun k hk => ?_⟩, v', .cons m m'⟩
        simp only [FracOp.run]
        rw [show step k s o = _ from h k (by omega)]
        exact h' k (by omega)

/-- C77: a program whose operands stay small on rational numbers ends, and with exactly these values in lowest terms. -/
theorem C77_small (prog : List FracOp) (ht : ∀ o ∈ prog, o.Typed) (s : Store Frac) (hs : ∀ i, (s i).Valid) (σ' : ℕ → ℚ)
    (h : FitRun prog (fun i => (s i).val) σ') :
    Returns (fun k => FracOp.run k prog s) (fun i => ⟨(σ' i).num, (σ' i).den⟩) := by
  obtain ⟨s', h1, h2, h3⟩ : ∃ s', Returns (fun k => FracOp.run k prog s) s' ∧ (∀ i, (s' i).Valid) ∧ vals s' = σ' := by
    induction prog generalizing s with
    | nil => cases h; exact ⟨s, ⟨0, fun k _ => rfl⟩, hs, rfl⟩
    | cons o os ih =>
      cases h with
      | cons hf hm hr =>
        rcases good o (ht o (by simp)) s hs with hu | ⟨s₁, ⟨N, h⟩, v, m⟩
        · exact absurd hu (fits_step o s hs hf)
        · have e := math_unique m hm
          subst e
          obtain ⟨s₂, ⟨M, h'⟩, v', e'⟩ := ih (fun o ho => ht o (by simp [ho])) s₁ v hr
          refine ⟨s₂, ⟨max N M, fun k hk => ?_⟩, v', e'⟩
          simp only [FracOp.run]
          rw [show step k s o = _ from h k (by omega)]
          exact h' k (by omega)
  subst h3
  have e : s' = (fun i => ⟨(vals s' i).num, (vals s' i).den⟩) := by
    funext i
    have hc : (s' i).num.natAbs.Coprime (s' i).den.natAbs := Int.isCoprime_iff_gcd_eq_one.1 (h2 i).coprime
    have e1 : (s' i).val.num = (s' i).num := Rat.num_div_eq_of_coprime (h2 i).pos hc
    have e2 : ((s' i).val.den : ℤ) = (s' i).den := Rat.den_div_eq_of_coprime (h2 i).pos hc
    simp only [vals]
    rw [e1, e2]
  rw [← e]
  exact h1

/-- C77: the rational numbers a program ends with are determined by the program and the start. -/
theorem C77_determined {prog : List FracOp} {σ σ₁ σ₂ : ℕ → ℚ} (h₁ : MathRun prog σ σ₁) (h₂ : MathRun prog σ σ₂) : σ₁ = σ₂ := by
  induction h₁ with
  | nil => cases h₂; rfl
  | cons m _ ih =>
    cases h₂ with
    | cons m' r' =>
      rw [math_unique m' m] at r'
      exact ih r'

/-- C77 fails: the sum 1/100 + 1/101 + 1/103 + 1/107 + 1/109 overflows, and so does 1/65536 + 1/65536, although its value
1/32768 fits. -/
theorem C77_not :
    HitsUB (fun k => FracOp.run k [.make 0 1 100, .make 1 1 101, .assign .add 0 1, .make 1 1 103, .assign .add 0 1, .make 1 1 107,
      .assign .add 0 1, .make 1 1 109, .assign .add 0 1] (fun _ => ⟨0, 1⟩)) .overflow ∧
    HitsUB (fun k => FracOp.run k [.make 0 1 65536, .assign .add 0 0] (fun _ => ⟨0, 1⟩)) .overflow :=
  ⟨⟨0, fun _ _ => rfl⟩, ⟨0, fun _ _ => rfl⟩⟩

-- a = 1/2; b = 1/3; a += b; c = gcd(a, b); b = std::move(a)
example : (match FracOp.run 9 [.make 0 1 2, .make 1 1 3, .assign .add 0 1, .gcd 2 0 1, .move 1 0] (fun _ => ⟨0, 1⟩) with
    | .ok s => [s 0, s 1, s 2]
    | _ => []) = [⟨0, 1⟩, ⟨5, 6⟩, ⟨1, 6⟩] := by decide +kernel

example : FitRun [.make 0 1 2, .assign .mul 0 0, .inc 0] (fun _ => 0)
    (upd (upd (upd (fun _ => 0) 0 (1 / 2)) 0 (1 / 4)) 0 (5 / 4)) := by
  have h1 : FracOp.Math (.make 0 1 2) (fun _ => 0) (upd (fun _ => 0) 0 (1 / 2)) := by
    have := FracOp.Math.make (i := 0) (n := 1) (d := 2) (σ := fun _ => 0)
    simpa [qstore] using this
  have h2 : FracOp.Math (.assign .mul 0 0) (upd (fun _ => 0) 0 (1 / 2)) (upd (upd (fun _ => 0) 0 (1 / 2)) 0 (1 / 4)) := by
    have := FracOp.Math.assign (o := .mul) (i := 0) (j := 0) (σ := upd (fun _ => 0) 0 (1 / 2))
    have e : (upd (fun _ => (0 : ℚ)) 0 (1 / 2)) 0 = 1 / 2 := rfl
    rw [e] at this
    norm_num [qstore, Frac.Op.math] at this
    norm_num
    exact this
  have h3 : FracOp.Math (.inc 0) (upd (upd (fun _ => (0 : ℚ)) 0 (1 / 2)) 0 (1 / 4))
      (upd (upd (upd (fun _ => (0 : ℚ)) 0 (1 / 2)) 0 (1 / 4)) 0 (5 / 4)) := by
    have := FracOp.Math.inc (i := 0) (σ := upd (upd (fun _ => (0 : ℚ)) 0 (1 / 2)) 0 (1 / 4))
    have e : (upd (upd (fun _ => (0 : ℚ)) 0 (1 / 2)) 0 (1 / 4)) 0 = 1 / 4 := rfl
    rw [e] at this
    norm_num at this
    norm_num
    exact this
  refine .cons ⟨by decide, by decide⟩ h1 (.cons ⟨?_, ?_⟩ h2 (.cons ?_ h3 .nil))
  · show Small 32767 (1 / 2); unfold Small; decide +kernel
  · show Small 32767 (1 / 2); unfold Small; decide +kernel
  · show Small 32767 (1 / 4); unfold Small; decide +kernel

end Pyincpp
