import Verif.Props.FracExact
import Verif.Props.Nested

/-! # C65, C87: exactly which fractions can be keys together -/

namespace Pyincpp
open Frac

/-- The order of the rational numbers on a collection of fractions in lowest terms. -/
noncomputable abbrev keyOrder (K : Set Frac) (hK : ∀ x ∈ K, x.Valid) : LinearOrder K :=
  LinearOrder.lift' (fun x => x.1.val) (fun x y h => Subtype.ext ((C49_unique (hK x.1 x.2) (hK y.1 y.2)).1 h))

/-- C87 for `Fraction`: a collection of fractions can be used as elements of sets and keys of dictionaries exactly if the products of the comparison
fit in `int` for every two of them. -/
theorem C87_fraction_exact (K : Set Frac) (hK : ∀ x ∈ K, x.Valid) :
    @Rep _ _ (keyOrder K hK) (Subtype.val : K → Frac) Frac.lss ↔ ∀ x ∈ K, ∀ y ∈ K, LessFit x.val y.val := by
  have e : ∀ {x y : Frac}, x.Valid → y.Valid → (LessFit x.val y.val ↔
      IsInt (x.num * y.den) ∧ IsInt (x.den * y.num) ∧ IsInt (x.num * y.den - x.den * y.num)) := by
    intro x y hx hy
    simp only [LessFit, hx.num_val, hx.den_val, hy.num_val, hy.den_val]
  constructor
  · intro h x hx y hy
    rw [e (hK x hx) (hK y hy)]
    by_contra hf
    have h1 := ((C52_less_partial (hK x hx) (hK y hy)).2 hf).1
    have h2 := h ⟨x, hx⟩ ⟨y, hy⟩
    rw [h1] at h2
    cases h2
  · rintro h ⟨x, hx⟩ ⟨y, hy⟩
    refine ((C52_less_partial (hK x hx) (hK y hy)).1 ((e (hK x hx) (hK y hy)).1 (h x hx y hy))).1.trans ?_
    show Res.ok _ = Res.ok _
    congr 1

-- whole numbers up to a thousand million, far beyond the bound of `C87_fraction_partial`
example : ∀ x ∈ {x : Frac | x.den = 1 ∧ |x.num| ≤ 1000000000}, ∀ y ∈ {x : Frac | x.den = 1 ∧ |x.num| ≤ 1000000000}, LessFit x.val y.val := by
  rintro ⟨a, _⟩ ⟨rfl, ha⟩ ⟨b, _⟩ ⟨rfl, hb⟩
  have ha := abs_le.1 ha
  have hb := abs_le.1 hb
  have e : ∀ n : ℤ, (⟨n, 1⟩ : Frac).val = n := fun n => by simp [Frac.val]
  simp only at ha hb
  simp only [LessFit, e, Rat.num_intCast, Rat.den_intCast]
  unfold IsInt INT_MIN INT_MAX
  push_cast
  omega

end Pyincpp
