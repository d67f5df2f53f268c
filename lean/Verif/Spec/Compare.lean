import Verif.Spec.Seq

/-! # Specification of the order of sequences -/

namespace Pyincpp

/-- The order of dictionaries: `l` comes before `m` if, after a common part of equivalent elements, `l` ends first or has the
lesser element. -/
def LexBefore {α : Type} (lt : α → α → Bool) (l m : List α) : Prop :=
  ∃ i, (∀ j < i, ∃ a b, l[j]? = some a ∧ m[j]? = some b ∧ equivBy lt a b = true) ∧
    ((i = l.length ∧ i < m.length) ∨ ∃ a b, l[i]? = some a ∧ m[i]? = some b ∧ lt a b = true)

/-- The same length and pairwise equivalent elements. -/
def LexEquiv {α : Type} (lt : α → α → Bool) (l m : List α) : Prop :=
  l.length = m.length ∧ ∀ (j : Nat) (a b : α), l[j]? = some a → m[j]? = some b → equivBy lt a b = true

/-- A strict weak order in which only equal elements are equivalent. -/
structure StrictTotal {α : Type} (lt : α → α → Bool) : Prop extends StrictWeak lt where
  eq_of_equiv : ∀ a b, equivBy lt a b = true → a = b

end Pyincpp
