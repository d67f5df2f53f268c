/-! # Texts that can be told apart -/

namespace Pyincpp

/-- The characters that may follow an element in the text of a container: `,` `:` `]` `>` `}` `)`. -/
def IsEnd (c : UInt8) : Prop := c = 44 ∨ c = 58 ∨ c = 93 ∨ c = 62 ∨ c = 125 ∨ c = 41

/-- `r` is empty or starts with such a character. -/
def EndsElem (r : List UInt8) : Prop := ∀ c t, r = c :: t → IsEnd c

/-- The texts `shown x` of the values with the property `P` can be told apart, also with more text behind them: the text says
which value it is and where it ends. No text is empty or starts with a character that may follow an element. -/
structure Clear {α : Type} (P : α → Prop) (shown : α → List UInt8) : Prop where
  start : ∀ x, P x → ∃ c t, shown x = c :: t ∧ ¬ IsEnd c
  apart : ∀ x y r r', P x → P y → EndsElem r → EndsElem r' → shown x ++ r = shown y ++ r' → x = y ∧ r = r'

end Pyincpp
