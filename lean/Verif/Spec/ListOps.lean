import Mathlib.Data.List.Basic

/-! Specification of bracketed expressions: binary trees over words, written with round brackets. -/

namespace Spec

/-- A word, or two expressions in brackets. -/
inductive Bracketed where
  | word (w : String)
  | pair (l r : Bracketed)

namespace Bracketed

/-- The words, from left to right. -/
def words : Bracketed → List String
  | word w => [w]
  | pair l r => l.words ++ r.words

/-- The written form: `( l r )`. -/
def text : Bracketed → List String
  | word w => [w]
  | pair l r => "(" :: (l.text ++ r.text ++ [")"])

/-- The first and the last word of every subexpression, if the first word has number `i`. -/
def spans : ℕ → Bracketed → List (ℕ × ℕ)
  | i, word _ => [(i, i)]
  | i, pair l r => (i, i + (l.words.length + r.words.length) - 1) :: (l.spans i ++ r.spans (i + l.words.length))

/-- Tokens of the language: a word is not a bracket (and not the token `()`). -/
def Proper (t : Bracketed) : Prop := ∀ w ∈ t.words, w ≠ "(" ∧ w ≠ ")" ∧ w ≠ "()" ∧ w ≠ ""

end Bracketed
end Spec
