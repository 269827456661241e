import Mathlib.Data.Real.Archimedean
import Mathlib.Algebra.BigOperators.Group.Finset.Basic
import Mathlib.Data.Fintype.Sum

/-! Specification of a probabilistic context-free grammar and of the sentences that it generates.  There are no trees here: a symbol is
rewritten until only words are left. -/

open Finset

namespace Spec

/-- A probabilistic grammar in binary form: `NT` nonterminals, `T` preterminals, a vocabulary of `V` words. -/
structure PCFG (NT T V : ℕ) where
  /-- The probability that a sentence starts with a nonterminal. -/
  root : Fin NT → ℝ
  /-- The probability that a nonterminal is rewritten as a pair of symbols. -/
  rule : Fin NT → Fin NT ⊕ Fin T → Fin NT ⊕ Fin T → ℝ
  /-- The probability that a preterminal is rewritten as a word. -/
  emit : Fin T → Fin V → ℝ
  root_nonneg : ∀ X, 0 ≤ root X
  rule_nonneg : ∀ X y z, 0 ≤ rule X y z
  emit_nonneg : ∀ t v, 0 ≤ emit t v
  root_sum : ∑ X, root X = 1
  rule_sum : ∀ X, ∑ y, ∑ z, rule X y z = 1
  emit_sum : ∀ t, ∑ v, emit t v = 1

namespace PCFG
variable {NT T V : ℕ} (G : PCFG NT T V)

/-- The probability that a symbol has become exactly the words `w` after at most `k` rounds.  In a round a nonterminal is replaced by two
symbols, chosen with the probabilities of its rules, that go on independently of each other. -/
def yields : ℕ → Fin NT ⊕ Fin T → List (Fin V) → ℝ
  | _, .inr t, w => match w with
    | [v] => G.emit t v
    | _ => 0
  | 0, .inl _, _ => 0
  | k + 1, .inl X, w => ∑ y, ∑ z, G.rule X y z * ∑ i ∈ range (w.length + 1), yields k y (w.take i) * yields k z (w.drop i)

/-- The probability that the grammar generates the sentence `w` within `k` rounds. -/
def sentenceWithin (k : ℕ) (w : List (Fin V)) : ℝ := ∑ X, G.root X * G.yields k (.inl X) w

/-- The probability that the grammar generates the sentence `w`, in any number of rounds. -/
noncomputable def sentence (w : List (Fin V)) : ℝ := ⨆ k, G.sentenceWithin k w

end PCFG
end Spec
