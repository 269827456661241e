import Verif.Spec.Grammar
import Verif.Spec.PCFG

/-! Specification: the derivations of a probabilistic grammar, some of whose probabilities may be 0. -/

open Finset

noncomputable section
namespace Spec.PCFG
variable {NT T V : ℕ} (G : PCFG NT T V)

/-- The symbol at the root of a derivation. -/
def head : Deriv NT T → Fin NT ⊕ Fin T
  | .leaf t => .inr t
  | .node X _ _ => .inl X

/-- The probability that the symbol at the root is rewritten by this derivation and becomes the words `w`. -/
def expand : Deriv NT T → List (Fin V) → ℝ
  | .leaf t, w => match w with
    | [v] => G.emit t v
    | _ => 0
  | .node X l r, w => G.rule X (head l) (head r) * (expand l (w.take l.size) * expand r (w.drop l.size))

/-- The joint probability of a derivation and the sentence `w`. -/
def derivProb (w : List (Fin V)) : Deriv NT T → ℝ
  | .leaf _ => 0
  | .node X l r => G.root X * G.expand (.node X l r) w

/-- The expectation of `f` given the sentence `w`. -/
def posterior (w : List (Fin V)) (f : Deriv NT T → ℝ) : ℝ := (∑ d : Derivs NT T w.length, G.derivProb w d.1 * f d.1) / G.sentence w

/-- All positive probabilities of the grammar are at least `ε`. -/
structure AtLeast (ε : ℝ) : Prop where
  root : ∀ X, G.root X = 0 ∨ ε ≤ G.root X
  rule : ∀ X y z, G.rule X y z = 0 ∨ ε ≤ G.rule X y z
  emit : ∀ t v, G.emit t v = 0 ∨ ε ≤ G.emit t v

/-- For every place in a table of `N` words `x`, every nonterminal has a rule of positive probability of every kind: with two nonterminals; with a nonterminal and a
preterminal that can be the word there; with such a preterminal and a nonterminal; with two such preterminals. -/
structure Everywhere (N : ℕ) (x : ℕ → Fin V) : Prop where
  both : ∀ X, ∃ y z, G.rule X (.inl y) (.inl z) ≠ 0
  right : ∀ X n, n + 1 < N → ∃ y t, G.rule X (.inl y) (.inr t) ≠ 0 ∧ G.emit t (x (n + 1)) ≠ 0
  left : ∀ X n, n + 1 < N → ∃ t z, G.rule X (.inr t) (.inl z) ≠ 0 ∧ G.emit t (x n) ≠ 0
  words : ∀ X n, n + 1 < N → ∃ t u, G.rule X (.inr t) (.inr u) ≠ 0 ∧ G.emit t (x n) ≠ 0 ∧ G.emit u (x (n + 1)) ≠ 0

end Spec.PCFG
