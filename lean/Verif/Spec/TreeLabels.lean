import Mathlib.Analysis.SpecialFunctions.Log.Basic
import Verif.Model.Helpers
import Verif.Spec.Tree

/-! The labels of a table of span potentials summed out, and the tree without its labels. -/

open Finset

noncomputable section
namespace Spec

/-- The brackets of a tree: the same tree with a single label. -/
def LTree.brackets {NT : ℕ} : LTree NT → LTree 1
  | .leaf _ => .leaf 0
  | .node _ l r => .node 0 l.brackets r.brackets

/-- One label, whose weight is the sum of the weights of the labels. -/
def sumLabels {R : Type} [CommSemiring R] (p : T4 R) : T4 R := ⟨p.d0, p.d1, p.d2, 1, fun b i j _ => ∑ c : Fin p.d3, p.get b i j c⟩

/-- `potentials.logsumexp(-1, keepdim=True)`. -/
def lseLabels (p : T4 ℝ) : T4 ℝ := ⟨p.d0, p.d1, p.d2, 1, fun b i j _ => Real.log (∑ c : Fin p.d3, Real.exp (p.get b i j c))⟩

/-- `p'` is `potentials.max(-1, keepdim=True)[0]`. -/
structure IsMaxLabels (p p' : T4 ℝ) : Prop where
  rows : p'.d0 = p.d0
  words : p'.d1 = p.d1
  words' : p'.d2 = p.d2
  label : p'.d3 = 1
  attained : ∀ b i j, ∃ c : Fin p.d3, p'.get b i j 0 = p.get b i j c
  bound : ∀ b i j (c : Fin p.d3), p.get b i j c ≤ p'.get b i j 0

/-- The probability of label `c` when labels are drawn with the softmax of the potentials `s`. -/
def softmaxLabel {n : ℕ} (s : ℕ → ℝ) (c : Fin n) : ℝ := Real.exp (s c) / ∑ c' : Fin n, Real.exp (s c')

/-- The Shannon entropy of that distribution. -/
def labelEntropy (n : ℕ) (s : ℕ → ℝ) : ℝ := - ∑ c : Fin n, softmaxLabel s c * Real.log (softmaxLabel s c)

end Spec
