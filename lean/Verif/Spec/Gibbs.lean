import Mathlib.Analysis.SpecialFunctions.Log.Basic
import Mathlib.Algebra.BigOperators.Field

/-! Specification: the distribution over a finite set of structures in which the probability of a structure is proportional to the
exponential of its score. -/

open Finset

noncomputable section
namespace Spec.Gibbs
variable {ι : Type} [Fintype ι]

/-- The normaliser. -/
def Z (s : ι → ℝ) : ℝ := ∑ y, Real.exp (s y)

/-- The probability of a structure. -/
def prob (s : ι → ℝ) (y : ι) : ℝ := Real.exp (s y) / Z s

/-- Expectation. -/
def expect (s f : ι → ℝ) : ℝ := ∑ y, prob s y * f y

/-- Shannon entropy (in nats). -/
def entropy (s : ι → ℝ) : ℝ := -∑ y, prob s y * Real.log (prob s y)

/-- Cross entropy of `t` relative to `s`. -/
def crossEntropy (s t : ι → ℝ) : ℝ := -∑ y, prob s y * Real.log (prob t y)

/-- Kullback-Leibler divergence. -/
def kl (s t : ι → ℝ) : ℝ := ∑ y, prob s y * (Real.log (prob s y) - Real.log (prob t y))

end Spec.Gibbs
