import Mathlib.Analysis.SpecialFunctions.Log.Basic
import Verif.Spec.Chain

/-! Specification: the probability distribution over tag sequences defined by real potentials. -/

open Finset

noncomputable section
namespace Spec

variable {m C : ℕ}

/-- The normaliser: the sum over all tag sequences of the exponentiated score. -/
def chainZ (m : ℕ) (φ : ℕ → Fin C → Fin C → ℝ) : ℝ := ∑ y : Tags m C, Real.exp (seqScore φ y)

/-- The probability of a tag sequence. -/
def chainP (φ : ℕ → Fin C → Fin C → ℝ) (y : Tags m C) : ℝ := Real.exp (seqScore φ y) / chainZ m φ

/-- The posterior probability of an edge. -/
def edgeProb (m : ℕ) (φ : ℕ → Fin C → Fin C → ℝ) (n : ℕ) (i j : Fin C) : ℝ :=
  ∑ y : Tags m C, if UsesEdge y n i j then chainP φ y else 0

/-- Shannon entropy (in nats). -/
def chainEntropy (m : ℕ) (φ : ℕ → Fin C → Fin C → ℝ) : ℝ := -∑ y : Tags m C, chainP φ y * Real.log (chainP φ y)

/-- Cross entropy of `q` relative to `p`. -/
def chainCE (m : ℕ) (φ ψ : ℕ → Fin C → Fin C → ℝ) : ℝ := -∑ y : Tags m C, chainP φ y * Real.log (chainP ψ y)

/-- Kullback-Leibler divergence. -/
def chainKL (m : ℕ) (φ ψ : ℕ → Fin C → Fin C → ℝ) : ℝ :=
  ∑ y : Tags m C, chainP φ y * (Real.log (chainP φ y) - Real.log (chainP ψ y))

end Spec
