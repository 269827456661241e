import Mathlib.Analysis.SpecialFunctions.Exp
import Verif.Spec.Chain

/-! Specification: hidden Markov models. -/

open Finset

noncomputable section
namespace Spec

variable {m C V : ℕ}

/-- The joint log-probability of the state sequence `z` and the observations `x` (`m + 1` of each): the start state, then the transitions, then
the emissions. Tables hold log-probabilities, `transition i j` from `j` to `i`, `emission v c` of `v` in state `c`. -/
def hmmJoint (transition : Fin C → Fin C → ℝ) (emission : Fin V → Fin C → ℝ) (init : Fin C → ℝ) (x : Fin (m + 1) → Fin V) (z : Tags m C) : ℝ :=
  init (z 0) + ∑ n : Fin m, transition (z n.succ) (z n.castSucc) + ∑ n : Fin (m + 1), emission (x n) (z n)

/-- The probability of the observations `x`: the sum over all state sequences. -/
def hmmLikelihood (transition : Fin C → Fin C → ℝ) (emission : Fin V → Fin C → ℝ) (init : Fin C → ℝ) (x : Fin (m + 1) → Fin V) : ℝ :=
  ∑ z : Tags m C, Real.exp (hmmJoint transition emission init x z)

/-- The posterior probability of the state sequence `z` given the observations `x`. -/
def hmmPosterior (transition : Fin C → Fin C → ℝ) (emission : Fin V → Fin C → ℝ) (init : Fin C → ℝ) (x : Fin (m + 1) → Fin V) (z : Tags m C) : ℝ :=
  Real.exp (hmmJoint transition emission init x z) / hmmLikelihood transition emission init x

/-- The posterior probability that the `n`-th state is `j` and the next one is `i`. -/
def hmmEdgePosterior (transition : Fin C → Fin C → ℝ) (emission : Fin V → Fin C → ℝ) (init : Fin C → ℝ) (x : Fin (m + 1) → Fin V) (n : ℕ) (i j : Fin C) : ℝ :=
  ∑ z : Tags m C, if UsesEdge z n i j then hmmPosterior transition emission init x z else 0

/-- The tables are log-probability tables. -/
structure HMMNormalised (transition : Fin C → Fin C → ℝ) (emission : Fin V → Fin C → ℝ) (init : Fin C → ℝ) : Prop where
  init : ∑ c, Real.exp (init c) = 1
  transition : ∀ j, ∑ i, Real.exp (transition i j) = 1
  emission : ∀ c, ∑ v, Real.exp (emission v c) = 1

end Spec
