import Mathlib.Analysis.SpecialFunctions.Log.Basic
import Mathlib.Data.EReal.Basic
import Verif.Spec.Chain

/-! Specification: hidden Markov models whose tables may have zeros. -/

open Finset

noncomputable section
namespace Spec

variable {m C V : ℕ}

/-- The log-probability of `a`, `-inf` for `a = 0`. -/
def logOrBot (a : ℝ) : EReal := if a = 0 then ⊥ else (Real.log a : ℝ)

/-- The joint probability of the state sequence `z` and the observations `x` (`m + 1` of each): the start state, then the transitions, then the emissions.  Tables
hold probabilities, `T i j` from `j` to `i`, `E v c` of `v` in state `c`. -/
def hmmWeight (T : Fin C → Fin C → ℝ) (E : Fin V → Fin C → ℝ) (I : Fin C → ℝ) (x : Fin (m + 1) → Fin V) (z : Tags m C) : ℝ :=
  I (z 0) * (∏ n : Fin m, T (z n.succ) (z n.castSucc)) * ∏ n : Fin (m + 1), E (x n) (z n)

/-- The probability of the observations `x`: the sum over all state sequences. -/
def hmmProb (T : Fin C → Fin C → ℝ) (E : Fin V → Fin C → ℝ) (I : Fin C → ℝ) (x : Fin (m + 1) → Fin V) : ℝ := ∑ z : Tags m C, hmmWeight T E I x z

/-- The probability, given the observations `x`, that the `n`-th state is `j` and the next one is `i`. -/
def hmmEdgeProb (T : Fin C → Fin C → ℝ) (E : Fin V → Fin C → ℝ) (I : Fin C → ℝ) (x : Fin (m + 1) → Fin V) (n : ℕ) (i j : Fin C) : ℝ :=
  (∑ z : Tags m C, if UsesEdge z n i j then hmmWeight T E I x z else 0) / hmmProb T E I x

/-- Going from state `j` at position `n` to state `i` at position `n + 1` has probability 0: the transition, the emission in `i`, or, at the start, the start in `j` or the
emission there. -/
def hmmImpossible (T : Fin C → Fin C → ℝ) (E : Fin V → Fin C → ℝ) (I : Fin C → ℝ) (x : Fin (m + 1) → Fin V) (n : Fin m) (i j : Fin C) : Prop :=
  T i j = 0 ∨ E (x n.succ) i = 0 ∨ ((n : ℕ) = 0 ∧ (I j = 0 ∨ E (x n.castSucc) j = 0))

end Spec
