import Verif.Spec.Autoregressive
import Mathlib.MeasureTheory.Measure.Real
import Mathlib.Order.ConditionallyCompleteLattice.Basic
import Mathlib.Algebra.BigOperators.Group.Finset.Basic

/-! Specification: `Categorical(logits=...).sample`, and the relaxation that `greedy_tempmax` follows. -/

open MeasureTheory

noncomputable section
namespace Spec
open Autoregressive

/-- The softmax probability of class `c`. -/
def softProb (xs : List ℝ) (c : ℕ) : ℝ :=
  if c < xs.length then Real.exp (xs.getD c 0) / ∑ i ∈ Finset.range xs.length, Real.exp (xs.getD i 0) else 0

/-- What `torch.distributions.Categorical(logits=logits).sample()` guarantees in a loop of `N` steps with `R` rows: given the classes drawn
before, the classes of step `t` are drawn independently of each other, each with its softmax probability.  `logits a t` are the logits of
step `t` if the classes `a` have been drawn before. -/
structure CategoricalDraws {Ω : Type} [MeasurableSpace Ω] (P : Measure Ω) (R N : ℕ) (logits : (ℕ → ℕ → ℕ) → ℕ → List (List ℝ)) (X : ℕ → ℕ → Ω → ℕ) : Prop where
  meas : ∀ t r, Measurable (X t r)
  law : ∀ t < N, ∀ a : ℕ → ℕ → ℕ, P.real {ω | ∀ t' ≤ t, ∀ r < R, X t' r ω = a t' r} =
    P.real {ω | ∀ t' < t, ∀ r < R, X t' r ω = a t' r} * ∏ r ∈ Finset.range R, softProb ((logits a t).getD r []) (a t r)

/-- Greedy search with softened inputs: at every step the score of the best class is added, and the network is fed the softmax with inverse temperature `alpha` of
the scores.  `z t c` is added to the logit of class `c` at step `t`. -/
def softGreedy {St : Type} (normalize : Bool) (step : ARStep St) (alpha : ℝ) (C : ℕ) (z : ℕ → ℕ → ℝ) : ℕ → ℕ → St → Tok → ℝ
  | 0, _, _, _ => 0
  | n + 1, t, s, x =>
    let score := arNorm normalize ((List.range C).map fun c => (step s x).1.getD c 0 + z t c)
    (⨆ c : Fin C, score c) + softGreedy normalize step alpha C z n (t + 1) (step s x).2
      (.soft ((List.range C).map fun c => Real.exp (alpha * score c) / ∑ i ∈ Finset.range C, Real.exp (alpha * score i)))

end Spec
