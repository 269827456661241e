import Verif.Spec.InfBeam
import Mathlib.MeasureTheory.Measure.Real
import Mathlib.Algebra.BigOperators.Group.Finset.Basic

/-! Specification: `Categorical(logits=...).sample` with logits `-inf`. -/

open MeasureTheory

noncomputable section
namespace Spec
open Autoregressive

open Classical in
/-- The softmax probability of class `c`: forbidden classes have probability 0. -/
def softProbE (xs : List EReal) (c : ℕ) : ℝ :=
  if c < xs.length ∧ xs.getD c 0 ≠ ⊥ then
    Real.exp (xs.getD c 0).toReal / ∑ i ∈ Finset.range xs.length, if xs.getD i 0 = ⊥ then 0 else Real.exp (xs.getD i 0).toReal
  else 0

/-- What `torch.distributions.Categorical(logits=logits).sample()` guarantees in a loop of `N` steps with `R` rows (as `CategoricalDraws`). -/
structure CategoricalDrawsE {Ω : Type} [MeasurableSpace Ω] (P : Measure Ω) (R N : ℕ) (logits : (ℕ → ℕ → ℕ) → ℕ → List (List EReal)) (X : ℕ → ℕ → Ω → ℕ) : Prop where
  meas : ∀ t r, Measurable (X t r)
  law : ∀ t < N, ∀ a : ℕ → ℕ → ℕ, P.real {ω | ∀ t' ≤ t, ∀ r < R, X t' r ω = a t' r} =
    P.real {ω | ∀ t' < t, ∀ r < R, X t' r ω = a t' r} * ∏ r ∈ Finset.range R, softProbE ((logits a t).getD r []) (a t r)

open Classical in
/-- The chain-rule probability of a sequence: 0 if it contains a forbidden class. -/
def allowedProb {St : Type} (step : ARStepE St) (s : St) (x : Tok) (y : List ℕ) : ℝ :=
  if Permitted step s x y then Real.exp (allowedScore true step s x y) else 0

end Spec
