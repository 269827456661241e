import Mathlib.MeasureTheory.Measure.Real
import Verif.Spec.SampleLaw

/-! Specification: the expected value of a quantity computed from what `sample` returns. -/

open MeasureTheory ProbabilityTheory

noncomputable section
namespace Spec
open Sampling

/-- The quantity `f` takes finitely many values, up to probability 0, and its expected value is `m`. -/
def HasMean {Ω : Type} [MeasurableSpace Ω] (P : Measure Ω) (f : Ω → ℝ) (m : ℝ) : Prop :=
  ∃ vs : Finset ℝ, P.real {ω | f ω ∉ vs} = 0 ∧ ∑ v ∈ vs, v * P.real {ω | f ω = v} = m

/-- The expected value of `F`, computed from the `n` events that `sample((n,))` returns, is `m`: for every tape that represents the computation and every source of
randomness that draws from the softmax at each `logsumexp`. -/
def SampleMean (es : List Expr) (n : ℕ) (F : List (List ℕ → ℕ) → ℝ) (m : ℝ) : Prop :=
  ∀ (K : Type) [Fintype K] [DecidableEq K] (T : ℕ → Tape K) (obj : ℕ → K), (∀ r, Repr (T r) (batchSum es) (obj r)) →
  ∀ (Ω : Type) [MeasurableSpace Ω] (P : Measure Ω) [IsProbabilityMeasure P] (X : ℕ → ℕ → K → Ω → ℕ), MultiDraws T P X →
  ∀ G : ℕ → Ω → K → ℕ, (∀ r ω, IsBackward (sendMulti (T r) fun j k => X r j k ω) (obj r) (G r ω)) →
  ∃ smp : Ω → List (List ℕ → ℕ), (∀ ω, sample (fun r => gradAt (T r) (G r ω)) [n] = .ok (smp ω)) ∧ (∀ ω, (smp ω).length = n) ∧
    HasMean P (fun ω => F (smp ω)) m

end Spec
