import Verif.Spec.Draws

/-! Specification: what it means for `sample` to draw from a distribution. -/

open MeasureTheory ProbabilityTheory

noncomputable section
namespace Spec
open Sampling

open Classical in
/-- One backward pass of `SampledSemiring` through the recorded rows `es` returns an event whose law is that of `event y` with `y` drawn from
`law`, up to `ε` in total variation: for every tape that represents the computation, every source of randomness that draws
from the softmax at each `logsumexp`, and every set `A` of events. -/
def SamplesFrom (es : List Expr) {ι : Type} [Fintype ι] (law : ι → ℝ) (event : ι → List ℕ → ℕ) (ε : ℝ) : Prop :=
  ∀ (K : Type) [Fintype K] [DecidableEq K] (T : Tape K) (obj : K), Repr T (batchSum es) obj →
  ∀ (Ω : Type) [MeasurableSpace Ω] (P : Measure Ω) [IsProbabilityMeasure P] (X : K → Ω → ℕ), Draws T P X →
  ∀ G : Ω → K → ℕ, (∀ ω, IsBackward (sendOne T fun k => X k ω) obj (G ω)) →
  ∀ A : Set (List ℕ → ℕ), |P.real {ω | gradAt T (G ω) ∈ A} - ∑ y, if event y ∈ A then law y else 0| ≤ ε

/-- The draws of a sequence of backward passes of `MultiSampledSemiring`: `X r j k` is the `j`-th of the 16 draws at node `k` of the tape of
pass `r`.  All are independent. -/
structure MultiDraws {K Ω : Type} [MeasurableSpace Ω] (T : ℕ → Tape K) (P : Measure Ω) (X : ℕ → ℕ → K → Ω → ℕ) : Prop where
  meas : ∀ r j k, Measurable (X r j k)
  indep : iIndepFun (fun (i : ℕ × ℕ × K) => X i.1 i.2.1 i.2.2) P
  range : ∀ r j k n c, (T r).op k = .lse n c → 0 < n → ∀ ω, X r j k ω < n
  law : ∀ r j k n c, (T r).op k = .lse n c → ∀ i : Fin n,
    P.real {ω | X r j k ω = i} = Real.exp ((T r).val (c i)) / ∑ j, Real.exp ((T r).val (c j))

open Classical in
/-- `sample((n,))` returns `n` events.  They are independent, and each has the law of `event y` with `y` drawn from `law`,
up to `ε` in total variation. -/
def MultiSamplesFrom (es : List Expr) {ι : Type} [Fintype ι] (law : ι → ℝ) (event : ι → List ℕ → ℕ) (ε : ℝ) : Prop :=
  ∀ (K : Type) [Fintype K] [DecidableEq K] (T : ℕ → Tape K) (obj : ℕ → K), (∀ r, Repr (T r) (batchSum es) (obj r)) →
  ∀ (Ω : Type) [MeasurableSpace Ω] (P : Measure Ω) [IsProbabilityMeasure P] (X : ℕ → ℕ → K → Ω → ℕ), MultiDraws T P X →
  ∀ G : ℕ → Ω → K → ℕ, (∀ r ω, IsBackward (sendMulti (T r) fun j k => X r j k ω) (obj r) (G r ω)) →
  ∀ n, 0 < n → ∃ smp : Ω → List (List ℕ → ℕ), (∀ ω, sample (fun r => gradAt (T r) (G r ω)) [n] = .ok (smp ω)) ∧ (∀ ω, (smp ω).length = n) ∧
    (∀ A : ℕ → Set (List ℕ → ℕ),
      P.real {ω | ∀ s < n, (smp ω).getD s 0 ∈ A s} = ∏ s ∈ Finset.range n, P.real {ω | (smp ω).getD s 0 ∈ A s}) ∧
    (∀ s < n, ∀ A : Set (List ℕ → ℕ), |P.real {ω | (smp ω).getD s 0 ∈ A} - ∑ y, if event y ∈ A then law y else 0| ≤ ε)

/-- In each of the `n` events that `sample((n,))` returns, entry `id` (for the indices `ids`) is 1 with probability `μ id`, up to `ε`. -/
def SampleFrequencies (es : List Expr) (ids : Set (List ℕ)) (μ : List ℕ → ℝ) (ε : ℝ) : Prop :=
  ∀ (K : Type) [Fintype K] [DecidableEq K] (T : ℕ → Tape K) (obj : ℕ → K), (∀ r, Repr (T r) (batchSum es) (obj r)) →
  ∀ (Ω : Type) [MeasurableSpace Ω] (P : Measure Ω) [IsProbabilityMeasure P] (X : ℕ → ℕ → K → Ω → ℕ), MultiDraws T P X →
  ∀ G : ℕ → Ω → K → ℕ, (∀ r ω, IsBackward (sendMulti (T r) fun j k => X r j k ω) (obj r) (G r ω)) →
  ∀ n, 0 < n → ∃ smp : Ω → List (List ℕ → ℕ), (∀ ω, sample (fun r => gradAt (T r) (G r ω)) [n] = .ok (smp ω)) ∧ (∀ ω, (smp ω).length = n) ∧
    ∀ s < n, ∀ id ∈ ids, |P.real {ω | (smp ω).getD s 0 id = 1} - μ id| ≤ ε

end Spec
