import Mathlib.Probability.Independence.Basic
import Mathlib.Analysis.SpecialFunctions.Exp

/-! Specification of `torch.distributions.Gumbel(0, 1).sample(shape)`: independent numbers with the standard Gumbel law. -/

namespace Spec
open MeasureTheory ProbabilityTheory

/-- The family `g` on the probability space `(Ω, μ)` is independent, and every member has the Gumbel distribution function `exp (-exp (-x))`. -/
structure IsGumbel {Ω ι : Type} [MeasurableSpace Ω] (μ : Measure Ω) (g : ι → Ω → ℝ) : Prop where
  measurable : ∀ i, Measurable (g i)
  indep : iIndepFun g μ
  cdf : ∀ i x, μ {ω | g i ω ≤ x} = ENNReal.ofReal (Real.exp (-Real.exp (-x)))

end Spec
