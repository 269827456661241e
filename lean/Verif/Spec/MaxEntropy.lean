import Verif.Spec.Gibbs

/-! Specification: distributions over a finite type, their entropy and expected values. -/

open Finset

noncomputable section
namespace Spec
variable {ι : Type} [Fintype ι]

/-- `q` is a probability distribution. -/
def IsDist (q : ι → ℝ) : Prop := (∀ y, 0 ≤ q y) ∧ ∑ y, q y = 1

/-- Shannon entropy, in nats; `0 log 0` is 0. -/
def shannon (q : ι → ℝ) : ℝ := -∑ y, q y * Real.log (q y)

/-- The expected value of `f`. -/
def mean (q f : ι → ℝ) : ℝ := ∑ y, q y * f y

end Spec
