import Verif.Spec.Gibbs

/-! Specification: probabilities of events, and conditional probabilities. -/

open Finset

noncomputable section
namespace Spec.Gibbs
variable {ι : Type} [Fintype ι]

open Classical in
/-- The probability that the structure satisfies `A`. -/
def probOf (s : ι → ℝ) (A : ι → Prop) : ℝ := ∑ y, if A y then prob s y else 0

open Classical in
/-- The expectation of `f` given that the structure satisfies `A`. -/
def condExpect (s : ι → ℝ) (A : ι → Prop) (f : ι → ℝ) : ℝ := (∑ y, if A y then prob s y * f y else 0) / probOf s A

/-- The probability of `B` given `A`. -/
def condProb (s : ι → ℝ) (A B : ι → Prop) : ℝ := probOf s (fun y => A y ∧ B y) / probOf s A

end Spec.Gibbs
