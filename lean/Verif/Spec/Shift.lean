import Verif.Model.Semiring
import Mathlib.Data.Real.Basic

/-! Specification: two calls that return one number per row, and differ by a known amount. -/

namespace Spec

/-- Both calls succeed with `B` rows, and in row `b` the second result is the first plus `K b`. -/
def Adds (r r' : Except PyErr (List ℝ)) (B : ℕ) (K : ℕ → ℝ) : Prop :=
  ∃ vs vs', r = .ok vs ∧ r' = .ok vs' ∧ vs.length = B ∧ vs'.length = B ∧
    ∀ b (h : b < vs.length) (h' : b < vs'.length), vs'[b] = vs[b] + K b

/-- Both calls succeed with `B` rows, and in row `b` the second result is the first plus `K b`, up to `ε b`. -/
def AddsUpTo (r r' : Except PyErr (List ℝ)) (B : ℕ) (K ε : ℕ → ℝ) : Prop :=
  ∃ vs vs', r = .ok vs ∧ r' = .ok vs' ∧ vs.length = B ∧ vs'.length = B ∧
    ∀ b (h : b < vs.length) (h' : b < vs'.length), |vs'[b] - (vs[b] + K b)| ≤ ε b

end Spec
