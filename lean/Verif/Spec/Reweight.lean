import Mathlib.Analysis.SpecialFunctions.Log.Basic

/-! Specification for C141: what moving the potential of one part does to a row. -/

namespace Spec

/-- A row with `partition` `z` and the marginal `m` of a part before, `z'` and `m'` after its potential moved by `δ`: the weight of the structures with the part is
multiplied by `exp δ`, that of the others stays. -/
def Reweighted (δ z z' m m' : ℝ) : Prop :=
  0 < 1 - m + m * Real.exp δ ∧ z' = z + Real.log (1 - m + m * Real.exp δ) ∧ m' = m * Real.exp δ / (1 - m + m * Real.exp δ)

end Spec
