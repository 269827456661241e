import Mathlib.Data.EReal.Operations
import Mathlib.Data.Fintype.Card
import Verif.Spec.KBest

/-! Specification of the slots of `kmax` when there may be fewer than `k` structures. -/

namespace Spec

/-- The `k` slots of `v` hold the scores of the best structures `ys`, from best to worst, as many as there are.  If there are fewer than `k`, the slots after them hold numbers of
at most `low`. -/
structure Slots {ι : Type} [Fintype ι] (score : ι → ℝ) (k : ℕ) (low : ℝ) (v : List EReal) (ys : List ι) : Prop where
  best : IsKBest score (min k (Fintype.card ι)) ys
  length : v.length = k
  head : ∀ i (hi : i < ys.length), v[i]? = some ((score ys[i] : ℝ) : EReal)
  tail : ∀ i, ys.length ≤ i → ∀ x, v[i]? = some x → x ≤ (low : ℝ)

end Spec
