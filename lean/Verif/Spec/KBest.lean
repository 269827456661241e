import Mathlib.Data.Real.Basic
import Mathlib.Data.List.Nodup

/-! Specification of "the k best structures". -/

namespace Spec

/-- `ys` lists `k` different structures, from best to worst, and no structure outside the list beats one in it. -/
structure IsKBest {ι : Type} (score : ι → ℝ) (k : ℕ) (ys : List ι) : Prop where
  distinct : ys.Nodup
  length : ys.length = k
  sorted : ys.Pairwise fun y y' => score y' ≤ score y
  best : ∀ y' ∉ ys, ∀ y ∈ ys, score y' ≤ score y

end Spec
