import Mathlib.Data.Real.Basic
import Mathlib.Algebra.BigOperators.Group.Finset.Basic
import Mathlib.Data.Fintype.BigOperators

/-! Specification: the probability simplex and the distance of vectors. -/

noncomputable section
namespace Spec

/-- A vector of `n` non-negative numbers that sum to 1. -/
structure IsSimplex (n : ℕ) (p : List ℝ) : Prop where
  length : p.length = n
  nonneg : ∀ x ∈ p, 0 ≤ x
  total : p.sum = 1

/-- The squared Euclidean distance. -/
def sqDist (v p : List ℝ) : ℝ := (List.zipWith (fun x y => (x - y) ^ 2) v p).sum

/-- The inner product. -/
def dot (v p : List ℝ) : ℝ := (List.zipWith (fun x y => x * y) v p).sum

/-- `w` is the point of the probability simplex that is closest to `v`, and the only one. -/
def IsProjection (v w : List ℝ) : Prop :=
  IsSimplex v.length w ∧ ∀ p, IsSimplex v.length p → p ≠ w → sqDist v w < sqDist v p

end Spec
