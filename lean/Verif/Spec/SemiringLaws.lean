import Verif.Model.Semiring
import Mathlib.Data.List.Perm.Basic

/-! What a user expects of a semiring: specification. -/

namespace Spec

/-- The laws of a commutative semiring for the elements in `P`, for `mul`, `one` and sums of non-empty lists. -/
structure SemiringLaws {α : Type} (S : SR α) (P : α → Prop) : Prop where
  /-- products and sums of elements are elements -/
  mul_mem : ∀ a b, P a → P b → P (S.mul a b)
  sum_mem : ∀ xs, xs ≠ [] → (∀ x ∈ xs, P x) → P (S.sum xs)
  /-- the order of the summands does not matter -/
  sum_perm : ∀ xs ys, (∀ x ∈ xs, P x) → xs.Perm ys → S.sum xs = S.sum ys
  /-- the grouping of the summands does not matter -/
  sum_group : ∀ xss : List (List α), xss ≠ [] → (∀ xs ∈ xss, xs ≠ [] ∧ ∀ x ∈ xs, P x) → S.sum (xss.map S.sum) = S.sum xss.flatten
  sum_single : ∀ a, P a → S.sum [a] = a
  mul_comm : ∀ a b, P a → P b → S.mul a b = S.mul b a
  mul_assoc : ∀ a b c, P a → P b → P c → S.mul (S.mul a b) c = S.mul a (S.mul b c)
  /-- products distribute over sums -/
  mul_sum : ∀ a xs, xs ≠ [] → P a → (∀ x ∈ xs, P x) → S.mul a (S.sum xs) = S.sum (xs.map (S.mul a))

/-- `one` is neutral for the elements in `P`. -/
def OneLaw {α : Type} (S : SR α) (P : α → Prop) : Prop := ∀ a, P a → S.mul a S.one = a ∧ S.mul S.one a = a

end Spec
