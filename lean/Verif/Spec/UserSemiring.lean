import Verif.Spec.SemiringLaws
import Mathlib.Data.Fintype.Card
import Mathlib.Data.Finset.Dedup

/-! What a semiring class of a user has to provide, and what the dynamic programs should return for it: specification. -/

noncomputable section
namespace Spec

/-- A class with the interface `Semiring` that is a commutative semiring: the laws of `SemiringLaws`, `one` is neutral, `zero` is neutral for sums and
absorbs products; its tensors carry no state besides their numbers. -/
structure UserSemiring {α : Type} (S : SR α) : Prop where
  laws : SemiringLaws S fun _ => True
  one : OneLaw S fun _ => True
  zero_add : ∀ a, S.sum [S.zero, a] = a
  zero_mul : ∀ a, S.mul S.zero a = S.zero
  detach : ∀ x, S.detach x = x
  setData : ∀ x v, S.setData x v = v

/-- The semiring sum, over all structures `y : ι`, of the semiring product of the entries of `y`. -/
def total {α ι : Type} [Fintype ι] (S : SR α) (entries : ι → List α) : α :=
  S.sum (Finset.univ.toList.map fun y => (entries y).foldr S.mul S.one)

end Spec
