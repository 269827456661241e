import Verif.Spec.Chain

/-! Specification: the score of a tag sequence in a tagger with emission and transition scores. -/

open Finset

namespace Spec

/-- The score of the tags `y`: `em n c` for tag `c` at position `n`, `tr c' c` for the step from tag `c` to tag `c'`. -/
def taggerScore {m C : ℕ} {R : Type} [AddCommMonoid R] (em : ℕ → Fin C → R) (tr : Fin C → Fin C → R) (y : Tags m C) : R :=
  ∑ n : Fin (m + 1), em n (y n) + ∑ n : Fin m, tr (y n.succ) (y n.castSucc)

end Spec
