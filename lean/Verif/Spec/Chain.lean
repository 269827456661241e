import Mathlib.Algebra.BigOperators.Fin
import Mathlib.Data.Fintype.Pi

/-! Specification: sums over tag sequences. -/

open Finset

namespace Spec

/-- A sequence of `m + 1` tags in `{0..C-1}`. -/
abbrev Tags (m C : ℕ) := Fin (m + 1) → Fin C

/-- The product of the weights of the `m` edges of a tag sequence: edge `n` goes from tag `n` to tag `n+1`, and its weight
is read as `w n (new tag) (old tag)`. -/
def seqProd {R : Type} [CommSemiring R] {m C : ℕ} (w : ℕ → Fin C → Fin C → R) (y : Tags m C) : R :=
  ∏ n : Fin m, w n (y n.succ) (y n.castSucc)

/-- The sum over all tag sequences of the product of their edge weights. -/
def chainSum {R : Type} [CommSemiring R] {C : ℕ} (m : ℕ) (w : ℕ → Fin C → Fin C → R) : R :=
  ∑ y : Tags m C, seqProd w y

/-- The score (sum of potentials) of a tag sequence. -/
def seqScore {m C : ℕ} {R : Type} [AddCommMonoid R] (φ : ℕ → Fin C → Fin C → R) (y : Tags m C) : R :=
  ∑ n : Fin m, φ n (y n.succ) (y n.castSucc)

/-- The tag sequence `y` goes from tag `j` at position `n` to tag `i` at position `n + 1`. -/
def UsesEdge {m C : ℕ} (y : Tags m C) (n : ℕ) (i j : Fin C) : Prop :=
  ∃ h : n < m, y ⟨n + 1, by omega⟩ = i ∧ y ⟨n, by omega⟩ = j

instance {m C : ℕ} (y : Tags m C) (n : ℕ) (i j : Fin C) : Decidable (UsesEdge y n i j) := by
  unfold UsesEdge; infer_instance

end Spec
