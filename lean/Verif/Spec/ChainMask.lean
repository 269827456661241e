import Verif.Spec.ChainProb

/-! Specification: tag sequences that use allowed transitions only. -/

open Finset

noncomputable section
namespace Spec
variable {m C : ℕ}

/-- The tag sequence takes allowed transitions only.  `A n i j` says that the transition from tag `j` at position `n` to tag `i` at position
`n + 1` is allowed. -/
def Allowed (A : ℕ → Fin C → Fin C → Prop) (y : Tags m C) : Prop := ∀ n : Fin m, A n (y n.succ) (y n.castSucc)

/-- The tag sequences with `m` allowed transitions. -/
abbrev AllowedTags (m : ℕ) (A : ℕ → Fin C → Fin C → Prop) := {y : Tags m C // Allowed A y}

open Classical in
instance (A : ℕ → Fin C → Fin C → Prop) : Fintype (AllowedTags m A) := Subtype.fintype _

/-- The total weight of the allowed sequences. -/
def maskZ (m : ℕ) (A : ℕ → Fin C → Fin C → Prop) (φ : ℕ → Fin C → Fin C → ℝ) : ℝ := ∑ y : AllowedTags m A, Real.exp (seqScore φ y.1)

/-- The probability of an edge, given that all transitions are allowed. -/
def maskEdgeProb (m : ℕ) (A : ℕ → Fin C → Fin C → Prop) (φ : ℕ → Fin C → Fin C → ℝ) (n : ℕ) (i j : Fin C) : ℝ :=
  (∑ y : AllowedTags m A, if UsesEdge y.1 n i j then Real.exp (seqScore φ y.1) else 0) / maskZ m A φ

/-- The cross entropy to the model with potentials `ψ` of the distribution with potentials `φ` over the allowed sequences. -/
def maskCE (m : ℕ) (A : ℕ → Fin C → Fin C → Prop) (φ ψ : ℕ → Fin C → Fin C → ℝ) : ℝ :=
  -∑ y : AllowedTags m A, Real.exp (seqScore φ y.1) / maskZ m A φ * Real.log (chainP ψ y.1)

end Spec
