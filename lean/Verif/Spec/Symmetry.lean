import Mathlib.Data.Set.Function
import Mathlib.Order.Interval.Set.Defs
import Verif.Model.CKY
import Verif.Model.DepTree
import Verif.Model.NonProj
import Verif.Model.SemiMarkov
import Verif.Spec.Lengths

/-! Specification: renaming the tags, classes, labels or symbols of a table of potentials. -/

namespace Spec

/-- `σ` is a renaming (a permutation) of the numbers below `n`. -/
def Renames (σ : ℕ → ℕ) (n : ℕ) : Prop := Set.BijOn σ (Set.Iio n) (Set.Iio n)

theorem Renames.lt {σ : ℕ → ℕ} {n i : ℕ} (h : Renames σ n) (hi : i < n) : σ i < n := Set.BijOn.mapsTo h hi

variable {γ : Type}

/-- Linear-chain potentials in which tag `i` plays the role that `σ i` has in `p`. -/
def renameTags (σ : ℕ → ℕ) (p : T4 γ) : T4 γ := { p with get := fun b n i j => p.get b n (σ i) (σ j) }

/-- Semi-Markov potentials with renamed classes. -/
def renameClasses (σ : ℕ → ℕ) (p : T5 γ) : T5 γ := { p with get := fun b n k i j => p.get b n k (σ i) (σ j) }

/-- `TreeCRF` potentials with renamed labels. -/
def renameSpans (σ : ℕ → ℕ) (p : T4 γ) : T4 γ := { p with get := fun b i j a => p.get b i j (σ a) }

/-- Labelled dependency potentials with renamed labels. -/
def renameArcs (σ : ℕ → ℕ) (q : DepTree.Arcs γ) : DepTree.Arcs γ := { q with get := fun b i j l => q.get b i j (σ l) }

/-- The renaming of all symbols of a grammar, nonterminals (`σ`) first and then preterminals (`τ`). -/
def renameSymbol (NT : ℕ) (σ τ : ℕ → ℕ) (s : ℕ) : ℕ := if s < NT then σ s else NT + τ (s - NT)

/-- A grammar with renamed nonterminals and preterminals. -/
def renameGrammar (σ τ : ℕ → ℕ) (p : CKY.Scores γ) : CKY.Scores γ :=
  { p with
    term := fun b n t => p.term b n (τ t)
    rule := fun b X y z => p.rule b (σ X) (renameSymbol p.NT σ τ y) (renameSymbol p.NT σ τ z)
    root := fun b X => p.root b (σ X)
    mark := p.mark.map fun m b w i X => m b w i (σ X) }

/-- The sum of the semiring does not depend on the order of the terms. -/
def OrderFree (S : SR γ) : Prop := ∀ l l' : List γ, l.Perm l' → S.sum l = S.sum l'

/-- Linear-chain potentials of the sequences read from right to left: the edges come in the opposite order, with old and new tag exchanged.  Row `b` is reversed
within its own length. -/
def reverseRows (p : T4 γ) (lengths : Option (List ℕ)) : T4 γ :=
  { p with get := fun b n i j => p.get b (lenOf (p.d1 + 1) lengths b - 1 - 1 - n) j i }

/-- Non-projective dependency potentials of a sentence whose words are written in another order: word `i` is word `σ i` of the given one. -/
def reorderWords (σ : ℕ → ℕ) (p : NonProj.Table) : NonProj.Table := { p with get := fun b h m => p.get b (σ h) (σ m) }

end Spec
