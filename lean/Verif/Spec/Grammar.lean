import Mathlib.Data.Fintype.Card
import Mathlib.Data.Fintype.EquivFin
import Mathlib.Data.Fintype.Sum
import Mathlib.Data.Finite.Prod
import Mathlib.Data.Finite.Sigma
import Mathlib.Data.Finite.Sum
import Mathlib.Data.Set.Finite.Range
import Mathlib.Data.Real.Basic
import Mathlib.Algebra.BigOperators.Group.Finset.Basic

/-! Specification of the derivations of a context-free grammar in binary form. -/

namespace Spec

/-- A binary tree: inner nodes carry one of `NT` nonterminals, leaves an element of `A`. -/
inductive GTree (NT : ℕ) (A : Type) where
  | leaf (a : A)
  | node (X : Fin NT) (l r : GTree NT A)

namespace GTree
variable {NT : ℕ} {A : Type}

/-- Number of leaves. -/
def size : GTree NT A → ℕ
  | leaf _ => 1
  | node _ l r => l.size + r.size

theorem size_pos : ∀ t : GTree NT A, 0 < t.size
  | leaf _ => Nat.one_pos
  | node _ l _ => Nat.add_pos_left l.size_pos _

end GTree

/-- The trees over `n` words. -/
abbrev GTrees (NT : ℕ) (A : Type) (n : ℕ) : Type := {t : GTree NT A // t.size = n}

/-- There are finitely many trees over `n` words. -/
theorem finite_gtrees (NT : ℕ) (A : Type) [Finite A] (n : ℕ) : Finite (GTrees NT A n) := by
  induction n using Nat.strong_induction_on with
  | _ n ih =>
    have h1 : ∀ k : Fin n, Finite (GTrees NT A k) := fun k => ih k k.2
    let f : A ⊕ (Σ k : Fin n × Fin n, Fin NT × GTrees NT A k.1 × GTrees NT A k.2) → GTree NT A := fun x =>
      match x with
      | .inl a => .leaf a
      | .inr ⟨_, a, l, r⟩ => .node a l.1 r.1
    have h2 : ∀ k : Fin n × Fin n, Finite (Fin NT × GTrees NT A k.1 × GTrees NT A k.2) := fun k => by
      have := h1 k.1
      have := h1 k.2
      infer_instance
    refine Set.Finite.subset (Set.finite_range f) ?_
    intro t ht
    have ht : t.size = n := ht
    cases t with
    | leaf a => exact ⟨.inl a, rfl⟩
    | node a l r =>
      have h3 := l.size_pos
      have h4 := r.size_pos
      have h5 : l.size + r.size = n := ht
      exact ⟨.inr ⟨(⟨l.size, by omega⟩, ⟨r.size, by omega⟩), a, ⟨l, rfl⟩, ⟨r, rfl⟩⟩, rfl⟩

noncomputable instance (NT : ℕ) (A : Type) [Finite A] (n : ℕ) : Fintype (GTrees NT A n) := have := finite_gtrees NT A n; Fintype.ofFinite _

/-- A derivation: every leaf is a word, covered by one of the `T` preterminals. -/
abbrev Deriv (NT T : ℕ) : Type := GTree NT (Fin T)

namespace Deriv
variable {NT T : ℕ}

/-- The symbol at the root, numbered as in the table of rules: first the nonterminals, then the preterminals. -/
def sym : Deriv NT T → ℕ
  | .leaf t => NT + t
  | .node X _ _ => X

/-- The rules used, `(parent, left child, right child)`, with multiplicity. -/
def rules : Deriv NT T → List (ℕ × ℕ × ℕ)
  | .leaf _ => []
  | .node X l r => (↑X, sym l, sym r) :: (rules l ++ rules r)

/-- The preterminals `(position, preterminal)` of a derivation whose first word is word `i`. -/
def words : ℕ → Deriv NT T → List (ℕ × ℕ)
  | i, .leaf t => [(i, ↑t)]
  | i, .node _ l r => words i l ++ words (i + l.size) r

/-- The constituents of at least two words `(first word, last word, nonterminal)` of a derivation whose first word is word `i`. -/
def spans : ℕ → Deriv NT T → List (ℕ × ℕ × ℕ)
  | _, .leaf _ => []
  | i, .node X l r => (i, i + l.size + r.size - 1, ↑X) :: (spans i l ++ spans (i + l.size) r)

/-- The root is a nonterminal. -/
def isNode : Deriv NT T → Bool
  | .leaf _ => false
  | .node _ _ _ => true

/-- All subtrees with the position of their first word, for a derivation whose first word is word `i`. -/
def subs : ℕ → Deriv NT T → List (ℕ × Deriv NT T)
  | i, .leaf t => [(i, .leaf t)]
  | i, .node X l r => (i, .node X l r) :: (subs i l ++ subs (i + l.size) r)

/-- The cell `(first word, last word, symbol)` of a subtree. -/
def cell (s : ℕ × Deriv NT T) : ℕ × ℕ × ℕ := (s.1, s.1 + s.2.size - 1, s.2.sym)

/-- The table of cells of a derivation: 1 at the cell of every subtree, 0 elsewhere. -/
noncomputable def table (d : Deriv NT T) (i j A : ℕ) : ℝ := if (i, j, A) ∈ (subs 0 d).map cell then 1 else 0

/-- The number of edges on the longest path down to a leaf. -/
def height : Deriv NT T → ℕ
  | .leaf _ => 0
  | .node _ l r => max (height l) (height r) + 1

end Deriv

/-- The derivations of a sentence of `n` words: the root is a nonterminal. -/
abbrev Derivs (NT T n : ℕ) : Type := {d : Deriv NT T // d.size = n ∧ d.isNode = true}

noncomputable instance (NT T n : ℕ) : Fintype (Derivs NT T n) :=
  have : Finite (Derivs NT T n) :=
    Finite.of_injective (fun d : Derivs NT T n => (⟨d.1, d.2.1⟩ : GTrees NT (Fin T) n)) fun d d' h => Subtype.ext (Subtype.mk.inj h)
  Fintype.ofFinite _

/-- The weight of a derivation: root weight times rule weights times preterminal weights. -/
def derivWeight {R : Type} [CommSemiring R] {NT T n : ℕ} (term : ℕ → ℕ → R) (rule : ℕ → ℕ → ℕ → R) (root : ℕ → R) (d : Derivs NT T n) : R :=
  root d.1.sym * ((d.1.rules.map fun x => rule x.1 x.2.1 x.2.2).prod * ((d.1.words 0).map fun x => term x.1 x.2).prod)

/-- The score of a derivation: root score plus rule scores plus preterminal scores. -/
def derivScore {NT T n : ℕ} (term : ℕ → ℕ → ℝ) (rule : ℕ → ℕ → ℕ → ℝ) (root : ℕ → ℝ) (d : Derivs NT T n) : ℝ :=
  root d.1.sym + ((d.1.rules.map fun x => rule x.1 x.2.1 x.2.2).sum + ((d.1.words 0).map fun x => term x.1 x.2).sum)

end Spec
