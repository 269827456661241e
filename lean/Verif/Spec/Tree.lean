import Mathlib.Data.Fintype.Card
import Mathlib.Data.Fintype.EquivFin
import Mathlib.Data.Finite.Prod
import Mathlib.Data.Finite.Sigma
import Mathlib.Data.Finite.Sum
import Mathlib.Data.Set.Finite.Range
import Mathlib.Data.Real.Basic
import Mathlib.Algebra.BigOperators.Group.Finset.Basic

/-! Specification of labelled binary trees over the words of a sentence. -/

namespace Spec

/-- A binary tree in which every node carries one of `NT` labels. -/
inductive LTree (NT : ℕ) where
  | leaf (a : Fin NT)
  | node (a : Fin NT) (l r : LTree NT)
  deriving DecidableEq

namespace LTree
variable {NT : ℕ}

/-- Number of words covered. -/
def size : LTree NT → ℕ
  | leaf _ => 1
  | node _ l r => l.size + r.size

/-- The labelled spans `(first word, last word, label)` of a tree whose first word is word `i`. -/
def spans : ℕ → LTree NT → List (ℕ × ℕ × Fin NT)
  | i, leaf a => [(i, i, a)]
  | i, node a l r => (i, i + l.size + r.size - 1, a) :: (l.spans i ++ r.spans (i + l.size))

theorem size_pos : ∀ t : LTree NT, 0 < t.size
  | leaf _ => Nat.one_pos
  | node _ l _ => Nat.add_pos_left l.size_pos _

end LTree

/-- The trees over `n` words. -/
abbrev Trees (NT n : ℕ) : Type := {t : LTree NT // t.size = n}

/-- There are finitely many trees over `n` words. -/
theorem finite_trees (NT n : ℕ) : Finite (Trees NT n) := by
  induction n using Nat.strong_induction_on with
  | _ n ih =>
    have h1 : ∀ k : Fin n, Finite (Trees NT k) := fun k => ih k k.2
    let f : Fin NT ⊕ (Σ k : Fin n × Fin n, Fin NT × Trees NT k.1 × Trees NT k.2) → LTree NT := fun x =>
      match x with
      | .inl a => .leaf a
      | .inr ⟨_, a, l, r⟩ => .node a l.1 r.1
    have h2 : ∀ k : Fin n × Fin n, Finite (Fin NT × Trees NT k.1 × Trees NT k.2) := fun k => by
      have := h1 k.1
      have := h1 k.2
      infer_instance
    refine Set.Finite.subset (Set.finite_range f) ?_
    intro t ht
    have ht : t.size = n := ht
    cases t with
    | leaf a => exact ⟨.inl a, rfl⟩
    | node a l r =>
      have h3 := l.size_pos
      have h4 := r.size_pos
      have h5 : l.size + r.size = n := ht
      exact ⟨.inr ⟨(⟨l.size, by omega⟩, ⟨r.size, by omega⟩), a, ⟨l, rfl⟩, ⟨r, rfl⟩⟩, rfl⟩

noncomputable instance (NT n : ℕ) : Fintype (Trees NT n) := have := finite_trees NT n; Fintype.ofFinite _

/-- The score of a tree: the sum of the potentials of its labelled spans. -/
def treeScore {NT n : ℕ} (φ : ℕ → ℕ → ℕ → ℝ) (t : Trees NT n) : ℝ := ((t.1.spans 0).map fun s => φ s.1 s.2.1 s.2.2).sum

/-- The product of the weights of the labelled spans of a tree. -/
def treeProd {R : Type} [CommSemiring R] {NT n : ℕ} (w : ℕ → ℕ → ℕ → R) (t : Trees NT n) : R :=
  ((t.1.spans 0).map fun s => w s.1 s.2.1 s.2.2).prod

end Spec
