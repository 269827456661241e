import Mathlib.Algebra.BigOperators.Group.Finset.Basic
import Mathlib.Data.Fintype.Pi
import Mathlib.Data.Real.Basic
import Mathlib.Logic.Function.Iterate

/-! Specification of dependency trees.

The words of a sentence are numbered `1 .. n`, the artificial root is 0.  A head vector gives every word its head, a word or the root. -/

open Finset

namespace Spec

/-- A head vector: `h k` is the head of word `k + 1`. -/
abbrev Heads (n : ℕ) : Type := Fin n → Fin (n + 1)

/-- The head of node `k` (the root is its own head). -/
def headOf {n : ℕ} (h : Heads n) (k : ℕ) : ℕ := if hk : 1 ≤ k ∧ k ≤ n then h ⟨k - 1, by omega⟩ else 0

/-- `x` is `y` or an ancestor of `y`. -/
def Dominates {n : ℕ} (h : Heads n) (x y : ℕ) : Prop := ∃ t : ℕ, (headOf h)^[t] y = x

/-- A tree: following the heads from any word leads to the root. -/
def IsDepTree {n : ℕ} (h : Heads n) : Prop := ∀ k : Fin n, Dominates h 0 (k + 1)

/-- `y` lies strictly between `a` and `b`. -/
def Between (a y b : ℕ) : Prop := a < y ∧ y < b ∨ b < y ∧ y < a

/-- Projective: every word strictly between a word and its head is a descendant of that head. -/
def IsProjective {n : ℕ} (h : Heads n) : Prop := ∀ (k : Fin n) (y : ℕ), Between (k + 1) y (h k) → Dominates h (h k) y

/-- Exactly one word is attached to the root. -/
def IsSingleRoot {n : ℕ} (h : Heads n) : Prop := ∃! k : Fin n, h k = 0

/-- The projective dependency trees over `n` words: all of them, or only those with a single child of the root. -/
abbrev ProjTrees (multiroot : Bool) (n : ℕ) : Type :=
  {h : Heads n // IsDepTree h ∧ IsProjective h ∧ (multiroot = false → IsSingleRoot h)}

noncomputable instance (m : Bool) (n : ℕ) : Fintype (ProjTrees m n) := by
  classical exact Subtype.fintype _

/-- Where the user's table holds the score of the arc from head `hd` to word `k + 1`: root scores are on the diagonal, the score of an arc between words
is at (head, word), both counted from 0. -/
def arcCell (hd k : ℕ) : ℕ × ℕ := if hd = 0 then (k, k) else (hd - 1, k)

/-- The product of the potentials of the arcs of a tree. -/
def depProd {R : Type} [CommMonoid R] {n : ℕ} (φ : ℕ → ℕ → R) (h : Heads n) : R := ∏ k : Fin n, φ (arcCell (h k) k).1 (arcCell (h k) k).2

/-- The sum of the potentials of the arcs of a tree. -/
def depScore {R : Type} [AddCommMonoid R] {n : ℕ} (φ : ℕ → ℕ → R) (h : Heads n) : R := ∑ k : Fin n, φ (arcCell (h k) k).1 (arcCell (h k) k).2

/-- The spanning trees over `n` words (arcs may cross): all of them, or only those with a single child of the root. -/
abbrev SpanTrees (multiroot : Bool) (n : ℕ) : Type := {h : Heads n // IsDepTree h ∧ (multiroot = false → IsSingleRoot h)}

noncomputable instance (m : Bool) (n : ℕ) : Fintype (SpanTrees m n) := by
  classical exact Subtype.fintype _

/-- A labelled tree: every word's arc carries one of `L` labels. -/
abbrev LabelledTrees (multiroot : Bool) (n L : ℕ) : Type := ProjTrees multiroot n × (Fin n → Fin L)

/-- The product of the potentials of the labelled arcs. -/
def labProd {R : Type} [CommMonoid R] {m : Bool} {n L : ℕ} (φ : ℕ → ℕ → ℕ → R) (t : LabelledTrees m n L) : R :=
  ∏ k : Fin n, φ (arcCell (t.1.1 k) k).1 (arcCell (t.1.1 k) k).2 (t.2 k)

/-- The sum of the potentials of the labelled arcs. -/
def labScore {R : Type} [AddCommMonoid R] {m : Bool} {n L : ℕ} (φ : ℕ → ℕ → ℕ → R) (t : LabelledTrees m n L) : R :=
  ∑ k : Fin n, φ (arcCell (t.1.1 k) k).1 (arcCell (t.1.1 k) k).2 (t.2 k)

/-- The tree has the arc that entry `(i, j)` of a table stands for: word `j + 1` has head `i + 1`, or is attached to the root if `i = j`. -/
def HasArc {n : ℕ} (h : Heads n) (i j : ℕ) : Prop := ∃ k : Fin n, (k : ℕ) = j ∧ if i = j then h k = 0 else (h k : ℕ) = i + 1

/-- The labelled tree has the arc that entry `(i, j, l)` stands for. -/
def HasLabArc {m : Bool} {n L : ℕ} (t : LabelledTrees m n L) (i j l : ℕ) : Prop :=
  ∃ k : Fin n, (k : ℕ) = j ∧ (if i = j then t.1.1 k = 0 else (t.1.1 k : ℕ) = i + 1) ∧ (t.2 k : ℕ) = l

end Spec
