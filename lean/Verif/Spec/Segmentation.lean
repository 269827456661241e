import Mathlib.Data.Fintype.Card
import Mathlib.Data.Fintype.EquivFin
import Mathlib.Data.Finite.Prod
import Mathlib.Data.Finite.Sigma
import Mathlib.Data.Finite.Sum
import Mathlib.Data.Set.Finite.Range
import Mathlib.Data.Real.Basic
import Mathlib.Algebra.BigOperators.Group.Finset.Basic
import Mathlib.Algebra.BigOperators.Group.List.Basic

/-! Specification of the segmentations of a semi-Markov model. -/

namespace Spec

/-- The lists of segments `(length, class)`, each of length between 1 and `K - 1`, that lead from position `n` to position `L`. -/
abbrev Segments (K C n L : ℕ) : Type :=
  {l : List (ℕ × Fin C) // (∀ s ∈ l, 1 ≤ s.1 ∧ s.1 < K) ∧ n + (l.map Prod.fst).sum = L}

/-- A segmentation of `L` steps: an initial class and segments of total length `L`. -/
abbrev Segmentation (K C L : ℕ) : Type := Fin C × Segments K C 0 L

/-- There are finitely many lists of segments from `n` to `L`. -/
theorem finite_segments (K C n L : ℕ) : Finite (Segments K C n L) := by
  induction h : L - n using Nat.strong_induction_on generalizing n with
  | _ m ih =>
    subst h
    let f : Unit ⊕ (Σ k : Fin (L - n), Fin C × Segments K C (n + (k + 1)) L) → List (ℕ × Fin C) := fun x =>
      match x with
      | .inl _ => []
      | .inr ⟨k, c, l⟩ => ((k : ℕ) + 1, c) :: l.1
    have h1 : ∀ k : Fin (L - n), Finite (Fin C × Segments K C (n + (k + 1)) L) := fun k => by
      have := ih (L - (n + (k + 1))) (by have := k.2; omega) _ rfl
      infer_instance
    refine Set.Finite.subset (Set.finite_range f) ?_
    rintro l ⟨h2, h3⟩
    cases l with
    | nil => exact ⟨.inl (), rfl⟩
    | cons s l =>
      have h4 := h2 s List.mem_cons_self
      simp only [List.map_cons, List.sum_cons] at h3
      refine ⟨.inr ⟨⟨s.1 - 1, by omega⟩, s.2, ⟨l, fun t ht => h2 t (List.mem_cons_of_mem _ ht), ?_⟩⟩, ?_⟩
      · simp only; omega
      · simp only [f]
        rw [Nat.sub_add_cancel h4.1]

noncomputable instance (K C n L : ℕ) : Fintype (Segments K C n L) := have := finite_segments K C n L; Fintype.ofFinite _

/-- The segments `(start, length, class, previous class)` of a list of segments that starts at position `n` after class `c`. -/
def segEdges {C : ℕ} : ℕ → Fin C → List (ℕ × Fin C) → List (ℕ × ℕ × Fin C × Fin C)
  | _, _, [] => []
  | n, c, (k, c') :: l => (n, k, c', c) :: segEdges (n + k) c' l

/-- The score of a segmentation: the sum of the potentials `φ start length class previous`. -/
def segScore {K C L : ℕ} (φ : ℕ → ℕ → ℕ → ℕ → ℝ) (y : Segmentation K C L) : ℝ :=
  ((segEdges 0 y.1 y.2.1).map fun s => φ s.1 s.2.1 s.2.2.1 s.2.2.2).sum

/-- The product of the weights of the segments of a segmentation. -/
def segWeight {R : Type} [CommSemiring R] {K C L : ℕ} (w : ℕ → ℕ → ℕ → ℕ → R) (y : Segmentation K C L) : R :=
  ((segEdges 0 y.1 y.2.1).map fun s => w s.1 s.2.1 s.2.2.1 s.2.2.2).prod

end Spec
