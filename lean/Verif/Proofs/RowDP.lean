import Mathlib.Algebra.BigOperators.Group.Multiset.Basic
import Verif.Spec.Gibbs
import Verif.Proofs.ChainKBest
import Verif.Proofs.SampleBatch

/-! Dynamic programs whose value for a row is a sum over finitely many structures of the product of the structure's parts.

The structures are of two kinds.  The *real* ones are those of the specification.  The *phantom* ones go through at least one cell that
holds the stand-in `zero`: they would vanish if `zero` were a true zero. -/

open Finset Spec

noncomputable section
namespace Generic

/-- The factors of a product: an entry of the potentials, an entry whose value was overwritten with `zero` (`.data[...] = zero`) but whose
gradient still flows, `zero`, and `one`. -/
inductive Atom where
  | pot (e : List ℕ)
  | masked (e : List ℕ)
  | zero
  | one
  deriving DecidableEq

namespace Atom

/-- The weight of a factor. -/
def weight {R : Type} (wp wm : List ℕ → R) (ζ ω : R) : Atom → R
  | pot e => wp e
  | masked e => wm e
  | zero => ζ
  | one => ω

/-- The stand-ins. -/
def leak : Atom → Prop
  | pot _ => False
  | masked _ => True
  | zero => True
  | one => False

/-- The entry of the potentials to which the gradient flows. -/
def link : Atom → Option (List ℕ)
  | pot e => some e
  | masked e => some e
  | zero => none
  | one => none

/-- The value of a factor. -/
def score (z : ℝ) (v : List ℕ → ℝ) : Atom → ℝ := weight v (fun _ => z) z 0

/-- The gradient of a factor. -/
def grad : Atom → List ℕ → ℝ := weight (fun e => Pi.single e 1) (fun e => Pi.single e 1) 0 0

/-- The event of a factor. -/
def event : Atom → Sampling.Ev := weight (fun e => Finsupp.single e 1) (fun e => Finsupp.single e 1) 0 0

/-- Number of potentials. -/
def size : Atom → ℕ := weight (fun _ => 1) (fun _ => 0) 0 0

end Atom

/-- How a relation treats `zero`, `one` and the operations on `.data`. -/
structure Tame {α R : Type} (S : SR α) (ρ : α → R → Prop) (ζ ω : R) : Prop where
  zero : ρ S.zero ζ
  one : ρ S.one ω
  keep : ∀ {a x}, ρ a x → ρ (S.setData a (S.detach a)) x
  raw : ρ (S.setData S.raw0 S.zero) ζ
  dzz : ρ (S.detach (S.setData S.zero S.zero)) ζ
  doz : ρ (S.detach (S.setData S.one S.zero)) ζ
  dzk : ρ (S.detach (S.setData S.zero (S.detach S.zero))) ζ
  dok : ρ (S.detach (S.setData S.one (S.detach S.one))) ω

/-- `row` computes, over every semiring, the sum over the real structures `ι` of the product of their parts (and some factors `one`), plus
the sum over the phantom structures `π` of the product of their factors.  `E` holds the entries of the potentials that matter. -/
structure RowDP (row : (α : Type) → SR α → (List ℕ → α) → α) (b : ℕ) (E : List ℕ → Prop) {ι π : Type} [Fintype ι] [Fintype π]
    (parts : ι → Multiset (List ℕ)) (ones : ι → ℕ) (atoms : π → Multiset Atom) : Prop where
  rel : ∀ {α R : Type} [CommSemiring R] {S : SR α} {ρ : α → R → Prop} {ζ ω : R}, SRRel S ρ → Tame S ρ ζ ω →
    ∀ {x : List ℕ → α} {wp wm : List ℕ → R}, (∀ e, E e → ρ (x e) (wp e)) → (∀ e, ρ (S.setData (x e) S.zero) (wm e)) →
    ρ (row α S x) (∑ y, ((parts y).map wp).prod * ω ^ ones y + ∑ y, ((atoms y).map (Atom.weight wp wm ζ ω)).prod)
  partE : ∀ y, ∀ e ∈ parts y, E e
  potE : ∀ y, ∀ e, Atom.pot e ∈ atoms y → E e
  head : ∀ e, E e → e.head? = some b
  headM : ∀ y, ∀ e, Atom.masked e ∈ atoms y → e.head? = some b
  leak : ∀ y, ∃ a ∈ atoms y, a.leak

/-- The factors of all structures. -/
def allAtoms {ι π : Type} (parts : ι → Multiset (List ℕ)) (ones : ι → ℕ) (atoms : π → Multiset Atom) : ι ⊕ π → Multiset Atom :=
  Sum.elim (fun y => (parts y).map Atom.pot + Multiset.replicate (ones y) Atom.one) atoms

/-- The score of a real structure. -/
def realScore {ι : Type} (parts : ι → Multiset (List ℕ)) (v : List ℕ → ℝ) (y : ι) : ℝ := ((parts y).map v).sum

/-- The score of a phantom. -/
def phScore {π : Type} (atoms : π → Multiset Atom) (z : ℝ) (v : List ℕ → ℝ) (y : π) : ℝ := ((atoms y).map (Atom.score z v)).sum

/-- The scores of all structures. -/
def tot {ι π : Type} (parts : ι → Multiset (List ℕ)) (atoms : π → Multiset Atom) (z : ℝ) (v : List ℕ → ℝ) : ι ⊕ π → ℝ :=
  Sum.elim (realScore parts v) (phScore atoms z v)

section lemmas
variable {ι π : Type} {parts : ι → Multiset (List ℕ)} {ones : ι → ℕ} {atoms : π → Multiset Atom}

theorem allAtoms_prod {R : Type} [CommSemiring R] (wp wm : List ℕ → R) (ζ ω : R) (y : ι) :
    ((allAtoms parts ones atoms (Sum.inl y)).map (Atom.weight wp wm ζ ω)).prod = ((parts y).map wp).prod * ω ^ ones y := by
  simp only [allAtoms, Sum.elim_inl, Multiset.map_add, Multiset.map_map, Multiset.prod_add, Multiset.map_replicate, Multiset.prod_replicate]
  rfl

theorem tot_eq (z : ℝ) (v : List ℕ → ℝ) (t : ι ⊕ π) :
    tot parts atoms z v t = ((allAtoms parts ones atoms t).map (Atom.score z v)).sum := by
  cases t with
  | inl y =>
    simp only [tot, allAtoms, Sum.elim_inl, Multiset.map_add, Multiset.map_map, Multiset.sum_add, Multiset.map_replicate,
      Multiset.sum_replicate]
    have : (Atom.score z v Atom.one) = 0 := rfl
    rw [this, smul_zero, add_zero]; rfl
  | inr y => rfl

variable [Fintype ι] [Fintype π]

theorem RowDP.rel' {row : (α : Type) → SR α → (List ℕ → α) → α} {b : ℕ} {E : List ℕ → Prop} (D : RowDP row b E parts ones atoms) {α R : Type} [CommSemiring R]
    {S : SR α} {ρ : α → R → Prop} {ζ ω : R} (H : SRRel S ρ) (T : Tame S ρ ζ ω) {x : List ℕ → α} {wp wm : List ℕ → R}
    (hp : ∀ e, E e → ρ (x e) (wp e)) (hm : ∀ e, ρ (S.setData (x e) S.zero) (wm e)) :
    ρ (row α S x) (∑ t : ι ⊕ π, ((allAtoms parts ones atoms t).map (Atom.weight wp wm ζ ω)).prod) := by
  rw [Fintype.sum_sum_type]
  simp only [allAtoms_prod]
  exact D.rel H T hp hm

end lemmas
end Generic
