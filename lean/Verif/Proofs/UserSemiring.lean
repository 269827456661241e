import Verif.Spec.UserSemiring
import Verif.Proofs.ExactDP

/-! The dynamic programs in a commutative semiring of a user. -/

open Finset Spec

noncomputable section
namespace Spec.UserSemiring
variable {α : Type} {S : SR α}

theorem add_comm' (h : UserSemiring S) (a b : α) : S.sum [a, b] = S.sum [b, a] :=
  h.laws.sum_perm _ _ (fun _ _ => trivial) (List.Perm.swap _ _ _)

theorem add_assoc' (h : UserSemiring S) (a b c : α) : S.sum [S.sum [a, b], c] = S.sum [a, S.sum [b, c]] := by
  have h1 := h.laws.sum_group [[a, b], [c]] (by simp) (by simp)
  have h2 := h.laws.sum_group [[a], [b, c]] (by simp) (by simp)
  simp only [List.map_cons, List.map_nil, h.laws.sum_single _ trivial, List.flatten_cons, List.flatten_nil, List.cons_append, List.nil_append] at h1 h2
  rw [h1, h2]

theorem distrib (h : UserSemiring S) (a b c : α) : S.mul a (S.sum [b, c]) = S.sum [S.mul a b, S.mul a c] := h.laws.mul_sum a [b, c] (by simp) trivial (by simp)

/-- The commutative semiring of the class. -/
@[reducible] def commSemiring (h : UserSemiring S) : CommSemiring α where
  add a b := S.sum [a, b]
  zero := S.zero
  mul := S.mul
  one := S.one
  add_assoc := h.add_assoc'
  zero_add := h.zero_add
  add_zero a := (h.add_comm' a S.zero).trans (h.zero_add a)
  add_comm := h.add_comm'
  mul_assoc a b c := h.laws.mul_assoc a b c trivial trivial trivial
  one_mul a := (h.one a trivial).2
  mul_one a := (h.one a trivial).1
  mul_comm a b := h.laws.mul_comm a b trivial trivial
  left_distrib := h.distrib
  right_distrib a b c := by
    show S.mul (S.sum [a, b]) c = S.sum [S.mul a c, S.mul b c]
    rw [h.laws.mul_comm _ c trivial trivial, h.distrib, h.laws.mul_comm c a trivial trivial, h.laws.mul_comm c b trivial trivial]
  zero_mul := h.zero_mul
  mul_zero a := (h.laws.mul_comm a S.zero trivial trivial).trans (h.zero_mul a)
  nsmul := letI : Zero α := ⟨S.zero⟩; letI : Add α := ⟨fun a b => S.sum [a, b]⟩; nsmulRec
  nsmul_zero _ := rfl
  nsmul_succ _ _ := rfl
  npow := letI : One α := ⟨S.one⟩; letI : Mul α := ⟨S.mul⟩; npowRec
  npow_zero _ := rfl
  npow_succ _ _ := rfl
  natCast := letI : Zero α := ⟨S.zero⟩; letI : One α := ⟨S.one⟩; letI : Add α := ⟨fun a b => S.sum [a, b]⟩; Nat.unaryCast
  natCast_zero := rfl
  natCast_succ _ := rfl

theorem sum_eq (h : UserSemiring S) : ∀ xs : List α, xs ≠ [] → S.sum xs = (letI := h.commSemiring; xs.sum)
  | [], hx => (hx rfl).elim
  | [a], _ => by
    letI := h.commSemiring
    rw [h.laws.sum_single a trivial, List.sum_singleton]
  | a :: b :: xs, _ => by
    letI := h.commSemiring
    have h1 := h.laws.sum_group [[a], b :: xs] (by simp) (by simp)
    simp only [List.map_cons, List.map_nil, h.laws.sum_single _ trivial, List.flatten_cons, List.flatten_nil, List.cons_append, List.nil_append, List.append_nil] at h1
    rw [List.sum_cons, ← h.sum_eq (b :: xs) (by simp)]
    exact h1.symm

theorem prod_eq (h : UserSemiring S) (xs : List α) : xs.foldr S.mul S.one = (letI := h.commSemiring; xs.prod) := rfl

theorem rel (h : UserSemiring S) : letI := h.commSemiring; SRRel S (fun a x : α => a = x) := by
  letI := h.commSemiring
  refine ⟨?_, ?_⟩
  · rintro a b _ _ rfl rfl; rfl
  · intro as xs hne hf
    rw [List.forall₂_eq_eq_eq] at hf
    subst hf
    exact h.sum_eq as hne

theorem tame (h : UserSemiring S) : letI := h.commSemiring; Generic.Tame S (fun a x : α => a = x) 0 1 := by
  letI := h.commSemiring
  constructor <;> intros <;> (try simp only [h.setData, h.detach]) <;> first | rfl | assumption

/-- The specification is a finite sum of products. -/
theorem total_eq (h : UserSemiring S) {ι : Type} [Fintype ι] [Nonempty ι] (entries : ι → List α) :
    total S entries = (letI := h.commSemiring; ∑ y, (entries y).prod) := by
  letI := h.commSemiring
  rw [total, h.sum_eq _ (by simp [Finset.univ_eq_empty_iff])]
  rw [← Finset.sum_map_toList]
  rfl

end Spec.UserSemiring

namespace Generic
variable {A : Algo} {lengths : Option (List ℕ)} {B : ℕ} {E : ℕ → List ℕ → Prop}
  {ι π : ℕ → Type} [∀ b, Fintype (ι b)] [∀ b, Fintype (π b)] {parts : ∀ b, ι b → Multiset (List ℕ)} {ones : ∀ b, ι b → ℕ}
  {atoms : ∀ b, π b → Multiset Atom}

theorem BatchDP.user {α : Type} {S : SR α} (h : UserSemiring S) {p : A.T α} {val : List ℕ → α} (D : BatchDP A p lengths B val E parts ones atoms) :
    A.run S p lengths = .ok ((List.range B).map fun b => letI := h.commSemiring; ∑ y, ((parts b y).map val).prod) := by
  letI := h.commSemiring
  obtain ⟨row, h1, h2⟩ := D.rows
  have h' := h1 S fun v _ => v
  rw [D.map_fst fun v => v] at h'
  have e : A.map (fun v => v) p = p := D.map_id
  rw [e] at h'
  refine h'.trans ?_
  congr 1
  refine List.map_congr_left fun b hb => ?_
  have H := h2 b (List.mem_range.1 hb)
  have h3 := H.rel h.rel h.tame (x := val) (wp := val) (wm := fun _ => 0) (fun _ _ => rfl) (fun e => h.setData _ _)
  rw [h3]
  have : ∀ y, ((atoms b y).map (Atom.weight val (fun _ => (0 : α)) 0 1)).prod = 0 := fun y => by
    obtain ⟨a, ha, hl⟩ := H.leak y
    refine Multiset.prod_eq_zero (Multiset.mem_map.2 ⟨a, ha, ?_⟩)
    cases a <;> first | rfl | exact hl.elim
  rw [sum_eq_zero fun y _ => this y, add_zero]
  simp

/-- A class that is a commutative semiring behaves as `StdSemiring` does over the numbers. -/
theorem BatchDP.user_std {α : Type} {S : SR α} (h : UserSemiring S) {p : A.T α} {val : List ℕ → α} (D : BatchDP A p lengths B val E parts ones atoms) :
    A.run S p lengths = (letI := h.commSemiring; A.run (Semirings.std α) p lengths) := by
  letI := h.commSemiring
  rw [D.user h, D.any_semiring]

end Generic
