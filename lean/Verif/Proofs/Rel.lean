import Mathlib.Algebra.BigOperators.Fin
import Mathlib.Data.Matrix.Mul
import Verif.Model.LinearChain

/-! Relational parametricity for the semiring interface: relations between a raw semiring `S` on `α` and a
commutative semiring `R` that are preserved by `mul` and non-empty `sum`. -/

open Finset

/-- `ρ` is preserved by multiplication and by sums of non-empty lists. -/
structure SRRel {α R : Type} [CommSemiring R] (S : SR α) (ρ : α → R → Prop) : Prop where
  mul : ∀ {a b x y}, ρ a x → ρ b y → ρ (S.mul a b) (x * y)
  sum : ∀ {as : List α} {xs : List R}, as ≠ [] → List.Forall₂ ρ as xs → ρ (S.sum as) xs.sum

namespace SRRel
variable {α R : Type} [CommSemiring R] {S : SR α} {ρ : α → R → Prop}

theorem sum_ofFn (H : SRRel S ρ) {n : ℕ} (hn : 0 < n) {f : Fin n → α} {g : Fin n → R}
    (h : ∀ i, ρ (f i) (g i)) : ρ (S.sum (List.ofFn f)) (∑ i, g i) := by
  rw [← List.sum_ofFn]
  apply H.sum
  · intro hc
    have := congrArg List.length hc
    simp at this; omega
  · rw [List.forall₂_iff_get]
    refine ⟨by simp, ?_⟩
    intro i h₁ h₂
    simp only [List.get_eq_getElem, List.getElem_ofFn]
    exact h _

theorem sum_map (H : SRRel S ρ) {ι : Type} {l : List ι} (hl : l ≠ []) {f : ι → α} {g : ι → R}
    (h : ∀ i ∈ l, ρ (f i) (g i)) : ρ (S.sum (l.map f)) ((l.map g).sum) := by
  apply H.sum
  · simpa using hl
  · rw [List.forall₂_map_left_iff, List.forall₂_map_right_iff, List.forall₂_same]
    exact h

theorem sum_range (H : SRRel S ρ) {n : ℕ} (hn : 0 < n) {f : ℕ → α} {g : ℕ → R}
    (h : ∀ i < n, ρ (f i) (g i)) : ρ (S.sum ((List.range n).map f)) (∑ i ∈ range n, g i) := by
  have : ∑ i ∈ range n, g i = ((List.range n).map g).sum := by
    rw [Finset.sum_range, ← List.sum_ofFn, List.ofFn_eq_map, ← List.map_coe_finRange_eq_range, List.map_map]; rfl
  rw [this]
  apply H.sum_map
  · intro hc; have := congrArg List.length hc; simp at this; omega
  · intro i hi; exact h i (List.mem_range.1 hi)

theorem sum2 (H : SRRel S ρ) {a b : α} {x y : R} (ha : ρ a x) (hb : ρ b y) : ρ (S.sum [a, b]) (x + y) := by
  have := H.sum (as := [a, b]) (xs := [x, y]) (by simp) (by simp [ha, hb])
  simpa using this

theorem matmul (H : SRRel S ρ) {ι κ : Type} {m : ℕ} (hm : 0 < m) {a : ι → Fin m → α} {b : Fin m → κ → α}
    {x : Matrix ι (Fin m) R} {y : Matrix (Fin m) κ R} (ha : ∀ i k, ρ (a i k) (x i k)) (hb : ∀ k j, ρ (b k j) (y k j))
    (i : ι) (j : κ) : ρ (S.matmul a b i j) ((x * y) i j) := by
  rw [Matrix.mul_apply]
  exact H.sum_ofFn hm fun k => H.mul (ha i k) (hb k j)

/-- A map that sends `mul` to `*` and non-empty `sum` to `Σ` is such a relation. -/
theorem of_hom {h : α → R} (hmul : ∀ a b, h (S.mul a b) = h a * h b)
    (hsum : ∀ as, as ≠ [] → h (S.sum as) = (as.map h).sum) : SRRel S (fun a x => h a = x) where
  mul := by rintro a b _ _ rfl rfl; exact hmul a b
  sum := by
    intro as xs hne hf
    rw [hsum as hne]
    congr 1
    induction hf with
    | nil => simp
    | cons h1 _ ih =>
      rename_i l1 l2 _
      simp only [List.map_cons, h1]
      cases l1 with
      | nil => cases l2 <;> simp_all
      | cons => rw [ih (by simp)]

end SRRel

/-- A commutative semiring seen as a raw semiring whose `zero` is an arbitrary element `ζ`. -/
def SR.ofSemiring {R : Type} [CommSemiring R] (ζ : R) : SR R where
  zero := ζ
  one := 1
  mul a b := a * b
  sum xs := xs.sum
  raw0 := 0
  detach x := x
  setData _ v := v

theorem SRRel.ofSemiring {R : Type} [CommSemiring R] (ζ : R) :
    SRRel (SR.ofSemiring ζ) (fun a x : R => a = x) :=
  SRRel.of_hom (h := id) (fun _ _ => rfl) (fun as _ => by simp [SR.ofSemiring])

theorem SRRel.std {R : Type} [CommSemiring R] {S : SR R} (hm : S.mul = (· * ·)) (hs : S.sum = List.sum) :
    SRRel S (fun a x : R => a = x) :=
  SRRel.of_hom (h := id) (fun _ _ => by simp [hm]) (fun as _ => by simp [hs])
