import Verif.Spec.Crossing
import Verif.Props.Dependency

/-! C20, C21: the trees that `DependencyCRF` sums over are exactly the trees without crossing arcs. -/

open Finset Spec

noncomputable section
namespace Props.NonCrossing

theorem headOf_word {n : ℕ} (h : Heads n) (k : Fin n) : headOf h (k + 1) = h k := by
  have : (1 : ℕ) ≤ (k : ℕ) + 1 ∧ (k : ℕ) + 1 ≤ n := ⟨by omega, k.2⟩
  rw [headOf, dif_pos this]
  rfl

theorem headOf_zero {n : ℕ} (h : Heads n) : headOf h 0 = 0 := by rw [headOf, dif_neg (by omega)]

theorem dom_refl {n : ℕ} (h : Heads n) (x : ℕ) : Dominates h x x := ⟨0, rfl⟩

theorem dom_trans {n : ℕ} {h : Heads n} {x y z : ℕ} : Dominates h x y → Dominates h y z → Dominates h x z := by
  rintro ⟨s, rfl⟩ ⟨t, rfl⟩
  exact ⟨s + t, by rw [Function.iterate_add_apply]⟩

theorem dom_head {n : ℕ} (h : Heads n) (y : ℕ) : Dominates h (headOf h y) y := ⟨1, rfl⟩

/-- An ancestor other than the node itself is an ancestor of its head. -/
theorem dom_up {n : ℕ} {h : Heads n} {x y : ℕ} (hd : Dominates h x y) (hne : x ≠ y) : Dominates h x (headOf h y) := by
  obtain ⟨t, ht⟩ := hd
  cases t with
  | zero => exact absurd ht.symm hne
  | succ t => exact ⟨t, by rwa [Function.iterate_succ_apply] at ht⟩

theorem iterate_zero_fixed {n : ℕ} (h : Heads n) (t : ℕ) : (headOf h)^[t] 0 = 0 := by
  induction t with
  | zero => rfl
  | succ t ih => rw [Function.iterate_succ_apply, headOf_zero, ih]

/-- No cycles in a tree. -/
theorem antisymm {n : ℕ} {h : Heads n} (ht : IsDepTree h) {x y : ℕ} (hx : x ≤ n) (h1 : Dominates h x y) (h2 : Dominates h y x) : x = y := by
  obtain ⟨s, hs⟩ := h1
  obtain ⟨t, hy⟩ := h2
  rcases Nat.eq_zero_or_pos t with rfl | htp
  · exact hy
  have hcyc : (headOf h)^[s + t] x = x := by rw [Function.iterate_add_apply, hy, hs]
  have hroot : ∃ r, (headOf h)^[r] x = 0 := by
    rcases Nat.eq_zero_or_pos x with rfl | hp
    · exact ⟨0, rfl⟩
    · have := ht ⟨x - 1, by omega⟩
      simpa [Dominates, Nat.sub_add_cancel hp] using this
  obtain ⟨r, hr⟩ := hroot
  have hmul : ∀ q, (headOf h)^[q * (s + t)] x = x := by
    intro q
    induction q with
    | zero => simp
    | succ q ih => rw [Nat.succ_mul, Function.iterate_add_apply, hcyc, ih]
  have hx0 : x = 0 := by
    have h3 := hmul (r + 1)
    obtain ⟨d, hd⟩ : ∃ d, (r + 1) * (s + t) = d + r := ⟨(r + 1) * (s + t) - r, by have : r + 1 ≤ (r + 1) * (s + t) := Nat.le_mul_of_pos_right _ (by omega); omega⟩
    rw [hd, Function.iterate_add_apply, hr, iterate_zero_fixed] at h3
    exact h3.symm
  subst hx0
  rw [iterate_zero_fixed] at hy
  exact hy

/-- A tree is projective if and only if no two of its arcs cross. -/
theorem projective_iff {n : ℕ} {h : Heads n} (ht : IsDepTree h) : IsProjective h ↔ NonCrossing h := by
  constructor
  · intro hp k l hc
    have hk := headOf_word h k
    have hl := headOf_word h l
    have hkn : (h k : ℕ) ≤ n := by have := (h k).2; omega
    have hln : (h l : ℕ) ≤ n := by have := (h l).2; omega
    obtain ⟨c1, c2, c3⟩ := hc
    have d1 : Dominates h (h k) (min ((l : ℕ) + 1) (h l)) := hp k _ (by unfold Between; omega)
    have d2 : Dominates h (h l) (max ((k : ℕ) + 1) (h k)) := hp l _ (by unfold Between; omega)
    have e1 : Dominates h (h k) (h l) := by
      rcases le_total ((l : ℕ) + 1) (h l) with hle | hle
      · rw [min_eq_left hle] at d1
        have := dom_up d1 (by omega)
        rwa [hl] at this
      · rwa [min_eq_right hle] at d1
    have e2 : Dominates h (h l) (h k) := by
      rcases le_total ((k : ℕ) + 1) (h k) with hle | hle
      · rwa [max_eq_right hle] at d2
      · rw [max_eq_left hle] at d2
        have := dom_up d2 (by omega)
        rwa [hk] at this
    have := antisymm ht hkn e1 e2
    omega
  · intro hc k y hy
    have hk := headOf_word h k
    have hyn : 1 ≤ y ∧ y ≤ n := by have := (h k).2; have := k.2; unfold Between at hy; omega
    obtain ⟨t, hr⟩ := ht ⟨y - 1, by omega⟩
    rw [Fin.val_mk, Nat.sub_add_cancel hyn.1] at hr
    clear hyn
    induction t generalizing y with
    | zero => simp only [Function.iterate_zero, id] at hr; subst hr; unfold Between at hy; omega
    | succ t ih =>
      have hyn : 1 ≤ y ∧ y ≤ n := by have := (h k).2; have := k.2; unfold Between at hy; omega
      rw [Function.iterate_succ_apply] at hr
      have hy1 : headOf h y = h ⟨y - 1, by omega⟩ := by
        have := headOf_word h ⟨y - 1, by omega⟩
        rwa [Fin.val_mk, Nat.sub_add_cancel hyn.1] at this
      have n1 := hc k ⟨y - 1, by omega⟩
      have n2 := hc ⟨y - 1, by omega⟩ k
      rw [← hy1] at n1 n2
      simp only [Crosses, Nat.sub_add_cancel hyn.1] at n1 n2
      have hcase : Between (k + 1) (headOf h y) (h k) ∨ headOf h y = h k ∨ headOf h y = k + 1 := by
        unfold Between at hy ⊢
        omega
      have hup := dom_head h y
      rcases hcase with hb | hb | hb
      · exact dom_trans (ih _ hb hr) hup
      · rwa [hb] at hup
      · rw [hb] at hup
        exact dom_trans (hk ▸ dom_head h (k + 1)) hup

/-- The non-crossing trees over `n` words: all of them, or only those with a single child of the root. -/
abbrev NonCrossingTrees (multiroot : Bool) (n : ℕ) : Type := {h : Heads n // IsDepTree h ∧ NonCrossing h ∧ (multiroot = false → IsSingleRoot h)}

def equiv (mr : Bool) (n : ℕ) : ProjTrees mr n ≃ NonCrossingTrees mr n :=
  Equiv.subtypeEquivRight fun h => and_congr_right fun ht => and_congr_left' (projective_iff ht)

instance (mr : Bool) (n : ℕ) : Fintype (NonCrossingTrees mr n) := Fintype.ofEquiv _ (equiv mr n)

/-- **C20, C21.** The partition function of `DependencyCRF` is the sum over the trees in which no two arcs cross (the arcs from the artificial root included); in the
single-root mode over those in which one word is attached to the root. -/
theorem partition_nonCrossing (mr : Bool) (q : DepTree.Arcs ℝ) (lengths : Option (List ℕ)) (h : Dependency.Valid mr q lengths) :
    DepTree.partition mr q lengths = .ok ((List.range q.d0).map fun b =>
      Real.log (∑ t : NonCrossingTrees mr (Dependency.len q lengths b), Real.exp (depScore (Dependency.row q b) t.1))) := by
  rw [Dependency.partition_spec mr q lengths h]
  refine congrArg _ (List.map_congr_left fun b _ => congrArg _ ?_)
  exact Fintype.sum_equiv (equiv mr _) _ _ fun t => rfl

/-- Three words: of the arcs 0 → 2, 1 → 3, 2 → 1 the first two cross... -/
example : ¬ NonCrossing (![2, 0, 1] : Heads 3) := by
  intro h
  exact h 1 2 (by simp [Crosses])

/-- ... and the arcs 0 → 2, 2 → 1, 2 → 3 do not. -/
example : NonCrossing (![2, 0, 2] : Heads 3) := by
  intro k l
  fin_cases k <;> fin_cases l <;> simp [Crosses]

end Props.NonCrossing
