import Verif.Props.CrossModel
import Verif.Proofs.TreeLabels

/-! The labels of the arcs of a dependency tree, given the arcs. -/

open Finset Spec

noncomputable section
namespace ArcLabels
open Props
variable {mr : Bool} {n L : ℕ}

/-- Arc `(i, j)` of a table is the arc of word `k`. -/
abbrev IsCell (h : Heads n) (i j : ℕ) (k : Fin n) : Prop := (k : ℕ) = j ∧ if i = j then h k = 0 else (h k : ℕ) = i + 1

theorem cell_of {h : Heads n} {i j : ℕ} {k : Fin n} (hc : IsCell h i j k) : arcCell (h k) k = (i, j) := by
  obtain ⟨rfl, hh⟩ := hc
  split_ifs at hh with he
  · rw [hh, arcCell, if_pos (by simp), ← he]
  · rw [arcCell, if_neg (by omega), hh]; rfl

theorem is_cell (h : Heads n) (k : Fin n) (hne : (h k : ℕ) ≠ k + 1) : IsCell h (arcCell (h k) k).1 (arcCell (h k) k).2 k := by
  rw [arcCell]
  by_cases h0 : (h k : ℕ) = 0
  · rw [if_pos h0]
    exact ⟨rfl, by rw [if_pos rfl]; exact Fin.ext h0⟩
  · rw [if_neg h0]
    refine ⟨rfl, ?_⟩
    dsimp only
    rw [if_neg (by omega)]
    omega

open Classical in
/-- Two labels of the arc `(i, j)` exchanged. -/
def swapFun (a a' : Fin L) (i j : ℕ) (t : LabelledTrees mr n L) : LabelledTrees mr n L :=
  (t.1, fun k => if IsCell t.1.1 i j k then Equiv.swap a a' (t.2 k) else t.2 k)

def swap (a a' : Fin L) (i j : ℕ) : LabelledTrees mr n L ≃ LabelledTrees mr n L where
  toFun := swapFun a a' i j
  invFun := swapFun a a' i j
  left_inv t := Prod.ext rfl (funext fun k => by
    classical
    simp only [swapFun]
    split_ifs <;> simp)
  right_inv t := Prod.ext rfl (funext fun k => by
    classical
    simp only [swapFun]
    split_ifs <;> simp)

theorem swap_arc {a a' : Fin L} {i j : ℕ} (t : LabelledTrees mr n L) : HasLabArc (swap a a' i j t) i j a' ↔ HasLabArc t i j a := by
  classical
  constructor
  · rintro ⟨k, h1, h2, h3⟩
    have hc : IsCell t.1.1 i j k := ⟨h1, h2⟩
    have h3 : ((swapFun a a' i j t).2 k : ℕ) = a' := h3
    rw [swapFun] at h3
    simp only [if_pos hc] at h3
    have : t.2 k = a := (Equiv.swap a a').injective (by rw [Fin.ext h3, Equiv.swap_apply_left])
    exact ⟨k, h1, h2, by rw [this]⟩
  · rintro ⟨k, h1, h2, h3⟩
    refine ⟨k, h1, h2, ?_⟩
    change ((swapFun a a' i j t).2 k : ℕ) = a'
    rw [swapFun]
    have hc : IsCell t.1.1 i j k := ⟨h1, h2⟩
    simp only [if_pos hc]
    rw [show t.2 k = a from Fin.ext h3, Equiv.swap_apply_left]

theorem score_swap (φ : ℕ → ℕ → ℕ → ℝ) {a a' : Fin L} {i j : ℕ} (t : LabelledTrees mr n L) (h : HasLabArc t i j a) :
    labScore φ (swap a a' i j t) + φ i j a = labScore φ t + φ i j a' := by
  classical
  obtain ⟨k, h1, h2, h3⟩ := h
  have hc : IsCell t.1.1 i j k := ⟨h1, h2⟩
  have hk : t.2 k = a := Fin.ext h3
  rw [labScore, labScore, ← add_sum_erase univ _ (mem_univ k), ← add_sum_erase univ (fun k => φ (arcCell (t.1.1 k) k).1 (arcCell (t.1.1 k) k).2 (t.2 k)) (mem_univ k)]
  have e1 : (swap a a' i j t).2 k = a' := by
    change (swapFun a a' i j t).2 k = a'
    rw [swapFun]
    simp only [if_pos hc, hk, Equiv.swap_apply_left]
  have e2 : ∀ k' ∈ univ.erase k, φ (arcCell ((swap a a' i j t).1.1 k') k').1 (arcCell ((swap a a' i j t).1.1 k') k').2 ((swap a a' i j t).2 k') =
      φ (arcCell (t.1.1 k') k').1 (arcCell (t.1.1 k') k').2 (t.2 k') := by
    intro k' hk'
    have : (swap a a' i j t).2 k' = t.2 k' := by
      change (swapFun a a' i j t).2 k' = _
      rw [swapFun]
      refine if_neg fun hc' => (mem_erase.1 hk').1 (Fin.ext (hc'.1.trans h1.symm))
    rw [this]
    rfl
  rw [sum_congr rfl e2, e1]
  change φ (arcCell (t.1.1 k) k).1 (arcCell (t.1.1 k) k).2 a' + _ + _ = _
  rw [cell_of hc, hk]
  ring

theorem odds (φ : ℕ → ℕ → ℕ → ℝ) (i j : ℕ) (a a' : Fin L) :
    LabelledDependency.arcProb mr L φ n i j a * Real.exp (φ i j a') = LabelledDependency.arcProb mr L φ n i j a' * Real.exp (φ i j a) := by
  classical
  rw [LabelledDependency.arcProb, LabelledDependency.arcProb, sum_mul, sum_mul, ← Equiv.sum_comp (swap a a' i j)
    fun t : LabelledTrees mr n L => (if HasLabArc t i j a' then Gibbs.prob (labScore φ) t else 0) * _]
  refine sum_congr rfl fun t _ => ?_
  by_cases ht : HasLabArc t i j a
  · rw [if_pos ht, if_pos (swap_arc t |>.2 ht), Gibbs.prob, Gibbs.prob, div_mul_eq_mul_div, div_mul_eq_mul_div, ← Real.exp_add, ← Real.exp_add, score_swap φ t ht]
  · rw [if_neg ht, if_neg (fun h => ht (swap_arc t |>.1 h)), zero_mul, zero_mul]

/-- The marginal of a labelled arc from those of all its labels. -/
theorem arcProb_eq (hL : 0 < L) (φ : ℕ → ℕ → ℕ → ℝ) (i j : ℕ) (a : Fin L) :
    LabelledDependency.arcProb mr L φ n i j a = (∑ l ∈ range L, LabelledDependency.arcProb mr L φ n i j l) * softmaxLabel (φ i j) a := by
  have hp := TreeLabels.sum_exp_pos hL (φ i j)
  rw [softmaxLabel, mul_div_assoc', eq_div_iff hp.ne', ← Fin.sum_univ_eq_sum_range (fun l => LabelledDependency.arcProb mr L φ n i j l), sum_mul, mul_sum]
  exact sum_congr rfl fun a' _ => odds φ i j a a'

theorem head_ne (t : ProjTrees mr n) (k : Fin n) : (t.1 k : ℕ) ≠ k + 1 := DepTreeProofs.head_ne t.2.1 k

open Classical in
theorem score_cells (φ : ℕ → ℕ → ℕ → ℝ) (t : LabelledTrees mr n L) :
    labScore φ t = ∑ i ∈ range n, ∑ j ∈ range n, ∑ l : Fin L, if HasLabArc t i j l then φ i j l else 0 := by
  rw [labScore, sum_comm, ← Fin.sum_univ_eq_sum_range (fun j => ∑ i ∈ range n, ∑ l : Fin L, if HasLabArc t i j l then φ i j l else 0)]
  refine sum_congr rfl fun k _ => ?_
  have hc := is_cell t.1.1 k (head_ne t.1 k)
  have hj : (arcCell (t.1.1 k) k).2 = k := hc.1.symm
  have hi : (arcCell (t.1.1 k) k).1 < n := by
    have := (t.1.1 k).2
    rw [arcCell]
    split_ifs
    · exact k.2
    · dsimp only; omega
  rw [sum_eq_single (arcCell (t.1.1 k) k).1, sum_eq_single (t.2 k), if_pos ⟨k, rfl, by rw [hj] at hc; exact hc.2, rfl⟩, hj]
  · intro l _ hl
    refine if_neg ?_
    rintro ⟨k', hk', -, e⟩
    rw [Fin.ext hk'] at e
    exact hl (Fin.ext e.symm)
  · intro h; exact absurd (mem_univ _) h
  · intro i _ hi'
    refine sum_eq_zero fun l _ => if_neg ?_
    rintro ⟨k', hk', h2, -⟩
    obtain rfl : k' = k := Fin.ext hk'
    exact hi' (congrArg Prod.fst (cell_of (⟨rfl, h2⟩ : IsCell t.1.1 i k' k'))).symm
  · intro h; exact absurd (mem_range.2 hi) h

theorem expect_lab (φ ψ : ℕ → ℕ → ℕ → ℝ) : Gibbs.expect (labScore φ : LabelledTrees mr n L → ℝ) (labScore ψ) =
    ∑ i ∈ range n, ∑ j ∈ range n, ∑ l : Fin L, LabelledDependency.arcProb mr L φ n i j l * ψ i j l := by
  classical
  rw [Gibbs.expect]
  simp only [score_cells ψ, LabelledDependency.arcProb, mul_sum, sum_mul]
  rw [sum_comm]
  refine sum_congr rfl fun i _ => ?_
  rw [sum_comm]
  refine sum_congr rfl fun j _ => ?_
  rw [sum_comm]
  refine sum_congr rfl fun a _ => sum_congr rfl fun t _ => ?_
  split_ifs <;> simp

open Classical in
theorem score_cells' (φ : ℕ → ℕ → ℝ) (t : ProjTrees mr n) :
    depScore φ t.1 = ∑ i ∈ range n, ∑ j ∈ range n, if HasArc t.1 i j then φ i j else 0 := by
  have := score_cells (L := 1) (fun i j _ => φ i j) (t, fun _ => 0)
  rw [labScore] at this
  rw [depScore, this]
  refine sum_congr rfl fun i _ => sum_congr rfl fun j _ => ?_
  rw [Fin.sum_univ_one]
  refine if_congr ?_ rfl rfl
  exact ⟨fun ⟨k, h1, h2, _⟩ => ⟨k, h1, h2⟩, fun ⟨k, h1, h2⟩ => ⟨k, h1, h2, rfl⟩⟩

theorem expect_dep (φ ψ : ℕ → ℕ → ℝ) : Gibbs.expect (fun t : ProjTrees mr n => depScore φ t.1) (fun t => depScore ψ t.1) =
    ∑ i ∈ range n, ∑ j ∈ range n, Dependency.arcProb mr φ n i j * ψ i j := by
  classical
  rw [Gibbs.expect]
  simp only [score_cells' ψ, Dependency.arcProb, mul_sum, sum_mul]
  rw [sum_comm]
  refine sum_congr rfl fun i _ => ?_
  rw [sum_comm]
  refine sum_congr rfl fun j _ => sum_congr rfl fun t _ => ?_
  split_ifs <;> simp

end ArcLabels
