import Verif.Spec.KBest
import Mathlib.Data.List.Sort
import Mathlib.Data.Fintype.Basic
import Mathlib.Data.Fintype.Card

/-! The scores of the k best are determined by the scores alone. -/

namespace Spec
open Finset

theorem IsKBest.unique {ι : Type} [Fintype ι] [DecidableEq ι] {score : ι → ℝ} {k : ℕ} {ys ys' : List ι} (h : IsKBest score k ys)
    (h' : IsKBest score k ys') : ys.map score = ys'.map score := by
  -- complete each list to a sorted enumeration of all the structures
  have key : ∀ ys : List ι, IsKBest score k ys → ∃ r : List ℝ,
      (ys.map score ++ r).Pairwise (· ≥ ·) ∧ List.Perm (ys.map score ++ r) (((univ : Finset ι).toList).map score) := by
    intro ys h
    let rest := (univ.filter fun y => y ∉ ys).toList.map score
    refine ⟨rest.mergeSort (fun a b => decide (b ≤ a)), ?_, ?_⟩
    · rw [List.pairwise_append]
      refine ⟨List.pairwise_map.2 h.sorted, ?_, ?_⟩
      · have := List.pairwise_mergeSort (le := fun a b : ℝ => decide (b ≤ a)) (by
          intro a b c; simp only [decide_eq_true_eq]; exact fun h1 h2 => h2.trans h1) (by
          intro a b; simp only [Bool.or_eq_true, decide_eq_true_eq]; exact le_total b a) rest
        exact this.imp fun h => by simpa using h
      · intro a ha b hb
        obtain ⟨y, hy, rfl⟩ := List.mem_map.1 ha
        rw [List.mem_mergeSort] at hb
        obtain ⟨y', hy', rfl⟩ := List.mem_map.1 hb
        exact h.best y' (by simpa using hy') y hy
    · refine (List.Perm.append_left _ (List.mergeSort_perm _ _)).trans ?_
      rw [← List.map_append]
      refine List.Perm.map _ ?_
      rw [List.perm_ext_iff_of_nodup]
      · intro a; simp [em]
      · rw [List.nodup_append]
        refine ⟨h.distinct, nodup_toList _, ?_⟩
        intro a ha b hb e
        subst e
        simp at hb
        exact hb ha
      · exact nodup_toList _
  obtain ⟨r, hr1, hr2⟩ := key ys h
  obtain ⟨r', hr1', hr2'⟩ := key ys' h'
  have e : ys.map score ++ r = ys'.map score ++ r' := (hr2.trans hr2'.symm).eq_of_pairwise' hr1 hr1'
  exact (List.append_inj e (by simp [h.length, h'.length])).1

end Spec
