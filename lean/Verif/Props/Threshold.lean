import Verif.Props.TreeCRF
import Verif.Props.Dependency
import Verif.Props.LabelledDependency

/-! Property theorems C145: parts with large marginals fit together. -/

open Finset Spec Generic

noncomputable section
namespace Props.Threshold

/-- The union bound: weights that sum to one, and relations that together fail with weight less than one. -/
theorem together {ι α : Type} [Fintype ι] (w : ι → ℝ) (h0 : ∀ y, 0 ≤ w y) (h1 : ∑ y, w y = 1) (R : ι → α → Prop) [∀ y a, Decidable (R y a)] (ps : List α)
    (h : (ps.map fun a => 1 - ∑ y, if R y a then w y else 0).sum < 1) : ∃ y, ∀ a ∈ ps, R y a := by
  by_contra hno
  push Not at hno
  have e : ∀ a, (1 - ∑ y, if R y a then w y else 0) = ∑ y, if R y a then 0 else w y := fun a => by
    rw [← h1, ← sum_sub_distrib]
    refine sum_congr rfl fun y _ => ?_
    split_ifs <;> ring
  simp only [e] at h
  have swap : ∀ qs : List α, (qs.map fun a => ∑ y, if R y a then 0 else w y).sum = ∑ y, (qs.map fun a => if R y a then 0 else w y).sum := by
    intro qs
    induction qs with
    | nil => simp
    | cons a qs ih => simp only [List.map_cons, List.sum_cons, ih, sum_add_distrib]
  rw [swap] at h
  refine absurd h (not_lt.2 (h1.symm.le.trans (sum_le_sum fun y _ => ?_)))
  obtain ⟨a, ha, hR⟩ := hno y
  have hle := List.single_le_sum (l := ps.map fun a => if R y a then 0 else w y)
    (by
      intro x hx
      obtain ⟨c, -, rfl⟩ := List.mem_map.1 hx
      split_ifs
      · exact le_rfl
      · exact h0 y) _ (List.mem_map.2 ⟨a, ha, rfl⟩)
  rwa [if_neg hR] at hle

/-- **C145, `TreeCRF`.** Labelled spans whose marginals miss one by less than one in total are all in one tree. -/
theorem tree_together (p : T4 ℝ) (lengths : Option (List ℕ)) (h : TreeCRF.Valid p lengths) :
    ∃ μ, Dist.marginals CKYCRF.algo p lengths = .ok μ ∧ ∀ b < p.d0, ∀ ps : List (ℕ × ℕ × Fin p.d3),
      (ps.map fun s => 1 - μ [b, s.1, s.2.1, (s.2.2 : ℕ)]).sum < 1 → ∃ t : Trees p.d3 (TreeCRF.len p lengths b), ∀ s ∈ ps, s ∈ t.1.spans 0 := by
  obtain ⟨μ, h1, h2⟩ := TreeCRF.marginals_spec p lengths h
  refine ⟨μ, h1, fun b hb ps hps => ?_⟩
  have := TreeCRF.trees_nonempty p lengths h b hb
  simp only [h2 b hb] at hps
  exact together (Gibbs.prob (treeScore (TreeCRF.row p b))) (Gibbs.prob_nonneg _) (Gibbs.sum_prob _) (fun t s => s ∈ t.1.spans 0) ps hps

open Classical in
theorem together_prob {ι α : Type} [Fintype ι] [Nonempty ι] (s : ι → ℝ) (R : ι → α → Prop) (ps : List α)
    (h : (ps.map fun a => 1 - ∑ y, if R y a then Gibbs.prob s y else 0).sum < 1) : ∃ y, ∀ a ∈ ps, R y a :=
  together (Gibbs.prob s) (Gibbs.prob_nonneg _) (Gibbs.sum_prob _) R ps h

open Classical in
theorem arcs_together {mr : Bool} {n : ℕ} [Nonempty (ProjTrees mr n)] (φ : ℕ → ℕ → ℝ) (ps : List (ℕ × ℕ))
    (h : (ps.map fun s => 1 - Dependency.arcProb mr φ n s.1 s.2).sum < 1) : ∃ t : ProjTrees mr n, ∀ s ∈ ps, HasArc t.1 s.1 s.2 := by
  unfold Dependency.arcProb at h
  exact together_prob (fun t : ProjTrees mr n => depScore φ t.1) (fun t s => HasArc t.1 s.1 s.2) ps (by convert h)

open Classical in
theorem lab_together {mr : Bool} {n L : ℕ} [Nonempty (LabelledTrees mr n L)] (φ : ℕ → ℕ → ℕ → ℝ) (ps : List (ℕ × ℕ × ℕ))
    (h : (ps.map fun s => 1 - LabelledDependency.arcProb mr L φ n s.1 s.2.1 s.2.2).sum < 1) : ∃ t : LabelledTrees mr n L, ∀ s ∈ ps, HasLabArc t s.1 s.2.1 s.2.2 := by
  unfold LabelledDependency.arcProb at h
  exact together_prob (fun t : LabelledTrees mr n L => labScore φ t) (fun t s => HasLabArc t s.1 s.2.1 s.2.2) ps (by convert h)

/-- **C145, `DependencyCRF`.** -/
theorem dependency_together (mr : Bool) (q : DepTree.Arcs ℝ) (lengths : Option (List ℕ)) (h : Dependency.Valid mr q lengths) :
    ∃ μ, DepTree.marginals mr q lengths = .ok μ ∧ ∀ b < q.d0, ∀ ps : List (ℕ × ℕ),
      (ps.map fun s => 1 - μ [b, s.1, s.2]).sum < 1 → ∃ t : ProjTrees mr (Dependency.len q lengths b), ∀ s ∈ ps, HasArc t.1 s.1 s.2 := by
  obtain ⟨μ, h1, h2⟩ := Dependency.marginals_spec mr q lengths h
  refine ⟨μ, h1, fun b hb ps hps => ?_⟩
  have := Dependency.trees_nonempty h b hb
  exact arcs_together (Dependency.row q b) ps (by simpa only [h2 b hb] using hps)

/-- **C145, `DependencyCRF` with labels.** -/
theorem labelled_together (mr : Bool) (q : DepTree.Arcs ℝ) (lengths : Option (List ℕ)) (h : LabelledDependency.Valid mr q lengths) :
    ∃ μ, DepTree.marginals mr q lengths = .ok μ ∧ ∀ b < q.d0, ∀ ps : List (ℕ × ℕ × ℕ),
      (ps.map fun s => 1 - μ [b, s.1, s.2.1, s.2.2]).sum < 1 → ∃ t : LabelledTrees mr (LabelledDependency.len q lengths b) q.d3, ∀ s ∈ ps, HasLabArc t s.1 s.2.1 s.2.2 := by
  obtain ⟨μ, h1, h2⟩ := LabelledDependency.marginals_spec mr q lengths h
  refine ⟨μ, h1, fun b hb ps hps => ?_⟩
  have := LabelledDependency.trees_nonempty h b hb
  exact lab_together (LabelledDependency.row q b) ps (by simpa only [h2 b hb] using hps)

/-! ### Samples -/

/-- What all structures other than those with the part lack: a bound on one minus its probability. -/
theorem unlikely {ι : Type} [Fintype ι] [Nonempty ι] (s : ι → ℝ) (R : ι → Prop) [DecidablePred R] (t : ι) (g : ℝ) (h : ∀ y, ¬ R y → s y + g ≤ s t) :
    1 - (∑ y, if R y then Gibbs.prob s y else 0) ≤ Fintype.card ι * Real.exp (-g) := by
  rw [← Gibbs.sum_prob s, ← sum_sub_distrib, ← nsmul_eq_mul, ← Finset.card_univ]
  refine sum_le_card_nsmul _ _ _ fun y _ => ?_
  split_ifs with hR
  · rw [sub_self]
    exact (Real.exp_pos _).le
  · rw [sub_zero, Gibbs.prob, div_le_iff₀ (Gibbs.Z_pos s)]
    have h1 : Real.exp (s t) ≤ Gibbs.Z s := single_le_sum (f := fun y => Real.exp (s y)) (fun y _ => (Real.exp_pos _).le) (mem_univ t)
    calc Real.exp (s y) ≤ Real.exp (-g + s t) := Real.exp_le_exp.2 (by linarith [h y hR])
      _ = Real.exp (-g) * Real.exp (s t) := Real.exp_add _ _
      _ ≤ _ := mul_le_mul_of_nonneg_left h1 (Real.exp_pos _).le

theorem exp_small : Real.exp (-100) ≤ 1 / 100 := by
  rw [Real.exp_neg, ← one_div]
  exact one_div_le_one_div_of_le (by norm_num) (by linarith [Real.add_one_le_exp (100 : ℝ)])

/-- Two words; attaching a word to the root scores 100. -/
def depSample : DepTree.Arcs ℝ := ⟨3, 1, 2, 2, 0, fun _ i j _ => if i = j then 100 else 0⟩

theorem no_loop {n : ℕ} {t : Heads n} (ht : IsDepTree t) (k : Fin n) : (t k : ℕ) ≠ k + 1 := by
  intro hk
  obtain ⟨m, hm⟩ := ht k
  have fix : headOf t (k + 1) = k + 1 := by
    rw [headOf, dif_pos ⟨by omega, by have := k.2; omega⟩]
    exact hk
  have h1 : (headOf t)^[m] (k + 1) = k + 1 := Function.iterate_fixed fix m
  have := h1.symm.trans hm
  omega

theorem root_cell {n : ℕ} {t : Heads n} (ht : IsDepTree t) (k : Fin n) : (arcCell (t k) k).1 = (arcCell (t k) k).2 ↔ (t k : ℕ) = 0 := by
  by_cases h0 : (t k : ℕ) = 0
  · rw [arcCell, if_pos h0]
    exact iff_of_true rfl h0
  · rw [arcCell, if_neg h0]
    have := no_loop ht k
    change (t k : ℕ) - 1 = (k : ℕ) ↔ _
    omega

open Classical in
theorem dep_arc (j : ℕ) (hj : j < 2) : 1 - Dependency.arcProb true (fun i j => if i = j then (100 : ℝ) else 0) 2 j j ≤ 9 / 100 := by
  have : Nonempty (ProjTrees true 2) := DepTreeProofs.nonempty_trees true 2 (by simp)
  refine (unlikely _ (fun t : ProjTrees true 2 => HasArc t.1 j j) ⟨fun _ => 0, fun k => ⟨1, by simp [headOf]⟩, fun k y _ => ⟨1, by simp [headOf]⟩, by simp⟩ 100 ?_).trans ?_
  · rintro ⟨t, ht⟩ hno
    change (∑ k : Fin 2, if (arcCell (t k) k).1 = (arcCell (t k) k).2 then (100 : ℝ) else 0) + 100 ≤
      ∑ k : Fin 2, if (arcCell ((0 : Fin 3) : ℕ) k).1 = (arcCell ((0 : Fin 3) : ℕ) k).2 then (100 : ℝ) else 0
    simp only [root_cell ht.1]
    have hz : (t ⟨j, hj⟩ : ℕ) ≠ 0 := fun e => hno ⟨⟨j, hj⟩, rfl, by rw [if_pos rfl]; exact Fin.ext e⟩
    have full : (∑ k : Fin 2, if (arcCell ((0 : Fin 3) : ℕ) k).1 = (arcCell ((0 : Fin 3) : ℕ) k).2 then (100 : ℝ) else 0) = 200 := by
      rw [sum_congr rfl fun k _ => if_pos (by simp [arcCell])]
      norm_num
    rw [full, Fin.sum_univ_two]
    have le : ∀ k : Fin 2, (if (t k : ℕ) = 0 then (100 : ℝ) else 0) ≤ 100 := fun k => by split_ifs <;> norm_num
    have zero : (if (t ⟨j, hj⟩ : ℕ) = 0 then (100 : ℝ) else 0) = 0 := if_neg hz
    have h0 := le 0
    have h1 := le 1
    interval_cases j
    · have z : (if (t 0 : ℕ) = 0 then (100 : ℝ) else 0) = 0 := zero
      linarith
    · have z : (if (t 1 : ℕ) = 0 then (100 : ℝ) else 0) = 0 := zero
      linarith
  · have hc : Fintype.card (ProjTrees true 2) ≤ 9 := (Fintype.card_subtype_le _).trans (by simp)
    have hc' : (Fintype.card (ProjTrees true 2) : ℝ) ≤ 9 := by exact_mod_cast hc
    calc _ ≤ (9 : ℝ) * (1 / 100) := mul_le_mul hc' exp_small (Real.exp_pos _).le (by norm_num)
      _ = _ := by norm_num

/-- Both words are attached to the root with a probability above nine tenths. -/
example : ∃ μ, DepTree.marginals true depSample none = .ok μ ∧ (([(0, 0), (1, 1)] : List (ℕ × ℕ)).map fun s => 1 - μ [0, s.1, s.2]).sum < 1 := by
  obtain ⟨μ, h1, h2⟩ := Dependency.marginals_spec true depSample none ⟨rfl, rfl, by decide, fun _ => by decide, fun l hl => by cases hl⟩
  refine ⟨μ, h1, ?_⟩
  have a : 1 - μ [0, 0, 0] ≤ 9 / 100 := by rw [h2 0 (by decide)]; exact dep_arc 0 (by decide)
  have b : 1 - μ [0, 1, 1] ≤ 9 / 100 := by rw [h2 0 (by decide)]; exact dep_arc 1 (by decide)
  simp only [List.map_cons, List.map_nil, List.sum_cons, List.sum_nil]
  linarith

/-- Two words, two labels; attaching a word to the root with label 0 scores 100. -/
def labSample : DepTree.Arcs ℝ := ⟨4, 1, 2, 2, 2, fun _ i j l => if i = j ∧ l = 0 then 100 else 0⟩

open Classical in
theorem lab_arc (j : ℕ) (hj : j < 2) : 1 - LabelledDependency.arcProb true 2 (fun i j l => if i = j ∧ l = 0 then (100 : ℝ) else 0) 2 j j 0 ≤ 36 / 100 := by
  have hp : Nonempty (ProjTrees true 2) := DepTreeProofs.nonempty_trees true 2 (by simp)
  have : Nonempty (LabelledTrees true 2 2) := ⟨(Classical.choice hp, fun _ => 0)⟩
  refine (unlikely _ (fun t : LabelledTrees true 2 2 => HasLabArc t j j 0)
    (⟨fun _ => 0, fun k => ⟨1, by simp [headOf]⟩, fun k y _ => ⟨1, by simp [headOf]⟩, by simp⟩, fun _ => (0 : Fin 2)) 100 ?_).trans ?_
  · rintro ⟨⟨t, ht⟩, l⟩ hno
    have zero : ¬ ((arcCell (t ⟨j, hj⟩) j).1 = (arcCell (t ⟨j, hj⟩) j).2 ∧ (l ⟨j, hj⟩ : ℕ) = 0) := fun e =>
      hno ⟨⟨j, hj⟩, rfl, by rw [if_pos rfl]; exact Fin.ext ((root_cell ht.1 ⟨j, hj⟩).1 e.1), e.2⟩
    have full : labScore (fun i j l => if i = j ∧ l = 0 then (100 : ℝ) else 0) ((⟨fun _ => 0, fun k => ⟨1, by simp [headOf]⟩, fun k y _ => ⟨1, by simp [headOf]⟩, by simp⟩, fun _ => (0 : Fin 2)) :
        LabelledTrees true 2 2) = 200 := by
      rw [labScore, sum_congr rfl fun k _ => if_pos ⟨by simp [arcCell], rfl⟩]
      norm_num
    have le : ∀ k : Fin 2, (if (arcCell (t k) k).1 = (arcCell (t k) k).2 ∧ (l k : ℕ) = 0 then (100 : ℝ) else 0) ≤ 100 := fun k => by split_ifs <;> norm_num
    rw [full, labScore, Fin.sum_univ_two]
    have h0 := le 0
    have h1 := le 1
    interval_cases j
    · have z : (if (arcCell (t 0) ((0 : Fin 2) : ℕ)).1 = (arcCell (t 0) ((0 : Fin 2) : ℕ)).2 ∧ (l 0 : ℕ) = 0 then (100 : ℝ) else 0) = 0 := if_neg zero
      linarith
    · have z : (if (arcCell (t 1) ((1 : Fin 2) : ℕ)).1 = (arcCell (t 1) ((1 : Fin 2) : ℕ)).2 ∧ (l 1 : ℕ) = 0 then (100 : ℝ) else 0) = 0 := if_neg zero
      linarith
  · have h9 : Fintype.card (ProjTrees true 2) ≤ 9 := (Fintype.card_subtype_le _).trans (by simp)
    have hc : Fintype.card (LabelledTrees true 2 2) ≤ 36 := by
      rw [Fintype.card_prod, Fintype.card_fun, Fintype.card_fin]
      omega
    have hc' : (Fintype.card (LabelledTrees true 2 2) : ℝ) ≤ 36 := by exact_mod_cast hc
    calc _ ≤ (36 : ℝ) * (1 / 100) := mul_le_mul hc' exp_small (Real.exp_pos _).le (by norm_num)
      _ = _ := by norm_num

example : ∃ μ, DepTree.marginals true labSample none = .ok μ ∧ (([(0, 0, 0), (1, 1, 0)] : List (ℕ × ℕ × ℕ)).map fun s => 1 - μ [0, s.1, s.2.1, s.2.2]).sum < 1 := by
  obtain ⟨μ, h1, h2⟩ := LabelledDependency.marginals_spec true labSample none ⟨rfl, by decide, rfl, by decide, fun _ => by decide, fun l hl => by cases hl⟩
  refine ⟨μ, h1, ?_⟩
  have a : 1 - μ [0, 0, 0, 0] ≤ 36 / 100 := by rw [h2 0 (by decide)]; exact lab_arc 0 (by decide)
  have b : 1 - μ [0, 1, 1, 0] ≤ 36 / 100 := by rw [h2 0 (by decide)]; exact lab_arc 1 (by decide)
  simp only [List.map_cons, List.map_nil, List.sum_cons, List.sum_nil]
  linarith

/-- Three words, one label. -/
def treeSample : T4 ℝ := ⟨1, 3, 3, 1, fun _ i j _ => i + 2 * j⟩

/-- The whole sentence is a span of all trees, and the first two words of some. -/
example : ∃ μ, Dist.marginals CKYCRF.algo treeSample none = .ok μ ∧
    (([(0, 2, 0), (0, 1, 0)] : List (ℕ × ℕ × Fin 1)).map fun s => 1 - μ [0, s.1, s.2.1, (s.2.2 : ℕ)]).sum < 1 := by
  have hv : TreeCRF.Valid treeSample none := ⟨rfl, by decide, by decide, trivial⟩
  obtain ⟨μ, h1, h2⟩ := TreeCRF.marginals_spec treeSample none hv
  refine ⟨μ, h1, ?_⟩
  let u : Trees 1 3 := ⟨.node 0 (.node 0 (.leaf 0) (.leaf 0)) (.leaf 0), rfl⟩
  have hne : Nonempty (Trees 1 3) := ⟨u⟩
  have a : μ [0, 0, 2, 0] = 1 := by
    refine (h2 0 (by decide) 0 2 (0 : Fin 1)).trans ?_
    change (∑ t : Trees 1 3, if ((0, 2, 0) : ℕ × ℕ × Fin 1) ∈ t.1.spans 0 then Gibbs.prob (treeScore (TreeCRF.row treeSample 0)) t else 0) = 1
    rw [← Gibbs.sum_prob (treeScore (n := 3) (NT := 1) (TreeCRF.row treeSample 0))]
    refine sum_congr rfl fun t _ => if_pos ?_
    obtain ⟨c, hc⟩ := TreeCRF.root_mem t.1 0
    rw [t.2, Subsingleton.elim c 0] at hc
    exact hc
  have b : 0 < μ [0, 0, 1, 0] := by
    refine lt_of_lt_of_eq ?_ (h2 0 (by decide) 0 1 (0 : Fin 1)).symm
    change 0 < ∑ t : Trees 1 3, if ((0, 1, 0) : ℕ × ℕ × Fin 1) ∈ t.1.spans 0 then Gibbs.prob (treeScore (TreeCRF.row treeSample 0)) t else 0
    refine sum_pos' (fun t _ => ?_) ⟨u, mem_univ u, ?_⟩
    · split_ifs
      · exact Gibbs.prob_nonneg _ _
      · exact le_rfl
    · rw [if_pos (by simp [u, LTree.spans, LTree.size])]
      exact Gibbs.prob_pos _ _
  simp only [List.map_cons, List.map_nil, List.sum_cons, List.sum_nil, Fin.val_zero, a]
  linarith

end Props.Threshold
