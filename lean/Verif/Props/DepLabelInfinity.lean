import Verif.Model.DepLabelBackward
import Verif.Props.DepInfinity

/-! C124: `DependencyCRF.marginals` with labels and potentials `-inf` (any number of roots).  See Props/DepInfinity.lean for arcs without labels. -/

open Finset Spec DepBackwardProofs
open TreeBackwardProofs (fl LogOf fl_coe fl_inj logOf_rel slope_real guarded_real bot_of_zero plain_nan tmul fl_mul tmul_eq_top tmul_coe)
open Props.Conditional (forbidArc LabAvoids labAvoids_iff labS)
open Props.LabelledDependency (Valid len row)
open Props.DepInfinity (RightHalf LeftHalf Split NoLeft BlockedR BlockedL Blocked total_ne_zero total_trees not_own)
open DepTree (Arcs)

noncomputable section
namespace Props.DepLabelInfinity

/-! ### Specification -/

/-- The arc from node `h` to word `m` belongs to a sentence of `n` words and all of its `L` labels are forbidden by the table `F`. -/
def Cut (F : ℕ → ℕ → ℕ → Prop) (L n h m : ℕ) : Prop := 1 ≤ m ∧ m ≤ n ∧ h ≤ n ∧ ∀ l < L, F (arcCell h (m - 1)).1 (arcCell h (m - 1)).2 l

/-- The marginals of the labels of entry `(i, j)` of the user's table are NaN: the arc lies in a range of nodes that has no half tree or no division
(`DepInfinity.Blocked`), or all labels of the arc are forbidden. -/
def Spoilt (F : ℕ → ℕ → ℕ → Prop) (L n N i j : ℕ) : Prop := Blocked (Cut F L n) N i j ∨ (i < n ∧ j < n ∧ ∀ l < L, F i j l)

/-! ### Weights -/

variable {q : Arcs ℝ} {lengths : Option (List ℕ)} {F : ℕ → ℕ → ℕ → ℕ → Prop}

open Classical in
/-- The weights of the labelled arcs between the nodes of row `b`, which has `n` words. -/
def weight1 (q : Arcs ℝ) (F : ℕ → ℕ → ℕ → ℕ → Prop) (b n h m l : ℕ) : ℝ :=
  if n < h ∨ n < m then Real.exp Semirings.negInf
  else if m = 0 ∨ h = m then Real.exp DepTree.negBig
  else if F b (arcCell h (m - 1)).1 (arcCell h (m - 1)).2 l then 0
  else Real.exp (q.get b (arcCell h (m - 1)).1 (arcCell h (m - 1)).2 l)

/-- The weights of the arcs. -/
def weight (q : Arcs ℝ) (F : ℕ → ℕ → ℕ → ℕ → Prop) (b n h m : ℕ) : ℝ := ∑ l ∈ range q.d3, weight1 q F b n h m l

theorem weight1_nonneg (b n h m l : ℕ) : 0 ≤ weight1 q F b n h m l := by
  rw [weight1]; split_ifs
  all_goals first | exact le_rfl | exact (Real.exp_pos _).le

theorem weight_nonneg (b n h m : ℕ) : 0 ≤ weight q F b n h m := sum_nonneg fun _ _ => weight1_nonneg _ _ _ _ _

theorem weight_zero (hL : 1 ≤ q.d3) {b n h m : ℕ} (hne : h ≠ m) : weight q F b n h m = 0 ↔ Cut (F b) q.d3 n h m := by
  rw [weight, sum_eq_zero_iff_of_nonneg fun _ _ => weight1_nonneg _ _ _ _ _, Cut]
  simp only [mem_range, weight1]
  split_ifs with h1 h2
  · simp only [Real.exp_ne_zero]
    exact ⟨fun h => (h 0 hL).elim, fun h => by omega⟩
  · simp only [Real.exp_ne_zero]
    exact ⟨fun h => (h 0 hL).elim, fun h => by omega⟩
  · constructor
    · intro h
      refine ⟨by omega, by omega, by omega, fun l hl => ?_⟩
      by_contra hF
      have := h l hl
      rw [if_neg hF] at this
      exact Real.exp_ne_zero _ this
    · rintro ⟨-, -, -, h⟩ l hl
      exact if_pos (h l hl)

theorem weight1_log {lens : List ℕ} {b n : ℕ} (hn : lens.getD b 0 = n) {h m : ℕ} (hne : h ≠ m) (l : ℕ) :
    LogOf (DepTree.masked DepBackward.sr (DepTreeProofs.conv (DepTree.negBig : EReal) (forbidArc q F)) lens b h m l) (weight1 q F b n h m l) := by
  refine ⟨weight1_nonneg b n h m l, ?_⟩
  rw [DepTree.masked, hn, weight1]
  split_ifs with h1 h2 h3
  · exact EReal.exp_coe _
  · change EReal.exp (DepTree.convertCell _ _ b h m l) = _
    rw [DepTree.convertCell, if_pos (by omega), EReal.exp_coe]
  · have e : DepTree.convertCell (DepTree.negBig : EReal) (forbidArc q F).get b h m l = ⊥ := by
      rw [DepTree.convertCell, if_neg (by omega)]
      rw [arcCell] at h3
      split_ifs with h0
      · rw [if_pos h0] at h3; simp only [forbidArc]; exact if_pos h3
      · rw [if_neg h0] at h3; simp only [forbidArc]; exact if_pos h3
    change EReal.exp (DepTree.convertCell _ _ b h m l) = _
    rw [e]; simp
  · have e : DepTree.convertCell (DepTree.negBig : EReal) (forbidArc q F).get b h m l = ((q.get b (arcCell h (m - 1)).1 (arcCell h (m - 1)).2 l : ℝ) : EReal) := by
      rw [DepTree.convertCell, if_neg (by omega)]
      rw [arcCell] at h3 ⊢
      split_ifs with h0
      · rw [if_pos h0] at h3; simp only [forbidArc]; exact if_neg h3
      · rw [if_neg h0] at h3; simp only [forbidArc]; exact if_neg h3
    change EReal.exp (DepTree.convertCell _ _ b h m l) = _
    rw [e, EReal.exp_coe]

theorem weight_log (hr : q.rank = 4) (hL : 1 ≤ q.d3) {lens : List ℕ} {b n : ℕ} (hn : lens.getD b 0 = n) {h m : ℕ} (hne : h ≠ m) :
    LogOf (DepTree.arcScores DepBackward.sr (DepTreeProofs.conv (DepTree.negBig : EReal) (forbidArc q F)) lens b h m) (weight q F b n h m) := by
  have hl : (DepTreeProofs.conv (DepTree.negBig : EReal) (forbidArc q F)).labeled := hr
  rw [DepTree.arcScores, if_pos hl, weight]
  exact logOf_rel.sum_range hL fun l _ => weight1_log hn hne l

/-! ### Half trees, for any weights -/

section Generic
variable {W : ℕ → ℕ → ℝ} {C : ℕ → ℕ → Prop} (hW : ∀ x y, 0 ≤ W x y) (hC : ∀ x y, x ≠ y → (W x y = 0 ↔ C x y))
include hW hC

theorem right_iff (i j : ℕ) : wR W i j ≠ 0 ↔ RightHalf C i j := by
  rw [wR, Eisner.CR, total_ne_zero fun _ _ => hW _ _]
  refine exists_congr fun t => forall_congr' fun k => ?_
  have := not_own t k
  rw [ne_eq, hC _ _ (by omega)]

theorem left_iff (i j : ℕ) : wL W i j ≠ 0 ↔ LeftHalf C i j := by
  rw [wL, Eisner.CL, total_ne_zero fun _ _ => hW _ _]
  refine exists_congr fun t => forall_congr' fun k => ?_
  have h1 := not_own t k
  have h2 := (t.1 k).2
  have h3 := k.2
  rw [ne_eq, hC _ _ (by omega)]

theorem split_iff (i j : ℕ) : wX W i j ≠ 0 ↔ Split C i j := by
  rw [wX, ne_eq, sum_eq_zero_iff_of_nonneg fun m _ => mul_nonneg (wR_nonneg hW _ _) (wL_nonneg hW _ _)]
  simp only [mem_Ico, mul_eq_zero, not_forall, not_or, exists_prop, Split]
  refine exists_congr fun m => ?_
  rw [← ne_eq, ← ne_eq, right_iff hW hC, left_iff hW hC, and_assoc]

theorem blockedR_iff (n : ℕ) {N i j : ℕ} (hij : i < j) : gIR (N + 1) n (plainτ W (N + 1)) i j = ⊤ ↔ BlockedR C N i j := by
  rw [gIR_nan bad_plain hij, BlockedR]
  refine exists_congr fun p => exists_congr fun r => ?_
  rw [NoLeft, ← right_iff hW hC, ← split_iff hW hC, ← left_iff hW hC, Nat.lt_succ_iff, Nat.add_sub_cancel]
  simp only [ne_eq, not_not]

theorem blockedL_iff (n : ℕ) {N i j : ℕ} (hij : i < j) (hj : j ≤ N) : gIL (N + 1) n (plainτ W (N + 1)) i j = ⊤ ↔ BlockedL C N j i := by
  rw [gIL_nan bad_plain hij (by omega), BlockedL]
  refine exists_congr fun p => exists_congr fun r => ?_
  rw [NoLeft, ← right_iff hW hC, ← split_iff hW hC, ← left_iff hW hC, Nat.lt_succ_iff, Nat.add_sub_cancel]
  simp only [ne_eq, not_not]

end Generic

/-- The gradient of the arc of entry `(i, j)` of the user's table. -/
def arcGrad (N n : ℕ) (τ : Factors) (i j : ℕ) : WithTop ℝ :=
  if i = j then gIR (N + 1) n τ 0 (j + 1) else if i < j then gIR (N + 1) n τ (i + 1) (j + 1) else gIL (N + 1) n τ (j + 1) (i + 1)

/-- The head of entry `(i, j)`, as a node. -/
def headNode (i j : ℕ) : ℕ := if i = j then 0 else i + 1

theorem headNode_ne (i j : ℕ) : headNode i j ≠ j + 1 := by rw [headNode]; split_ifs <;> omega

theorem arcGrad_nan {W : ℕ → ℕ → ℝ} {C : ℕ → ℕ → Prop} (hW : ∀ x y, 0 ≤ W x y) (hC : ∀ x y, x ≠ y → (W x y = 0 ↔ C x y)) (n : ℕ) {N i j : ℕ} (hi : i < N) (hj : j < N) :
    arcGrad N n (plainτ W (N + 1)) i j = ⊤ ↔ Blocked C N i j := by
  rw [arcGrad, Blocked]
  by_cases hij : i = j
  · rw [if_pos hij, if_pos hij]; exact blockedR_iff hW hC n (by omega)
  · rw [if_neg hij, if_neg hij]
    by_cases hlt : i < j
    · rw [if_pos hlt, if_pos hlt]; exact blockedR_iff hW hC n (by omega)
    · rw [if_neg hlt, if_neg hlt]; exact blockedL_iff hW hC n (by omega) (by omega)

theorem arcGrad_same (W : ℕ → ℕ → ℝ) (N n i j : ℕ) (hne : arcGrad N n (plainτ W (N + 1)) i j ≠ ⊤) :
    arcGrad N n (plainτ W (N + 1)) i j = arcGrad N n (guardedτ W (N + 1)) i j := by
  rw [arcGrad] at hne
  rw [arcGrad, arcGrad]
  split_ifs at hne ⊢
  · exact gIR_same plain_x plain_r plain_l hne
  · exact gIR_same plain_x plain_r plain_l hne
  · exact gIL_same plain_x plain_r plain_l hne

theorem arcGrad_value {W : ℕ → ℕ → ℝ} (hW : ∀ x y, 0 ≤ W x y) {N n i j : ℕ} (hi : i < N) (hj : j < N) (hn : n < N + 1) :
    arcGrad N n (guardedτ W (N + 1)) i j = ((shR W (headNode i j) (j + 1) 0 n : ℝ) : WithTop ℝ) := by
  rw [arcGrad, headNode]
  by_cases hij : i = j
  · rw [if_pos hij, if_pos hij]; exact right_value hW (by omega) (by omega) hn
  · rw [if_neg hij, if_neg hij]
    by_cases hlt : i < j
    · rw [if_pos hlt]; exact right_value hW (by omega) (by omega) hn
    · rw [if_neg hlt]; exact left_value hW (by omega) (by omega) hn

/-! ### The share of the trees with a labelled arc -/

theorem tree_weight (b n : ℕ) (t : LabelledTrees true n q.d3) [Decidable (LabAvoids (F b) t)] :
    ∏ k : Fin n, weight1 q F b n (t.1.1 k) (k + 1) (t.2 k) = if LabAvoids (F b) t then Real.exp (labScore (row q b) t) else 0 := by
  have hk : ∀ k : Fin n, ¬ (n < (t.1.1 k : ℕ) ∨ n < (k : ℕ) + 1) ∧ ¬ ((k : ℕ) + 1 = 0 ∨ (t.1.1 k : ℕ) = k + 1) := fun k => by
    have h1 := not_own t.1 k
    have h2 := (t.1.1 k).2
    have h3 := k.2
    omega
  split_ifs with h
  · rw [labAvoids_iff] at h
    rw [labScore, Real.exp_sum]
    refine prod_congr rfl fun k _ => ?_
    rw [weight1, if_neg (hk k).1, if_neg (hk k).2, Nat.add_sub_cancel, if_neg (h k)]; rfl
  · rw [labAvoids_iff] at h
    push Not at h
    obtain ⟨k, hF⟩ := h
    refine prod_eq_zero (mem_univ k) ?_
    rw [weight1, if_neg (hk k).1, if_neg (hk k).2, Nat.add_sub_cancel, if_pos hF]

/-- Summing the labels out. -/
theorem sum_labels {n L : ℕ} (x : Fin n → ℕ → ℝ) : (∑ f : Fin n → Fin L, ∏ k, x k (f k)) = ∏ k, ∑ l ∈ range L, x k l := by
  have e : ∀ k, (∑ l ∈ range L, x k l) = ∑ l : Fin L, x k l := fun k => sum_range _
  simp only [e]
  rw [prod_univ_sum, Fintype.piFinset_univ]

open Classical in
/-- Summing the labels out, with the label of one word given. -/
theorem sum_labels_at {n L : ℕ} (x : Fin n → ℕ → ℝ) (hx : ∀ k l, 0 ≤ x k l) (k₀ : Fin n) {l₀ : ℕ} (hl : l₀ < L) :
    (∑ f : Fin n → Fin L, if (f k₀ : ℕ) = l₀ then ∏ k, x k (f k) else 0) = (∏ k, ∑ l ∈ range L, x k l) * (x k₀ l₀ / ∑ l ∈ range L, x k₀ l) := by
  have h1 : ∀ f : Fin n → Fin L, (if (f k₀ : ℕ) = l₀ then ∏ k, x k (f k) else 0) = ∏ k, if k = k₀ then (if (f k : ℕ) = l₀ then x k (f k) else 0) else x k (f k) := by
    intro f
    split_ifs with h
    · refine prod_congr rfl fun k _ => ?_
      split_ifs with h2 h3
      · rfl
      · exact absurd (h2 ▸ h) h3
      · rfl
    · exact (prod_eq_zero (mem_univ k₀) (by rw [if_pos rfl, if_neg h])).symm
  rw [sum_congr rfl fun f _ => h1 f, sum_labels (fun k l => if k = k₀ then (if l = l₀ then x k l else 0) else x k l)]
  rw [← mul_prod_erase univ _ (mem_univ k₀), ← mul_prod_erase univ (fun k => ∑ l ∈ range L, x k l) (mem_univ k₀)]
  have h2 : (∑ l ∈ range L, if k₀ = k₀ then (if l = l₀ then x k₀ l else 0) else x k₀ l) = x k₀ l₀ := by
    simp only [if_true, sum_ite_eq', mem_range, if_pos hl]
  rw [h2]
  have h3 : (∏ k ∈ univ.erase k₀, ∑ l ∈ range L, if k = k₀ then (if l = l₀ then x k l else 0) else x k l) = ∏ k ∈ univ.erase k₀, ∑ l ∈ range L, x k l :=
    prod_congr rfl fun k hk => sum_congr rfl fun l _ => if_neg (ne_of_mem_erase hk)
  rw [h3]
  by_cases hz : (∑ l ∈ range L, x k₀ l) = 0
  · have : x k₀ l₀ = 0 := (sum_eq_zero_iff_of_nonneg fun l _ => hx k₀ l).1 hz l₀ (mem_range.2 hl)
    rw [this]; simp
  · field_simp

theorem has_arc_iff {mr : Bool} {n L : ℕ} (t : LabelledTrees mr n L) (i j l : ℕ) : HasLabArc t i j l ↔ ∃ k : Fin n, (k : ℕ) = j ∧ (t.1.1 k : ℕ) = headNode i j ∧ (t.2 k : ℕ) = l := by
  rw [HasLabArc, headNode]
  refine exists_congr fun k => and_congr_right fun _ => and_congr_left fun _ => ?_
  split_ifs
  · rw [Fin.ext_iff, Fin.val_zero]
  · rfl

theorem share (b n : ℕ) (hL : 1 ≤ q.d3) {i j l : ℕ} (hl : l < q.d3) :
    shR (weight q F b n) (headNode i j) (j + 1) 0 n * (weight1 q F b n (headNode i j) (j + 1) l / weight q F b n (headNode i j) (j + 1)) =
      Gibbs.condProb (fun t : LabelledTrees true n q.d3 => labScore (row q b) t) (LabAvoids (F b)) (fun t => HasLabArc t i j l) := by
  classical
  have hne : Nonempty (ProjTrees true n) := DepTreeProofs.nonempty_trees true n (by simp)
  have : Nonempty (LabelledTrees true n q.d3) := ⟨(Classical.choice hne, fun _ => ⟨0, hL⟩)⟩
  have hZ := Gibbs.Z_pos (fun t : LabelledTrees true n q.d3 => labScore (row q b) t)
  have e : ∀ a : ℕ → ℕ → ℝ, wR a 0 n = ∑ t : ProjTrees true n, ∏ k : Fin n, a (t.1 k) (k + 1) := fun a => by
    rw [wR, Eisner.CR, Nat.sub_zero, total_trees]; simp only [Nat.zero_add]
  -- the trees with the arc
  have harc : ∀ t : ProjTrees true n, (∏ k : Fin n, weight q F b n (t.1 k) (k + 1)) - (∏ k : Fin n, cutArc (weight q F b n) (headNode i j) (j + 1) (t.1 k) (k + 1)) =
      if ∃ k : Fin n, (k : ℕ) = j ∧ (t.1 k : ℕ) = headNode i j then ∏ k : Fin n, weight q F b n (t.1 k) (k + 1) else 0 := by
    intro t
    split_ifs with h
    · obtain ⟨k, h1, h2⟩ := h
      rw [prod_eq_zero (f := fun k : Fin n => cutArc (weight q F b n) (headNode i j) (j + 1) (t.1 k) (k + 1)) (mem_univ k), sub_zero]
      rw [cutArc, if_pos ⟨h2, by omega⟩]
    · rw [sub_eq_zero]
      refine prod_congr rfl fun k _ => ?_
      rw [cutArc, if_neg fun hk => h ⟨k, by omega, hk.1⟩]
  have hnum : ∀ t : ProjTrees true n, (∑ f : Fin n → Fin q.d3, if LabAvoids (F b) (t, f) ∧ HasLabArc (t, f) i j l then Real.exp (labScore (row q b) (t, f)) else 0) =
      ((∏ k : Fin n, weight q F b n (t.1 k) (k + 1)) - (∏ k : Fin n, cutArc (weight q F b n) (headNode i j) (j + 1) (t.1 k) (k + 1))) *
        (weight1 q F b n (headNode i j) (j + 1) l / weight q F b n (headNode i j) (j + 1)) := by
    intro t
    rw [harc]
    split_ifs with h
    · obtain ⟨k₀, h1, h2⟩ := h
      have := sum_labels_at (fun (k : Fin n) l => weight1 q F b n (t.1 k) (k + 1) l) (fun _ _ => weight1_nonneg _ _ _ _ _) k₀ hl
      simp only [h1, h2] at this
      refine Eq.trans ?_ this
      refine sum_congr rfl fun f _ => ?_
      rw [tree_weight b n (t, f)]
      have hiff : HasLabArc (t, f) i j l ↔ (f k₀ : ℕ) = l := by
        rw [has_arc_iff]
        constructor
        · rintro ⟨k, g1, g2, g3⟩
          have : k = k₀ := Fin.ext (by omega)
          rw [← this]; exact g3
        · intro hf; exact ⟨k₀, h1, h2, hf⟩
      rw [hiff]
      by_cases h3 : LabAvoids (F b) (t, f) <;> by_cases h4 : (f k₀ : ℕ) = l <;> simp [h3, h4]
    · rw [zero_mul]
      refine sum_eq_zero fun f _ => if_neg ?_
      rintro ⟨-, hc⟩
      obtain ⟨k, g1, g2, -⟩ := (has_arc_iff _ _ _ _).1 hc
      exact h ⟨k, g1, g2⟩
  have hden : ∀ t : ProjTrees true n, (∑ f : Fin n → Fin q.d3, if LabAvoids (F b) (t, f) then Real.exp (labScore (row q b) (t, f)) else 0) =
      ∏ k : Fin n, weight q F b n (t.1 k) (k + 1) := by
    intro t
    have := sum_labels (L := q.d3) (fun (k : Fin n) l => weight1 q F b n (t.1 k) (k + 1) l)
    refine Eq.trans ?_ this
    exact sum_congr rfl fun f _ => (tree_weight b n (t, f)).symm
  have h1 : Gibbs.condProb (fun t : LabelledTrees true n q.d3 => labScore (row q b) t) (LabAvoids (F b)) (fun t => HasLabArc t i j l) =
      (∑ t : LabelledTrees true n q.d3, if LabAvoids (F b) t ∧ HasLabArc t i j l then Real.exp (labScore (row q b) t) else 0) /
        ∑ t : LabelledTrees true n q.d3, if LabAvoids (F b) t then Real.exp (labScore (row q b) t) else 0 := by
    rw [Gibbs.condProb, Gibbs.probOf, Gibbs.probOf, ← mul_div_mul_right _ _ hZ.ne', sum_mul, sum_mul]
    congr 1
    · refine sum_congr rfl fun t _ => ?_
      by_cases g1 : LabAvoids (F b) t <;> by_cases g2 : HasLabArc t i j l <;> simp [g1, g2, Gibbs.prob, hZ.ne']
    · refine sum_congr rfl fun t _ => ?_
      by_cases g1 : LabAvoids (F b) t <;> simp [g1, Gibbs.prob, hZ.ne']
  rw [h1, Fintype.sum_prod_type, Fintype.sum_prod_type, sum_congr rfl fun t _ => hnum t, sum_congr rfl fun t _ => hden t, ← sum_mul, shR, sh, e, e, ← sum_sub_distrib,
    div_mul_eq_mul_div]

/-! ### The entries -/

theorem len_lt (h : Valid true q lengths) {b : ℕ} (hb : b < q.d0) : len q lengths b < q.d1 + 1 := Nat.lt_succ_iff.2 (DepTreeProofs.len_le h.toValid hb).1

theorem entries (σ : Slope) (h : Valid true q lengths) (F : ℕ → ℕ → ℕ → ℕ → Prop) :
    ∃ μ, DepBackward.labelMarginals σ (forbidArc q F) lengths = .ok μ ∧ ∀ b < q.d0, ∀ τ : Factors,
      Agree σ (q.d1 + 1) b (DepTree.arcScores DepBackward.sr (DepTreeProofs.conv (DepTree.negBig : EReal) (forbidArc q F)) (DepTree.lensOr q.d0 (q.d1 + 1) lengths)) τ →
      ∀ i < q.d1, ∀ j < q.d1, ∀ l, ∃ x z : EReal, LogOf x (weight1 q F b (len q lengths b) (headNode i j) (j + 1) l) ∧
        LogOf z (weight q F b (len q lengths b) (headNode i j) (j + 1)) ∧ μ [b, i, j, l] = IEEE.mul (fl (arcGrad q.d1 (len q lengths b) τ i j)) (σ x z) := by
  have h' : Valid true (forbidArc q F) lengths := ⟨h.rank, h.labels, h.square, h.batch, h.words, h.lens⟩
  have e1 : DepTree.convert (DepTree.negBig : EReal) (forbidArc q F) = .ok (DepTreeProofs.conv (DepTree.negBig : EReal) (forbidArc q F)) := LabelledDependency.conv_eq _ h'
  have e2 := DepTreeProofs.logpartition_ok true DepBackward.sr (DepTreeProofs.conv (DepTree.negBig : EReal) (forbidArc q F)) q.d1 lengths rfl
    (by change q.d2 + 1 = q.d1 + 1; rw [h.square]) h.batch (by simp) fun l hl => ⟨(h.lens l hl).1, fun x hx => ((h.lens l hl).2 x hx).1⟩
  rw [DepBackward.labelMarginals, e1]
  simp only [Bind.bind, Except.bind]
  rw [e2]
  refine ⟨_, rfl, fun b hb τ hτ i hi j hj l => ?_⟩
  have hL : (DepTree.lensOr q.d0 (q.d1 + 1) lengths).getD b 0 = len q lengths b := DepTreeProofs.lensOr_getD hb
  refine ⟨_, _, weight1_log hL (headNode_ne i j) l, weight_log h.rank h.labels hL (headNode_ne i j), ?_⟩
  change DepTree.unconvertCell (DepBackward.labelGrad σ (DepTreeProofs.conv (DepTree.negBig : EReal) (forbidArc q F)) (DepTree.lensOr q.d0 (q.d1 + 1) lengths)) b i j l = _
  rw [DepTree.unconvertCell, arcGrad, headNode]
  by_cases hij : i = j
  · rw [if_pos hij, if_pos hij, if_pos hij, DepBackward.labelGrad]
    congr 1
    exact (arc_grad hτ hb hL (by omega) (by omega)).1
  · rw [if_neg hij, if_neg hij, if_neg hij, DepBackward.labelGrad]
    congr 1
    by_cases hlt : i < j
    · rw [if_pos hlt]
      exact (arc_grad hτ hb hL (by omega) (by omega)).1
    · rw [if_neg hlt]
      exact (arc_grad hτ hb hL (by omega) (by omega)).2

/-- The weights of row `b` are those of the model. -/
theorem arcs_log (h : Valid true q lengths) {b : ℕ} (hb : b < q.d0) (x y : ℕ) (hne : x ≠ y) :
    LogOf (DepTree.arcScores DepBackward.sr (DepTreeProofs.conv (DepTree.negBig : EReal) (forbidArc q F)) (DepTree.lensOr q.d0 (q.d1 + 1) lengths) b x y)
      (weight q F b (len q lengths b) x y) := weight_log h.rank h.labels (DepTreeProofs.lensOr_getD hb) hne

/-- The cells of the user's table that are cut. -/
theorem cut_cell (F : ℕ → ℕ → ℕ → Prop) (L n i j : ℕ) : Cut F L n (headNode i j) (j + 1) ↔ i < n ∧ j < n ∧ ∀ l < L, F i j l := by
  rw [Cut, headNode, Nat.add_sub_cancel, arcCell]
  by_cases hij : i = j
  · subst hij
    simp only [if_true]
    constructor
    · rintro ⟨_, h2, _, h4⟩; exact ⟨by omega, by omega, h4⟩
    · rintro ⟨h1, h2, h3⟩; exact ⟨by omega, by omega, by omega, h3⟩
  · simp only [if_neg hij, Nat.add_sub_cancel, Nat.succ_ne_zero, if_false]
    constructor
    · rintro ⟨_, h2, h3, h4⟩; exact ⟨by omega, by omega, h4⟩
    · rintro ⟨h1, h2, h3⟩; exact ⟨by omega, by omega, by omega, h3⟩

/-- **C124.** If the gradient of `logsumexp` is guarded against a result of `-inf`, every marginal is the conditional probability of the labelled arc given that no
forbidden labelled arc is used; arcs that reach into the padding get 0. -/
theorem guarded_spec (q : Arcs ℝ) (lengths : Option (List ℕ)) (h : Valid true q lengths) (F : ℕ → ℕ → ℕ → ℕ → Prop) :
    ∃ μ, DepBackward.labelMarginals Slope.guarded (forbidArc q F) lengths = .ok μ ∧ ∀ b < q.d0, (∃ t : LabelledTrees true (len q lengths b) q.d3, LabAvoids (F b) t) →
      ∀ i < q.d1, ∀ j < q.d1, ∀ l < q.d3,
        μ [b, i, j, l] = IEEE.ofReal (Gibbs.condProb (labS true q lengths b) (LabAvoids (F b)) (fun t => HasLabArc t i j l)) := by
  obtain ⟨μ, h1, h2⟩ := entries Slope.guarded h F
  refine ⟨μ, h1, fun b hb _ i hi j hj l hl => ?_⟩
  obtain ⟨x, z, hx, hz, e⟩ := h2 b hb _ (agree_guarded (weight_nonneg b (len q lengths b)) fun x y _ _ hne => arcs_log h hb x y hne) i hi j hj l
  have hzero : weight q F b (len q lengths b) (headNode i j) (j + 1) = 0 → weight1 q F b (len q lengths b) (headNode i j) (j + 1) l = 0 := fun h0 =>
    (sum_eq_zero_iff_of_nonneg fun _ _ => weight1_nonneg _ _ _ _ _).1 h0 l (mem_range.2 hl)
  rw [e, arcGrad_value (weight_nonneg b _) hi hj (len_lt h hb), guarded_real hx hz hzero, fl_coe, IEEE.mul_real, share b _ h.labels hl]
  rfl

/-- **C124.** With torch's `logsumexp` gradient, the marginal of a labelled arc is NaN exactly if the arc is spoilt: it lies in a range of nodes for which there is
no half tree, or no division, without arcs all labels of which are forbidden, or all its own labels are forbidden.  Everywhere else it is the conditional
probability of the labelled arc given that no forbidden labelled arc is used. -/
theorem plain_spec (q : Arcs ℝ) (lengths : Option (List ℕ)) (h : Valid true q lengths) (F : ℕ → ℕ → ℕ → ℕ → Prop) :
    ∃ μ, DepBackward.labelMarginals Slope.plain (forbidArc q F) lengths = .ok μ ∧ ∀ b < q.d0, ∀ i < q.d1, ∀ j < q.d1, ∀ l < q.d3,
      (μ [b, i, j, l] = IEEE.nan ↔ Spoilt (F b) q.d3 (len q lengths b) q.d1 i j) ∧
      (μ [b, i, j, l] ≠ IEEE.nan → (∃ t : LabelledTrees true (len q lengths b) q.d3, LabAvoids (F b) t) →
        μ [b, i, j, l] = IEEE.ofReal (Gibbs.condProb (labS true q lengths b) (LabAvoids (F b)) (fun t => HasLabArc t i j l))) := by
  obtain ⟨μ, h1, h2⟩ := entries Slope.plain h F
  refine ⟨μ, h1, fun b hb i hi j hj l hl => ?_⟩
  obtain ⟨x, z, hx, hz, e⟩ := h2 b hb _ (agree_plain (weight_nonneg b (len q lengths b)) fun x y _ _ hne => arcs_log h hb x y hne) i hi j hj l
  have hnan : ∀ v, fl v = IEEE.nan ↔ v = ⊤ := fun v => ⟨fun hv => fl_inj (y := ⊤) hv, fun hv => by rw [hv]; rfl⟩
  have hcut := cut_cell (F b) q.d3 (len q lengths b) i j
  rw [← weight_zero (q := q) (F := F) h.labels (headNode_ne i j)] at hcut
  by_cases hw : weight q F b (len q lengths b) (headNode i j) (j + 1) = 0
  · have hx0 : weight1 q F b (len q lengths b) (headNode i j) (j + 1) l = 0 :=
      (sum_eq_zero_iff_of_nonneg fun _ _ => weight1_nonneg _ _ _ _ _).1 hw l (mem_range.2 hl)
    rw [hw] at hz
    rw [hx0] at hx
    have e' : μ [b, i, j, l] = IEEE.nan := by
      rw [e, bot_of_zero hx, bot_of_zero hz, plain_nan]
      exact (fl_mul _ ⊤).trans ((hnan _).2 (tmul_eq_top.2 (Or.inr rfl)))
    exact ⟨⟨fun _ => Or.inr (hcut.1 hw), fun _ => e'⟩, fun hne => absurd e' hne⟩
  · have e' : μ [b, i, j, l] = fl (tmul (arcGrad q.d1 (len q lengths b) (plainτ (weight q F b (len q lengths b)) (q.d1 + 1)) i j)
        ((weight1 q F b (len q lengths b) (headNode i j) (j + 1) l / weight q F b (len q lengths b) (headNode i j) (j + 1) : ℝ) : WithTop ℝ)) := by
      rw [e, slope_real hx hz hw, ← fl_mul]; rfl
    rw [e', hnan, tmul_eq_top, arcGrad_nan (weight_nonneg b _) (fun x y hne => weight_zero h.labels hne) _ hi hj, Spoilt]
    refine ⟨⟨fun hc => hc.elim Or.inl fun hc => absurd hc WithTop.coe_ne_top, fun hc => hc.elim Or.inl fun hc => absurd (hcut.2 hc) hw⟩, fun hne _ => ?_⟩
    have hg : arcGrad q.d1 (len q lengths b) (plainτ (weight q F b (len q lengths b)) (q.d1 + 1)) i j ≠ ⊤ := fun hc => hne (by rw [hc]; rfl)
    rw [arcGrad_same _ _ _ _ _ hg, arcGrad_value (weight_nonneg b _) hi hj (len_lt h hb), tmul_coe, fl_coe, share b _ h.labels hl]
    rfl

/-! ### Consequences -/

/-- The arcs between neighbouring nodes of a sentence of `n` words have an allowed label: from the root to the first word, and between neighbouring words in
both directions. -/
def NeighboursAllowed (F : ℕ → ℕ → ℕ → Prop) (L n : ℕ) : Prop := DepInfinity.NeighboursAllowed (fun i j _ => ∀ l < L, F i j l) n

theorem cut_eq (F : ℕ → ℕ → ℕ → Prop) (L n : ℕ) : Cut F L n = DepInfinity.Cut (fun i j _ => ∀ l < L, F i j l) n := rfl

/-- A tree without cut arcs has an allowed labelling. -/
theorem labelling {F : ℕ → ℕ → ℕ → Prop} {L n : ℕ} (hL : 1 ≤ L) (hh : RightHalf (Cut F L n) 0 n) : ∃ t : LabelledTrees true n L, LabAvoids F t := by
  obtain ⟨t, ht⟩ := hh
  change ProjTrees true n at t
  have key : ∀ k : Fin n, ∃ l : Fin L, ¬ F (arcCell (t.1 k) k).1 (arcCell (t.1 k) k).2 l := by
    intro k
    by_contra hc
    push Not at hc
    refine ht k ?_
    have h1 := k.2
    have h2 := (t.1 k).2
    refine ⟨by omega, by omega, by omega, fun l hl => ?_⟩
    have e : 0 + ((k : ℕ) + 1) - 1 = k := by omega
    rw [Nat.zero_add, e]
    exact hc ⟨l, hl⟩
  choose f hf using key
  exact ⟨(t, f), (labAvoids_iff _ _).2 hf⟩

/-- **C124, neighbours allowed.** If every arc between neighbouring nodes has an allowed label, the marginals of all arcs with an allowed label are conditional
probabilities; the marginals of the forbidden labels of such an arc are therefore 0. -/
theorem neighbours_allowed (q : Arcs ℝ) (lengths : Option (List ℕ)) (h : Valid true q lengths) (F : ℕ → ℕ → ℕ → ℕ → Prop) :
    ∃ μ, DepBackward.labelMarginals Slope.plain (forbidArc q F) lengths = .ok μ ∧ ∀ b < q.d0, NeighboursAllowed (F b) q.d3 (len q lengths b) →
      ∀ i < q.d1, ∀ j < q.d1, (∃ l < q.d3, ¬ F b i j l) → ∀ l < q.d3,
        μ [b, i, j, l] = IEEE.ofReal (Gibbs.condProb (labS true q lengths b) (LabAvoids (F b)) (fun t => HasLabArc t i j l)) ∧
        (F b i j l → μ [b, i, j, l] = IEEE.ofReal 0) := by
  obtain ⟨μ, h1, h2⟩ := plain_spec q lengths h F
  refine ⟨μ, h1, fun b hb hN i hi j hj ha l hl => ?_⟩
  have e : μ [b, i, j, l] = IEEE.ofReal (Gibbs.condProb (labS true q lengths b) (LabAvoids (F b)) (fun t => HasLabArc t i j l)) := by
    refine (h2 b hb i hi j hj l hl).2 ?_ (labelling h.labels (DepInfinity.rightHalf_of hN 0 _))
    rw [ne_eq, (h2 b hb i hi j hj l hl).1]
    rintro (hc | ⟨_, _, hc⟩)
    · exact DepInfinity.not_blocked hN hc
    · obtain ⟨l', h3, h4⟩ := ha
      exact h4 (hc l' h3)
  refine ⟨e, fun hF => e.trans ?_⟩
  congr 1
  rw [Gibbs.condProb, Gibbs.probOf, sum_eq_zero, zero_div]
  rintro t -
  exact if_neg fun hc => hc.1 i j l hc.2 hF

/-- **C124, an arc without allowed labels.** If all labels of an arc of the sentence are forbidden, all its marginals are NaN, where the conditional probabilities
are 0 -- wherever the arc lies, whereas without labels (C117) a forbidden arc between words that are not neighbours gets 0. -/
theorem forbidden_arc_nan (q : Arcs ℝ) (lengths : Option (List ℕ)) (h : Valid true q lengths) (F : ℕ → ℕ → ℕ → ℕ → Prop) :
    ∃ μ, DepBackward.labelMarginals Slope.plain (forbidArc q F) lengths = .ok μ ∧ ∀ b < q.d0, ∀ i < len q lengths b, ∀ j < len q lengths b,
      (∀ l < q.d3, F b i j l) → ∀ l < q.d3, μ [b, i, j, l] = IEEE.nan := by
  obtain ⟨μ, h1, h2⟩ := plain_spec q lengths h F
  refine ⟨μ, h1, fun b hb i hi j hj hF l hl => ?_⟩
  have := len_lt h hb
  exact ((h2 b hb i (by omega) j (by omega) l hl).1).2 (Or.inr ⟨hi, hj, hF⟩)

/-- **C124, no tree left.** If every labelled tree of a row uses a forbidden labelled arc, all marginals of the row's sentence are NaN. -/
theorem no_tree_nan (q : Arcs ℝ) (lengths : Option (List ℕ)) (h : Valid true q lengths) (F : ℕ → ℕ → ℕ → ℕ → Prop) :
    ∃ μ, DepBackward.labelMarginals Slope.plain (forbidArc q F) lengths = .ok μ ∧ ∀ b < q.d0, (¬ ∃ t : LabelledTrees true (len q lengths b) q.d3, LabAvoids (F b) t) →
      ∀ i < len q lengths b, ∀ j < len q lengths b, ∀ l < q.d3, μ [b, i, j, l] = IEEE.nan := by
  obtain ⟨μ, h1, h2⟩ := plain_spec q lengths h F
  refine ⟨μ, h1, fun b hb hno i hi j hj l hl => ?_⟩
  have hL := len_lt h hb
  have hR : ¬ RightHalf (Cut (F b) q.d3 (len q lengths b)) 0 (len q lengths b) := fun hc => hno (labelling h.labels hc)
  refine ((h2 b hb i (by omega) j (by omega) l hl).1).2 (Or.inl ?_)
  rw [Blocked]
  split_ifs
  · exact ⟨0, _, by omega, by omega, by omega, Or.inl hR⟩
  · exact ⟨0, len q lengths b, by omega, by omega, by omega, Or.inl hR⟩
  · exact ⟨0, len q lengths b, by omega, by omega, by omega, Or.inr ⟨by omega, Or.inr hR⟩⟩

/-- **C124, finite potentials.** With finite potentials the backward pass computes `marginals` as modelled with exact derivatives. -/
theorem finite (q : Arcs ℝ) (lengths : Option (List ℕ)) (h : Valid true q lengths) :
    ∃ μ ν, DepBackward.labelMarginals Slope.plain ⟨q.rank, q.d0, q.d1, q.d2, q.d3, fun b i j l => (q.get b i j l : EReal)⟩ lengths = .ok μ ∧
      DepTree.marginals true q lengths = .ok ν ∧ ∀ b < q.d0, ∀ i < q.d1, ∀ j < q.d1, ∀ l < q.d3, μ [b, i, j, l] = IEEE.ofReal (ν [b, i, j, l]) := by
  obtain ⟨μ, h1, h2⟩ := neighbours_allowed q lengths h fun _ _ _ _ => False
  obtain ⟨ν, h3, h4⟩ := LabelledDependency.marginals_spec true q lengths h
  have e : forbidArc q (fun _ _ _ _ => False) = ⟨q.rank, q.d0, q.d1, q.d2, q.d3, fun b i j l => (q.get b i j l : EReal)⟩ := by
    rw [forbidArc]; simp
  rw [e] at h1
  refine ⟨μ, ν, h1, h3, fun b hb i hi j hj l hl => ?_⟩
  have hf : ¬ ∀ l < q.d3, False := fun hc => hc 0 h.labels
  rw [(h2 b hb ⟨fun _ => hf, fun _ _ => ⟨hf, hf⟩⟩ i hi j hj ⟨0, h.labels, not_false⟩ l hl).1, h4 b hb i j l]
  congr 1
  have : Nonempty (LabelledTrees true (len q lengths b) q.d3) := LabelledDependency.trees_nonempty h b hb
  have hav : ∀ t : LabelledTrees true (len q lengths b) q.d3, LabAvoids (fun _ _ _ => False) t := fun t i j l _ hf => hf
  have e1 : Gibbs.probOf (labS true q lengths b) (LabAvoids fun _ _ _ => False) = 1 := by
    rw [Gibbs.probOf, ← Gibbs.sum_prob (labS true q lengths b)]
    exact sum_congr rfl fun t _ => if_pos (hav t)
  rw [Gibbs.condProb, e1, div_one, Gibbs.probOf, LabelledDependency.arcProb]
  refine sum_congr rfl fun t _ => ?_
  by_cases h0 : HasLabArc t i j l <;> simp only [h0, hav t, and_self, and_false, if_true, if_false] <;> rfl

/-! The hypotheses are met: the sample with two labels, with rows of three and two words. -/

/-- If one label of the arc from the first to the second word is forbidden, its marginal is 0 and that of the other label a probability. -/
example : ∃ μ, DepBackward.labelMarginals Slope.plain (forbidArc LabelledDependency.sample fun _ i j l => i = 0 ∧ j = 1 ∧ l = 0) (some [3, 2]) = .ok μ ∧
    μ [0, 0, 1, 0] = IEEE.ofReal 0 ∧ ∃ v : ℝ, μ [0, 0, 1, 1] = IEEE.ofReal v := by
  obtain ⟨μ, h1, h2⟩ := neighbours_allowed LabelledDependency.sample _ (LabelledDependency.sample_valid true) fun _ i j l => i = 0 ∧ j = 1 ∧ l = 0
  have hf : ∀ i j, ¬ ∀ l < 2, i = 0 ∧ j = 1 ∧ l = 0 := fun i j hc => by have := (hc 1 (by decide)).2.2; omega
  have hN : NeighboursAllowed (fun i j l => i = 0 ∧ j = 1 ∧ l = 0) 2 3 := ⟨fun _ => hf _ _, fun k _ => ⟨hf _ _, hf _ _⟩⟩
  have ha : ∃ l < LabelledDependency.sample.d3, ¬ (0 = 0 ∧ 1 = 1 ∧ l = 0) := ⟨1, by decide, by omega⟩
  exact ⟨μ, h1, (h2 0 (by decide) hN 0 (by decide) 1 (by decide) ha 0 (by decide)).2 ⟨rfl, rfl, rfl⟩, _,
    (h2 0 (by decide) hN 0 (by decide) 1 (by decide) ha 1 (by decide)).1⟩

/-- If both labels of the arc from the first to the third word are forbidden, its marginals are NaN. -/
example : ∃ μ, DepBackward.labelMarginals Slope.plain (forbidArc LabelledDependency.sample fun _ i j _ => i = 0 ∧ j = 2) (some [3, 2]) = .ok μ ∧
    μ [0, 0, 2, 0] = IEEE.nan ∧ μ [0, 0, 2, 1] = IEEE.nan := by
  obtain ⟨μ, h1, h2⟩ := forbidden_arc_nan LabelledDependency.sample _ (LabelledDependency.sample_valid true) fun _ i j _ => i = 0 ∧ j = 2
  have := h2 0 (by decide) 0 (by decide) 2 (by decide) fun l _ => ⟨rfl, rfl⟩
  exact ⟨μ, h1, this 0 (by decide), this 1 (by decide)⟩

end Props.DepLabelInfinity
