import Verif.Proofs.DepRootDual
import Verif.Props.DepLabelInfinity
import Mathlib.Tactic.FinCases

/-! C125: `DependencyCRF(…, multiroot=False).marginals` with potentials `-inf` (unlabelled arcs).  See Props/DepInfinity.lean for any number of roots.

Nodes are numbered as in `Spec.Heads`: 0 is the root, `1 … n` are the words. -/

open Finset Spec
open DepBackwardProofs (Factors gIR gIL gIR_nan gIL_nan gIR_same gIL_same cutArc sh wR wL wX)
open DepRootBackwardProofs (wT wT_nonneg wT_trees shT guardedρ plainρ bad_plain agree_guarded agree_plain atRoot_guarded atRoot_plain hIR_eq hIL_eq seed_eq right_value
  left_value arc_grad root_grad Agree AtRoot plain_x plain_r plain_l)
open TreeBackwardProofs (fl LogOf fl_coe fl_inj)
open Props.Conditional (forbidArc DepAvoids depAvoids_iff depS)
open Props.Dependency (Valid len row)
open Props.DepInfinity (RightHalf LeftHalf Split Cut NeighboursAllowed weight weight_nonneg weight_zero weight_log rightHalf_of leftHalf_of chain chain_head one_arc not_own)
open Props.DepLabelInfinity (arcGrad headNode right_iff left_iff split_iff)
open DepTree (Arcs)

noncomputable section
namespace Props.DepRootInfinity

/-! ### Specification -/

/-- Some projective tree over the first `j` words, with a single word below the root, has no forbidden arc. -/
def SingleTree (C : ℕ → ℕ → Prop) (j : ℕ) : Prop := ∃ t : ProjTrees false j, ∀ k : Fin j, ¬ C (t.1 k) (k + 1)

/-- The arc from `h` to `m`, `h < m`, lies in a range of words of the table (sentence or padding, `N` words) for which there is no half tree or no division, or
among first words for which there is no tree. -/
def BlockedR (C : ℕ → ℕ → Prop) (N h m : ℕ) : Prop :=
  (∃ j, m ≤ j ∧ j ≤ N ∧ ¬ SingleTree C j) ∨
  ∃ i j, 1 ≤ i ∧ i ≤ h ∧ m ≤ j ∧ j ≤ N ∧ (¬ RightHalf C i j ∨ m < j ∧ (¬ Split C i j ∨ ¬ LeftHalf C i j))

/-- The same for the arc from `h` to `m`, `m < h`. -/
def BlockedL (C : ℕ → ℕ → Prop) (N h m : ℕ) : Prop :=
  (∃ j, h ≤ j ∧ j ≤ N ∧ ¬ SingleTree C j) ∨
  ∃ i j, 1 ≤ i ∧ i ≤ m ∧ h ≤ j ∧ j ≤ N ∧ (¬ LeftHalf C i j ∨ i < m ∧ (¬ Split C i j ∨ ¬ RightHalf C i j))

/-- The marginal of entry `(i, j)` of the user's table is NaN: entry `(j, j)` stands for the arc from the root to word `j + 1`, entry `(i, j)` for the arc from
word `i + 1` to word `j + 1`. -/
def Blocked (C : ℕ → ℕ → Prop) (N i j : ℕ) : Prop :=
  if i = j then BlockedR C N 0 (j + 1) else if i < j then BlockedR C N (i + 1) (j + 1) else BlockedL C N (i + 1) (j + 1)

/-! ### Half trees and trees, for any weights -/

/-- A tree with a single root is a tree. -/
def many {n : ℕ} (t : ProjTrees false n) : ProjTrees true n := ⟨t.1, t.2.1, t.2.2.1, by simp⟩

section Generic
variable {W : ℕ → ℕ → ℝ} {C : ℕ → ℕ → Prop} (hW : ∀ x y, 0 ≤ W x y) (hC : ∀ x y, x ≠ y → (W x y = 0 ↔ C x y))
include hW hC

theorem single_iff {j : ℕ} (hj : 1 ≤ j) : wT W j ≠ 0 ↔ SingleTree C j := by
  rw [wT_trees j hj, ne_eq, sum_eq_zero_iff_of_nonneg fun t _ => prod_nonneg fun _ _ => hW _ _, SingleTree]
  simp only [mem_univ, true_imp_iff, not_forall, prod_eq_zero_iff, true_and, not_exists]
  refine exists_congr fun t => forall_congr' fun k => ?_
  exact not_congr (hC _ _ (not_own (many t) k))

theorem blockedR_iff (n : ℕ) {N i j : ℕ} (hij : i < j) : gIR (N + 1) n (plainρ W (N + 1)) i j = ⊤ ↔ BlockedR C N i j := by
  rw [gIR_nan bad_plain hij, BlockedR]
  constructor
  · rintro ⟨p, r, h1, h2, h3, h4⟩
    by_cases hp : p = 0
    · subst hp
      left
      simp only [if_true, ne_eq, not_true_eq_false, false_and, or_self, and_false, or_false] at h4
      exact ⟨r, h2, by omega, fun hc => (single_iff hW hC (by omega)).2 hc h4⟩
    · right
      refine ⟨p, r, by omega, h1, h2, by omega, ?_⟩
      rw [← right_iff hW hC, ← split_iff hW hC, ← left_iff hW hC]
      simpa only [if_false, ne_eq, hp, not_false_eq_true, true_and, not_not] using h4
  · rintro (⟨r, h2, h3, h4⟩ | ⟨p, r, hp, h1, h2, h3, h4⟩)
    · refine ⟨0, r, by omega, h2, by omega, Or.inl ?_⟩
      rw [if_pos rfl]
      by_contra hc
      exact h4 ((single_iff hW hC (by omega)).1 hc)
    · refine ⟨p, r, h1, h2, by omega, ?_⟩
      rw [← right_iff hW hC, ← split_iff hW hC, ← left_iff hW hC] at h4
      have hp0 : p ≠ 0 := by omega
      simpa only [if_false, ne_eq, hp0, not_false_eq_true, true_and, not_not] using h4

theorem blockedL_iff (n : ℕ) {N i j : ℕ} (hi : 1 ≤ i) (hij : i < j) (hj : j ≤ N) : gIL (N + 1) n (plainρ W (N + 1)) i j = ⊤ ↔ BlockedL C N j i := by
  rw [gIL_nan bad_plain hij (by omega), BlockedL]
  constructor
  · rintro ⟨p, r, h1, h2, h3, h4⟩
    by_cases hp : p = 0
    · subst hp
      left
      simp only [if_true, ne_eq, not_true_eq_false, false_and, false_or] at h4
      exact ⟨r, h2, by omega, fun hc => (single_iff hW hC (by omega)).2 hc h4.2⟩
    · right
      refine ⟨p, r, by omega, h1, h2, by omega, ?_⟩
      rw [← right_iff hW hC, ← split_iff hW hC, ← left_iff hW hC]
      simpa only [if_false, ne_eq, hp, not_false_eq_true, true_and, not_not] using h4
  · rintro (⟨r, h2, h3, h4⟩ | ⟨p, r, hp, h1, h2, h3, h4⟩)
    · refine ⟨0, r, by omega, h2, by omega, Or.inr ⟨by omega, Or.inr ?_⟩⟩
      rw [if_pos rfl]
      by_contra hc
      exact h4 ((single_iff hW hC (by omega)).1 hc)
    · refine ⟨p, r, h1, h2, by omega, ?_⟩
      rw [← right_iff hW hC, ← split_iff hW hC, ← left_iff hW hC] at h4
      have hp0 : p ≠ 0 := by omega
      simpa only [if_false, ne_eq, hp0, not_false_eq_true, true_and, not_not] using h4

theorem arcGrad_nan (n : ℕ) {N i j : ℕ} (hi : i < N) (hj : j < N) : arcGrad N n (plainρ W (N + 1)) i j = ⊤ ↔ Blocked C N i j := by
  rw [arcGrad, Blocked]
  by_cases hij : i = j
  · rw [if_pos hij, if_pos hij]; exact blockedR_iff hW hC n (by omega)
  · rw [if_neg hij, if_neg hij]
    by_cases hlt : i < j
    · rw [if_pos hlt, if_pos hlt]; exact blockedR_iff hW hC n (by omega)
    · rw [if_neg hlt, if_neg hlt]; exact blockedL_iff hW hC n (by omega) (by omega) (by omega)

end Generic

theorem arcGrad_same (W : ℕ → ℕ → ℝ) (N n i j : ℕ) (hne : arcGrad N n (plainρ W (N + 1)) i j ≠ ⊤) :
    arcGrad N n (plainρ W (N + 1)) i j = arcGrad N n (guardedρ W (N + 1)) i j := by
  rw [arcGrad] at hne
  rw [arcGrad, arcGrad]
  split_ifs at hne ⊢
  · exact gIR_same plain_x plain_r plain_l hne
  · exact gIR_same plain_x plain_r plain_l hne
  · exact gIL_same plain_x plain_r plain_l hne

theorem arcGrad_value {W : ℕ → ℕ → ℝ} (hW : ∀ x y, 0 ≤ W x y) {N n i j : ℕ} (hi : i < N) (hj : j < N) (hn : n < N + 1) :
    arcGrad N n (guardedρ W (N + 1)) i j = ((shT W (headNode i j) (j + 1) n : ℝ) : WithTop ℝ) := by
  rw [arcGrad, headNode]
  by_cases hij : i = j
  · rw [if_pos hij, if_pos hij]; exact right_value hW (by omega) (by omega) hn
  · rw [if_neg hij, if_neg hij]
    by_cases hlt : i < j
    · rw [if_pos hlt]; exact right_value hW (by omega) (by omega) hn
    · rw [if_neg hlt]; exact left_value hW (by omega) (by omega) hn

/-- The gradient of the arc of an entry of the user's table. -/
theorem grad_entry {σ : Slope} {batch N b L : ℕ} {arc : ℕ → ℕ → ℕ → EReal} {lens : List ℕ} {τ : Factors} (hτ : Agree σ (N + 1) b arc τ) (h0 : AtRoot (N + 1) τ)
    (hb : b < batch) (hL : lens.getD b 0 = L) {i j : ℕ} (hi : i < N) (hj : j < N) :
    (DepRootBackward.backLoop σ batch (N + 1) arc lens).arc b (headNode i j) (j + 1) = fl (arcGrad N L τ i j) := by
  rw [arcGrad, headNode]
  by_cases hij : i = j
  · rw [if_pos hij, if_pos hij, ← seed_eq h0 (by omega)]
    exact root_grad hτ hb hL (by omega) (by omega)
  · rw [if_neg hij, if_neg hij]
    by_cases hlt : i < j
    · rw [if_pos hlt, ← hIR_eq h0 (by omega) (by omega)]
      exact (arc_grad hτ hb hL (by omega) (by omega) (by omega)).1
    · rw [if_neg hlt, ← hIL_eq h0 (by omega) (by omega)]
      exact (arc_grad hτ hb hL (by omega) (by omega) (by omega)).2

theorem unconvert_entry (g : ℕ → ℕ → ℕ → ℕ → IEEE) (b i j l : ℕ) : DepTree.unconvertCell g b i j l = g b (headNode i j) (j + 1) l := by
  rw [DepTree.unconvertCell, headNode]; split_ifs <;> rfl

/-! ### The share of the trees with an arc -/

variable {q : Arcs ℝ} {lengths : Option (List ℕ)} {F : ℕ → ℕ → ℕ → ℕ → Prop}

theorem share (b n : ℕ) (hn : 1 ≤ n) {i j : ℕ} : shT (weight q F b n) (headNode i j) (j + 1) n =
    Gibbs.condProb (fun t : ProjTrees false n => depScore (row q b) t.1) (DepAvoids (F b)) (fun t => HasArc t.1 i j) := by
  classical
  have : Nonempty (ProjTrees false n) := DepTreeProofs.nonempty_trees false n fun _ => hn
  have hZ := Gibbs.Z_pos (fun t : ProjTrees false n => depScore (row q b) t.1)
  have hav : ∀ t : ProjTrees false n, DepAvoids (F b) (many t) ↔ DepAvoids (F b) t := fun t => Iff.rfl
  have hw : ∀ t : ProjTrees false n, ∏ k : Fin n, weight q F b n (t.1 k) (k + 1) = if DepAvoids (F b) t then Real.exp (depScore (row q b) t.1) else 0 := fun t =>
    (DepInfinity.tree_weight b n (many t)).trans (if_congr (hav t) rfl rfl)
  have hc : ∀ t : ProjTrees false n, ∏ k : Fin n, cutArc (weight q F b n) (headNode i j) (j + 1) (t.1 k) (k + 1) =
      if HasArc t.1 i j then 0 else ∏ k : Fin n, weight q F b n (t.1 k) (k + 1) := fun t => DepInfinity.cut_weight b n (many t) rfl rfl
  rw [shT, sh, wT_trees n hn, wT_trees n hn, ← sum_sub_distrib, Gibbs.condProb, Gibbs.probOf, Gibbs.probOf, ← mul_div_mul_right _ _ (inv_ne_zero hZ.ne'), sum_mul,
    sum_mul]
  congr 1
  · refine sum_congr rfl fun t _ => ?_
    rw [hc, hw, Gibbs.prob]
    by_cases h1 : DepAvoids (F b) t <;> by_cases h2 : HasArc t.1 i j <;> simp [h1, h2, div_eq_mul_inv]
  · refine sum_congr rfl fun t _ => ?_
    rw [hw, Gibbs.prob]
    by_cases h1 : DepAvoids (F b) t <;> simp [h1, div_eq_mul_inv]

/-! ### The entries -/

theorem len_lt (h : Valid false q lengths) {b : ℕ} (hb : b < q.d0) : 1 ≤ len q lengths b ∧ len q lengths b < q.d1 + 1 :=
  ⟨(DepTreeProofs.len_le h.toValid hb).2 rfl, Nat.lt_succ_iff.2 (DepTreeProofs.len_le h.toValid hb).1⟩

theorem entries (σ : Slope) (h : Valid false q lengths) (F : ℕ → ℕ → ℕ → ℕ → Prop) :
    ∃ μ, DepRootBackward.marginals σ (forbidArc q F) lengths = .ok μ ∧ ∀ b < q.d0, ∀ τ : Factors,
      Agree σ (q.d1 + 1) b (DepTree.arcScores DepBackward.sr (DepTreeProofs.conv (DepTree.negBig : EReal) (forbidArc q F)) (DepTree.lensOr q.d0 (q.d1 + 1) lengths)) τ →
      AtRoot (q.d1 + 1) τ → ∀ i < q.d1, ∀ j < q.d1, μ [b, i, j] = fl (arcGrad q.d1 (len q lengths b) τ i j) := by
  have h' : Valid false (forbidArc q F) lengths := ⟨h.rank, h.square, h.batch, h.words, h.lens⟩
  have e1 : DepTree.convert (DepTree.negBig : EReal) (forbidArc q F) = .ok (DepTreeProofs.conv (DepTree.negBig : EReal) (forbidArc q F)) := Dependency.conv_eq _ h'
  have e2 := DepTreeProofs.logpartition_ok false DepBackward.sr (DepTreeProofs.conv (DepTree.negBig : EReal) (forbidArc q F)) q.d1 lengths rfl
    (by change q.d2 + 1 = q.d1 + 1; rw [h.square]) h.batch h.words fun l hl => ⟨(h.lens l hl).1, fun x hx => ((h.lens l hl).2 x hx).1⟩
  rw [DepRootBackward.marginals, e1]
  simp only [Bind.bind, Except.bind]
  rw [e2]
  refine ⟨_, rfl, fun b hb τ hτ h0 i hi j hj => ?_⟩
  have hL : (DepTree.lensOr q.d0 (q.d1 + 1) lengths).getD b 0 = len q lengths b := DepTreeProofs.lensOr_getD hb
  change DepTree.unconvertCell (fun b h m _ => (DepRootBackward.backLoop σ q.d0 (q.d1 + 1) _ (DepTree.lensOr q.d0 (q.d1 + 1) lengths)).arc b h m) b i j 0 = _
  rw [unconvert_entry]
  exact grad_entry hτ h0 hb hL hi hj

/-- The weights of row `b` are those of the model. -/
theorem arcs_log (h : Valid false q lengths) {b : ℕ} (hb : b < q.d0) (x y : ℕ) (hne : x ≠ y) :
    LogOf (DepTree.arcScores DepBackward.sr (DepTreeProofs.conv (DepTree.negBig : EReal) (forbidArc q F)) (DepTree.lensOr q.d0 (q.d1 + 1) lengths) b x y)
      (weight q F b (len q lengths b) x y) := weight_log h.rank (DepTreeProofs.lensOr_getD hb) hne

/-- **C125.** If the gradient of `logsumexp` is guarded against a result of `-inf`, every marginal is the conditional probability of the arc given that no
forbidden arc is used; arcs that reach into the padding get 0. -/
theorem guarded_spec (q : Arcs ℝ) (lengths : Option (List ℕ)) (h : Valid false q lengths) (F : ℕ → ℕ → ℕ → ℕ → Prop) :
    ∃ μ, DepRootBackward.marginals Slope.guarded (forbidArc q F) lengths = .ok μ ∧ ∀ b < q.d0, (∃ t : ProjTrees false (len q lengths b), DepAvoids (F b) t) →
      ∀ i < q.d1, ∀ j < q.d1, μ [b, i, j] = IEEE.ofReal (Gibbs.condProb (depS false q lengths b) (DepAvoids (F b)) (fun t => HasArc t.1 i j)) := by
  obtain ⟨μ, h1, h2⟩ := entries Slope.guarded h F
  refine ⟨μ, h1, fun b hb _ i hi j hj => ?_⟩
  rw [h2 b hb _ (agree_guarded (weight_nonneg b (len q lengths b)) fun x y _ _ hne => arcs_log h hb x y hne) atRoot_guarded i hi j hj,
    arcGrad_value (weight_nonneg b _) hi hj (len_lt h hb).2, share b _ (len_lt h hb).1]
  rfl

/-- **C125.** With torch's `logsumexp` gradient, the marginal of an arc is NaN exactly if the arc is blocked: it lies in a range of words for which there is no half
tree, or no division, without forbidden arcs, or among first words for which there is no tree with a single root without forbidden arcs.  Everywhere else it is the
conditional probability of the arc given that no forbidden arc is used. -/
theorem plain_spec (q : Arcs ℝ) (lengths : Option (List ℕ)) (h : Valid false q lengths) (F : ℕ → ℕ → ℕ → ℕ → Prop) :
    ∃ μ, DepRootBackward.marginals Slope.plain (forbidArc q F) lengths = .ok μ ∧ ∀ b < q.d0, ∀ i < q.d1, ∀ j < q.d1,
      (μ [b, i, j] = IEEE.nan ↔ Blocked (Cut (F b) (len q lengths b)) q.d1 i j) ∧
      (μ [b, i, j] ≠ IEEE.nan → (∃ t : ProjTrees false (len q lengths b), DepAvoids (F b) t) →
        μ [b, i, j] = IEEE.ofReal (Gibbs.condProb (depS false q lengths b) (DepAvoids (F b)) (fun t => HasArc t.1 i j))) := by
  obtain ⟨μ, h1, h2⟩ := entries Slope.plain h F
  refine ⟨μ, h1, fun b hb i hi j hj => ?_⟩
  have e := h2 b hb _ (agree_plain (weight_nonneg b (len q lengths b)) fun x y _ _ hne => arcs_log h hb x y hne) atRoot_plain i hi j hj
  have hnan : ∀ v, fl v = IEEE.nan ↔ v = ⊤ := fun v => ⟨fun hv => fl_inj (y := ⊤) hv, fun hv => by rw [hv]; rfl⟩
  rw [e, hnan]
  refine ⟨arcGrad_nan (weight_nonneg b _) (fun x y hne => weight_zero hne) _ hi hj, fun hne _ => ?_⟩
  rw [arcGrad_same _ _ _ _ _ fun hc => hne ((hnan _).2 hc), arcGrad_value (weight_nonneg b _) hi hj (len_lt h hb).2, share b _ (len_lt h hb).1]
  rfl

/-! ### Consequences -/

/-- The tree in which every word's head is the node before it has a single root. -/
theorem single_chain (n : ℕ) (hn : 1 ≤ n) : IsSingleRoot (chain n).1 := by
  refine ⟨⟨0, hn⟩, Fin.ext rfl, fun k hk => Fin.ext ?_⟩
  have := congrArg Fin.val hk
  exact this

theorem single_of {F : ℕ → ℕ → ℕ → Prop} {n : ℕ} (h : NeighboursAllowed F n) {j : ℕ} (hj : 1 ≤ j) : SingleTree (Cut F n) j := by
  refine ⟨⟨(chain j).1, (chain j).2.1, (chain j).2.2.1, fun _ => single_chain j hj⟩, fun k hc => ?_⟩
  change Cut F n (k : ℕ) (k + 1) at hc
  obtain ⟨h1, h2, h3, h4⟩ := hc
  by_cases h0 : (k : ℕ) = 0
  · rw [h0, arcCell, if_pos rfl] at h4
    exact h.1 (by omega) h4
  · obtain ⟨x, hx⟩ : ∃ x, (k : ℕ) = x + 1 := ⟨k - 1, by omega⟩
    rw [hx, arcCell, if_neg (by omega)] at h4
    exact (h.2 x (by omega)).1 h4

theorem not_blocked {F : ℕ → ℕ → ℕ → Prop} {n N i j : ℕ} (h : NeighboursAllowed F n) : ¬ Blocked (Cut F n) N i j := by
  have hs : ∀ i j, i < j → Split (Cut F n) i j := fun i j hij => ⟨i, le_rfl, hij, rightHalf_of h i i, leftHalf_of h (i + 1) j⟩
  have hR : ∀ x y, x < y → ¬ BlockedR (Cut F n) N x y := by
    rintro x y hxy (⟨r, h1, _, h2⟩ | ⟨p, r, _, h1, h2, _, h3 | ⟨_, h4 | h4⟩⟩)
    · exact h2 (single_of h (by omega))
    · exact h3 (rightHalf_of h p r)
    · exact h4 (hs p r (by omega))
    · exact h4 (leftHalf_of h p r)
  rw [Blocked]
  split_ifs with c1 c2
  · exact hR _ _ (by omega)
  · exact hR _ _ (by omega)
  · rintro (⟨r, h1, _, h2⟩ | ⟨p, r, _, h1, h2, _, h3 | ⟨_, h4 | h4⟩⟩)
    · exact h2 (single_of h (by omega))
    · exact h3 (leftHalf_of h p r)
    · exact h4 (hs p r (by omega))
    · exact h4 (rightHalf_of h p r)

theorem avoids_iff (F : ℕ → ℕ → ℕ → Prop) (n : ℕ) : SingleTree (Cut F n) n ↔ ∃ t : ProjTrees false n, DepAvoids F t := by
  refine exists_congr fun t => ?_
  rw [depAvoids_iff]
  refine forall_congr' fun k => not_congr ?_
  have h1 := k.2
  have h2 := (t.1 k).2
  rw [Cut, Nat.add_sub_cancel]
  exact ⟨fun h => h.2.2.2, fun h => ⟨by omega, by omega, by omega, h⟩⟩

/-- **C125, neighbours allowed.** If no arc between neighbouring nodes is forbidden, there is no NaN: all marginals are conditional probabilities. -/
theorem neighbours_allowed (q : Arcs ℝ) (lengths : Option (List ℕ)) (h : Valid false q lengths) (F : ℕ → ℕ → ℕ → ℕ → Prop) :
    ∃ μ, DepRootBackward.marginals Slope.plain (forbidArc q F) lengths = .ok μ ∧ ∀ b < q.d0, NeighboursAllowed (F b) (len q lengths b) →
      ∀ i < q.d1, ∀ j < q.d1, μ [b, i, j] = IEEE.ofReal (Gibbs.condProb (depS false q lengths b) (DepAvoids (F b)) (fun t => HasArc t.1 i j)) := by
  obtain ⟨μ, h1, h2⟩ := plain_spec q lengths h F
  refine ⟨μ, h1, fun b hb hN i hi j hj => (h2 b hb i hi j hj).2 ?_ ((avoids_iff _ _).1 (single_of hN (len_lt h hb).1))⟩
  rw [ne_eq, (h2 b hb i hi j hj).1]; exact not_blocked hN

/-- **C125, a forbidden neighbour.** The marginal of a forbidden arc between neighbouring words of the sentence is NaN, and so is that of the arc from the root to
the first word if it is forbidden; the conditional probability is 0. -/
theorem neighbour_nan (q : Arcs ℝ) (lengths : Option (List ℕ)) (h : Valid false q lengths) (F : ℕ → ℕ → ℕ → ℕ → Prop) :
    ∃ μ, DepRootBackward.marginals Slope.plain (forbidArc q F) lengths = .ok μ ∧ ∀ b < q.d0,
      (F b 0 0 0 → μ [b, 0, 0] = IEEE.nan) ∧
      (∀ k, k + 2 ≤ len q lengths b → (F b k (k + 1) 0 → μ [b, k, k + 1] = IEEE.nan) ∧ (F b (k + 1) k 0 → μ [b, k + 1, k] = IEEE.nan)) := by
  obtain ⟨μ, h1, h2⟩ := plain_spec q lengths h F
  refine ⟨μ, h1, fun b hb => ?_⟩
  have hL := len_lt h hb
  have hR : ∀ i, Cut (F b) (len q lengths b) i (i + 1) → ¬ RightHalf (Cut (F b) (len q lengths b)) i (i + 1) := by
    rintro i hc ⟨t, ht⟩
    have k : Fin (i + 1 - i) := ⟨0, by omega⟩
    have h0 := one_arc _ (by omega) t k
    have := ht k
    rw [h0.1, h0.2] at this
    exact this hc
  have hLf : ∀ i, Cut (F b) (len q lengths b) (i + 1) i → ¬ LeftHalf (Cut (F b) (len q lengths b)) i (i + 1) := by
    rintro i hc ⟨t, ht⟩
    have k : Fin (i + 1 - i) := ⟨0, by omega⟩
    have h0 := one_arc _ (by omega) t k
    have := ht k
    rw [h0.1, h0.2, Nat.sub_zero, Nat.add_sub_cancel] at this
    exact this hc
  refine ⟨fun hF => ((h2 b hb 0 (by omega) 0 (by omega)).1).2 ?_, fun k hk => ⟨fun hF => ((h2 b hb k (by omega) (k + 1) (by omega)).1).2 ?_,
    fun hF => ((h2 b hb (k + 1) (by omega) k (by omega)).1).2 ?_⟩⟩
  · rw [Blocked, if_pos rfl]
    refine Or.inl ⟨1, le_rfl, by omega, ?_⟩
    rintro ⟨t, ht⟩
    have h0 := one_arc 1 rfl (many t) ⟨0, by omega⟩
    refine ht ⟨0, by omega⟩ ?_
    change Cut (F b) _ ((many t).1 ⟨0, by omega⟩ : ℕ) 1
    rw [h0.1]
    exact ⟨le_rfl, hL.1, by omega, hF⟩
  · rw [Blocked, if_neg (by omega), if_pos (by omega)]
    refine Or.inr ⟨k + 1, k + 2, by omega, le_rfl, le_rfl, by omega, Or.inl (hR (k + 1) ⟨by omega, by omega, by omega, ?_⟩)⟩
    rw [arcCell, if_neg (by omega)]; exact hF
  · rw [Blocked, if_neg (by omega), if_neg (by omega)]
    refine Or.inr ⟨k + 1, k + 2, by omega, le_rfl, le_rfl, by omega, Or.inl (hLf (k + 1) ⟨by omega, by omega, by omega, ?_⟩)⟩
    rw [arcCell, if_neg (by omega)]; exact hF

/-- **C125, no tree left.** If every tree of a row uses a forbidden arc, all marginals of the row's sentence are NaN. -/
theorem no_tree_nan (q : Arcs ℝ) (lengths : Option (List ℕ)) (h : Valid false q lengths) (F : ℕ → ℕ → ℕ → ℕ → Prop) :
    ∃ μ, DepRootBackward.marginals Slope.plain (forbidArc q F) lengths = .ok μ ∧ ∀ b < q.d0, (¬ ∃ t : ProjTrees false (len q lengths b), DepAvoids (F b) t) →
      ∀ i < len q lengths b, ∀ j < len q lengths b, μ [b, i, j] = IEEE.nan := by
  obtain ⟨μ, h1, h2⟩ := plain_spec q lengths h F
  refine ⟨μ, h1, fun b hb hno i hi j hj => ?_⟩
  have hL := len_lt h hb
  rw [← avoids_iff] at hno
  rw [(h2 b hb i (by omega) j (by omega)).1, Blocked]
  split_ifs
  all_goals exact Or.inl ⟨len q lengths b, by omega, by omega, hno⟩

/-- **C125, finite potentials.** With finite potentials the backward pass computes `marginals` as modelled with exact derivatives. -/
theorem finite (q : Arcs ℝ) (lengths : Option (List ℕ)) (h : Valid false q lengths) :
    ∃ μ ν, DepRootBackward.marginals Slope.plain ⟨q.rank, q.d0, q.d1, q.d2, q.d3, fun b i j l => (q.get b i j l : EReal)⟩ lengths = .ok μ ∧
      DepTree.marginals false q lengths = .ok ν ∧ ∀ b < q.d0, ∀ i < q.d1, ∀ j < q.d1, μ [b, i, j] = IEEE.ofReal (ν [b, i, j]) := by
  obtain ⟨μ, h1, h2⟩ := neighbours_allowed q lengths h fun _ _ _ _ => False
  obtain ⟨ν, h3, h4⟩ := Dependency.marginals_spec false q lengths h
  have e : forbidArc q (fun _ _ _ _ => False) = ⟨q.rank, q.d0, q.d1, q.d2, q.d3, fun b i j l => (q.get b i j l : EReal)⟩ := by
    rw [forbidArc]; simp
  rw [e] at h1
  refine ⟨μ, ν, h1, h3, fun b hb i hi j hj => ?_⟩
  rw [h2 b hb ⟨fun _ => not_false, fun _ _ => ⟨not_false, not_false⟩⟩ i hi j hj, h4 b hb i j]
  congr 1
  have : Nonempty (ProjTrees false (len q lengths b)) := Dependency.trees_nonempty h b hb
  have hav : ∀ t : ProjTrees false (len q lengths b), DepAvoids (fun _ _ _ => False) t := fun t i j _ hf => hf
  have e1 : Gibbs.probOf (depS false q lengths b) (DepAvoids fun _ _ _ => False) = 1 := by
    rw [Gibbs.probOf, ← Gibbs.sum_prob (depS false q lengths b)]
    exact sum_congr rfl fun t _ => if_pos (hav t)
  rw [Gibbs.condProb, e1, div_one, Gibbs.probOf, Dependency.arcProb]
  refine sum_congr rfl fun t _ => ?_
  by_cases h0 : HasArc t.1 i j <;> simp only [h0, hav t, and_self, and_false, if_true, if_false] <;> rfl

/-! The hypotheses are met: the sample, with rows of three and two words. -/

/-- If the arc from the root to the first word is forbidden, its marginal is NaN. -/
example : ∃ μ, DepRootBackward.marginals Slope.plain (forbidArc Dependency.sample fun _ i j _ => i = 0 ∧ j = 0) (some [3, 2]) = .ok μ ∧ μ [0, 0, 0] = IEEE.nan ∧ μ [1, 0, 0] = IEEE.nan := by
  obtain ⟨μ, h1, h2⟩ := neighbour_nan Dependency.sample _ (Dependency.sample_valid false) fun _ i j _ => i = 0 ∧ j = 0
  exact ⟨μ, h1, (h2 0 (by decide)).1 ⟨rfl, rfl⟩, (h2 1 (by decide)).1 ⟨rfl, rfl⟩⟩

/-- If only the arc from the root to the second word is forbidden, all marginals are conditional probabilities; its own is 0. -/
example : ∃ μ, DepRootBackward.marginals Slope.plain (forbidArc Dependency.sample fun _ i j _ => i = 1 ∧ j = 1) (some [3, 2]) = .ok μ ∧ μ [0, 1, 1] = IEEE.ofReal 0 ∧
    ∃ v : ℝ, μ [0, 1, 2] = IEEE.ofReal v := by
  obtain ⟨μ, h1, h2⟩ := neighbours_allowed Dependency.sample _ (Dependency.sample_valid false) fun _ i j _ => i = 1 ∧ j = 1
  have hN : NeighboursAllowed (fun i j _ => i = 1 ∧ j = 1) 3 := ⟨fun _ => by omega, fun k _ => ⟨by omega, by omega⟩⟩
  refine ⟨μ, h1, ?_, _, h2 0 (by decide) hN 1 (by decide) 2 (by decide)⟩
  rw [h2 0 (by decide) hN 1 (by decide) 1 (by decide)]
  congr 1
  rw [Gibbs.condProb, Gibbs.probOf, sum_eq_zero, zero_div]
  rintro t -
  exact if_neg fun hc => hc.1 1 1 hc.2 ⟨rfl, rfl⟩

/-- The blocked arcs may be allowed ones, and there may be trees: if no arc leads from the root to the first two words, but the
third word may be the root of the others, the arc between the first two words is blocked, since the first two words alone have no tree. -/
example : Blocked (Cut (fun i j _ => (i = 0 ∧ j = 0) ∨ (i = 1 ∧ j = 1)) 3) 3 0 1 ∧ ∃ t : ProjTrees false 3, DepAvoids (fun i j _ => (i = 0 ∧ j = 0) ∨ (i = 1 ∧ j = 1)) t := by
  constructor
  · rw [Blocked, if_neg (by decide), if_pos (by decide)]
    refine Or.inl ⟨2, le_rfl, by decide, ?_⟩
    rintro ⟨t, ht⟩
    obtain ⟨k, hk, -⟩ := t.2.2.2 rfl
    refine ht k ?_
    rw [hk]
    have := k.2
    refine ⟨by omega, by omega, by simp, ?_⟩
    rw [Nat.add_sub_cancel, Fin.val_zero, arcCell, if_pos rfl]
    have : (k : ℕ) = 0 ∨ (k : ℕ) = 1 := by omega
    rcases this with e | e <;> rw [e] <;> simp
  · rw [← avoids_iff]
    refine ⟨⟨![3, 3, 0], ?_, ?_, fun _ => ⟨2, rfl, fun k hk => ?_⟩⟩, fun k => ?_⟩
    · intro k
      fin_cases k
      · exact ⟨2, rfl⟩
      · exact ⟨2, rfl⟩
      · exact ⟨1, rfl⟩
    · intro k y hy
      fin_cases k
      · have : y = 2 := by simp [Between] at hy; omega
        subst this; exact ⟨1, rfl⟩
      · simp [Between] at hy; omega
      · have : y = 1 ∨ y = 2 := by simp [Between] at hy; omega
        rcases this with rfl | rfl <;> exact ⟨2, rfl⟩
    · fin_cases k <;> first | rfl | (exfalso; revert hk; decide)
    · rw [Cut]
      fin_cases k <;> simp [arcCell]

end Props.DepRootInfinity
