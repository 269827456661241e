import Verif.Proofs.DepBackwardDual
import Verif.Props.Conditional

/-! C117: `DependencyCRF.marginals` with potentials `-inf` (unlabelled arcs, any number of roots).

Forbidden arcs have potential `-inf` (`Props.Conditional.forbidArc`).  The backward pass of torch gives the conditional probabilities except at exactly described
entries, which are NaN.

Nodes are numbered as in `Spec.Heads`: 0 is the root, `1 … n` are the words. -/

open Finset Spec DepBackwardProofs
open TreeBackwardProofs (fl LogOf fl_coe fl_inj)
open Props.Conditional (forbidArc DepAvoids depAvoids_iff depS)
open Props.Dependency (Valid len row)
open DepTree (Arcs)

noncomputable section
namespace Props.DepInfinity

/-! ### Specification -/

/-- The arc from node `h` to word `m` belongs to a sentence of `n` words and is forbidden by the table `F`. -/
def Cut (F : ℕ → ℕ → ℕ → Prop) (n h m : ℕ) : Prop := 1 ≤ m ∧ m ≤ n ∧ h ≤ n ∧ F (arcCell h (m - 1)).1 (arcCell h (m - 1)).2 0

/-- Some projective tree over the nodes `i … j` with root `i` has no forbidden arc. -/
def RightHalf (C : ℕ → ℕ → Prop) (i j : ℕ) : Prop := ∃ t : ProjTrees true (j - i), ∀ k : Fin (j - i), ¬ C (i + t.1 k) (i + (k + 1))

/-- Some projective tree over the nodes `i … j` with root `j` has no forbidden arc. -/
def LeftHalf (C : ℕ → ℕ → Prop) (i j : ℕ) : Prop := ∃ t : ProjTrees true (j - i), ∀ k : Fin (j - i), ¬ C (j - t.1 k) (j - (k + 1))

/-- The nodes `i … j` can be divided between the roots `i` and `j`. -/
def Split (C : ℕ → ℕ → Prop) (i j : ℕ) : Prop := ∃ m, i ≤ m ∧ m < j ∧ RightHalf C i m ∧ LeftHalf C (m + 1) j

/-- The left half over all nodes of the table, which no formula reads, aside. -/
def NoLeft (C : ℕ → ℕ → Prop) (N i j : ℕ) : Prop := ¬ LeftHalf C i j ∧ ¬ (i = 0 ∧ j = N)

/-- The arc from `h` to `m`, `h < m`, lies in a range of nodes of the table (sentence or padding, `N` words) for which there is no half tree or no division. -/
def BlockedR (C : ℕ → ℕ → Prop) (N h m : ℕ) : Prop :=
  ∃ i j, i ≤ h ∧ m ≤ j ∧ j ≤ N ∧ (¬ RightHalf C i j ∨ m < j ∧ (¬ Split C i j ∨ NoLeft C N i j))

/-- The same for the arc from `h` to `m`, `m < h`. -/
def BlockedL (C : ℕ → ℕ → Prop) (N h m : ℕ) : Prop :=
  ∃ i j, i ≤ m ∧ h ≤ j ∧ j ≤ N ∧ (NoLeft C N i j ∨ i < m ∧ (¬ Split C i j ∨ ¬ RightHalf C i j))

/-- The marginal of entry `(i, j)` of the user's table is NaN: entry `(j, j)` stands for the arc from the root to word `j + 1`, entry `(i, j)` for the arc from
word `i + 1` to word `j + 1`. -/
def Blocked (C : ℕ → ℕ → Prop) (N i j : ℕ) : Prop :=
  if i = j then BlockedR C N 0 (j + 1) else if i < j then BlockedR C N (i + 1) (j + 1) else BlockedL C N (i + 1) (j + 1)

/-! ### Weights -/

variable {q : Arcs ℝ} {lengths : Option (List ℕ)} {F : ℕ → ℕ → ℕ → ℕ → Prop}

open Classical in
/-- The weights of the arcs between the nodes of row `b`, which has `n` words. -/
def weight (q : Arcs ℝ) (F : ℕ → ℕ → ℕ → ℕ → Prop) (b n h m : ℕ) : ℝ :=
  if n < h ∨ n < m then Real.exp Semirings.negInf
  else if m = 0 ∨ h = m then Real.exp DepTree.negBig
  else if F b (arcCell h (m - 1)).1 (arcCell h (m - 1)).2 0 then 0
  else Real.exp (q.get b (arcCell h (m - 1)).1 (arcCell h (m - 1)).2 0)

theorem weight_nonneg (b n h m : ℕ) : 0 ≤ weight q F b n h m := by
  rw [weight]; split_ifs
  all_goals first | exact le_rfl | exact (Real.exp_pos _).le

theorem weight_zero {b n h m : ℕ} (hne : h ≠ m) : weight q F b n h m = 0 ↔ Cut (F b) n h m := by
  rw [weight, Cut]
  split_ifs with h1 h2 h3
  · simp only [Real.exp_ne_zero, false_iff]; omega
  · simp only [Real.exp_ne_zero, false_iff]; omega
  · simp only [true_iff]; exact ⟨by omega, by omega, by omega, h3⟩
  · simp only [Real.exp_ne_zero, false_iff]; tauto

theorem weight_log (hr : q.rank = 3) {lens : List ℕ} {b n : ℕ} (hn : lens.getD b 0 = n) {h m : ℕ} (hne : h ≠ m) :
    LogOf (DepTree.arcScores DepBackward.sr (DepTreeProofs.conv (DepTree.negBig : EReal) (forbidArc q F)) lens b h m) (weight q F b n h m) := by
  refine ⟨weight_nonneg b n h m, ?_⟩
  have hl : ¬ (DepTreeProofs.conv (DepTree.negBig : EReal) (forbidArc q F)).labeled := by
    change ¬ q.rank = 4
    omega
  rw [DepTree.arcScores, if_neg hl, DepTree.masked, hn, weight]
  split_ifs with h1 h2 h3
  · exact EReal.exp_coe _
  · change EReal.exp (DepTree.convertCell _ _ b h m 0) = _
    rw [DepTree.convertCell, if_pos (by omega), EReal.exp_coe]
  · have e : DepTree.convertCell (DepTree.negBig : EReal) (forbidArc q F).get b h m 0 = ⊥ := by
      rw [DepTree.convertCell, if_neg (by omega)]
      rw [arcCell] at h3
      split_ifs with h0
      · rw [if_pos h0] at h3; simp only [forbidArc]; exact if_pos h3
      · rw [if_neg h0] at h3; simp only [forbidArc]; exact if_pos h3
    change EReal.exp (DepTree.convertCell _ _ b h m 0) = _
    rw [e]; simp
  · have e : DepTree.convertCell (DepTree.negBig : EReal) (forbidArc q F).get b h m 0 = ((q.get b (arcCell h (m - 1)).1 (arcCell h (m - 1)).2 0 : ℝ) : EReal) := by
      rw [DepTree.convertCell, if_neg (by omega)]
      rw [arcCell] at h3 ⊢
      split_ifs with h0
      · rw [if_pos h0] at h3; simp only [forbidArc]; exact if_neg h3
      · rw [if_neg h0] at h3; simp only [forbidArc]; exact if_neg h3
    change EReal.exp (DepTree.convertCell _ _ b h m 0) = _
    rw [e, EReal.exp_coe]

/-! ### Half trees -/

theorem total_trees (W : ℕ → ℕ → ℝ) (n : ℕ) : Eisner.total 1 W n = ∑ t : ProjTrees true n, ∏ k : Fin n, W (t.1 k) (k + 1) := by
  have h := Eisner.CR_eq_trees 1 W n
  rw [Eisner.CR] at h
  simp only [Nat.zero_add, one_pow, mul_one] at h
  exact h

theorem total_ne_zero {W : ℕ → ℕ → ℝ} (hW : ∀ x y, 0 ≤ W x y) (n : ℕ) : Eisner.total 1 W n ≠ 0 ↔ ∃ t : ProjTrees true n, ∀ k : Fin n, W (t.1 k) (k + 1) ≠ 0 := by
  rw [total_trees, ne_eq, sum_eq_zero_iff_of_nonneg fun t _ => prod_nonneg fun _ _ => hW _ _]
  simp only [mem_univ, true_imp_iff, not_forall, prod_eq_zero_iff, true_and, not_exists]

/-- No word of a tree is its own head. -/
theorem not_own {n : ℕ} (t : ProjTrees true n) (k : Fin n) : (t.1 k : ℕ) ≠ k + 1 := by
  intro h
  have h1 : headOf t.1 (k + 1) = k + 1 := (Eisner.headOf_succ t.1 k).trans h
  obtain ⟨s, hs⟩ := t.2.1 k
  rw [Function.iterate_fixed h1] at hs
  omega

theorem right_iff (b n i j : ℕ) : wR (weight q F b n) i j ≠ 0 ↔ RightHalf (Cut (F b) n) i j := by
  rw [wR, Eisner.CR, total_ne_zero fun _ _ => weight_nonneg _ _ _ _]
  refine exists_congr fun t => forall_congr' fun k => ?_
  have := not_own t k
  rw [ne_eq, weight_zero (by omega)]

theorem left_iff (b n i j : ℕ) : wL (weight q F b n) i j ≠ 0 ↔ LeftHalf (Cut (F b) n) i j := by
  rw [wL, Eisner.CL, total_ne_zero fun _ _ => weight_nonneg _ _ _ _]
  refine exists_congr fun t => forall_congr' fun k => ?_
  have h1 := not_own t k
  have h2 := (t.1 k).2
  have h3 := k.2
  rw [ne_eq, weight_zero (by omega)]

theorem split_iff (b n i j : ℕ) : wX (weight q F b n) i j ≠ 0 ↔ Split (Cut (F b) n) i j := by
  rw [wX, ne_eq, sum_eq_zero_iff_of_nonneg fun m _ => mul_nonneg (wR_nonneg (weight_nonneg b n) _ _) (wL_nonneg (weight_nonneg b n) _ _)]
  simp only [mem_Ico, mul_eq_zero, not_forall, not_or, exists_prop, Split]
  refine exists_congr fun m => ?_
  rw [← ne_eq, ← ne_eq, right_iff, left_iff, and_assoc]

/-! ### The share of the trees with an arc -/

theorem tree_weight (b n : ℕ) (t : ProjTrees true n) [Decidable (DepAvoids (F b) t)] :
    ∏ k : Fin n, weight q F b n (t.1 k) (k + 1) = if DepAvoids (F b) t then Real.exp (depScore (row q b) t.1) else 0 := by
  have hk : ∀ k : Fin n, ¬ (n < (t.1 k : ℕ) ∨ n < (k : ℕ) + 1) ∧ ¬ ((k : ℕ) + 1 = 0 ∨ (t.1 k : ℕ) = k + 1) := fun k => by
    have h1 := not_own t k
    have h2 := (t.1 k).2
    have h3 := k.2
    omega
  split_ifs with h
  · rw [depAvoids_iff] at h
    rw [depScore, Real.exp_sum]
    refine prod_congr rfl fun k _ => ?_
    rw [weight, if_neg (hk k).1, if_neg (hk k).2, Nat.add_sub_cancel, if_neg (h k)]; rfl
  · rw [depAvoids_iff] at h
    push Not at h
    obtain ⟨k, hF⟩ := h
    refine prod_eq_zero (mem_univ k) ?_
    rw [weight, if_neg (hk k).1, if_neg (hk k).2, Nat.add_sub_cancel, if_pos hF]

theorem cut_weight (b n : ℕ) {h m i j : ℕ} (t : ProjTrees true n) (hm : m = j + 1) (hh : h = if i = j then 0 else i + 1) [Decidable (HasArc t.1 i j)] :
    ∏ k : Fin n, cutArc (weight q F b n) h m (t.1 k) (k + 1) = if HasArc t.1 i j then 0 else ∏ k : Fin n, weight q F b n (t.1 k) (k + 1) := by
  have hiff : ∀ k : Fin n, ((t.1 k : ℕ) = h ∧ (k : ℕ) + 1 = m) ↔ ((k : ℕ) = j ∧ if i = j then t.1 k = 0 else (t.1 k : ℕ) = i + 1) := by
    intro k
    subst hh hm
    split_ifs
    · rw [Fin.ext_iff, Fin.val_zero]; constructor <;> rintro ⟨h1, h2⟩ <;> constructor <;> omega
    · constructor <;> rintro ⟨h1, h2⟩ <;> constructor <;> omega
  split_ifs with hc
  · obtain ⟨k, hk⟩ := hc
    refine prod_eq_zero (mem_univ k) ?_
    rw [cutArc, if_pos ((hiff k).2 hk)]
  · refine prod_congr rfl fun k _ => ?_
    rw [cutArc, if_neg fun hk => hc ⟨k, (hiff k).1 hk⟩]

theorem share (b n : ℕ) {h m i j : ℕ} (hm : m = j + 1) (hh : h = if i = j then 0 else i + 1) :
    shR (weight q F b n) h m 0 n = Gibbs.condProb (fun t : ProjTrees true n => depScore (row q b) t.1) (DepAvoids (F b)) (fun t => HasArc t.1 i j) := by
  classical
  have : Nonempty (ProjTrees true n) := DepTreeProofs.nonempty_trees true n (by simp)
  have hZ := Gibbs.Z_pos (fun t : ProjTrees true n => depScore (row q b) t.1)
  have e : ∀ a : ℕ → ℕ → ℝ, wR a 0 n = ∑ t : ProjTrees true n, ∏ k : Fin n, a (t.1 k) (k + 1) := fun a => by
    rw [wR, Eisner.CR, Nat.sub_zero, total_trees]; simp only [Nat.zero_add]
  rw [shR, sh, e, e, ← sum_sub_distrib, Gibbs.condProb, Gibbs.probOf, Gibbs.probOf, ← mul_div_mul_right _ _ (inv_ne_zero hZ.ne'), sum_mul, sum_mul]
  congr 1
  · refine sum_congr rfl fun t _ => ?_
    rw [cut_weight b n t hm hh, tree_weight, Gibbs.prob]
    by_cases h1 : DepAvoids (F b) t <;> by_cases h2 : HasArc t.1 i j <;> simp [h1, h2, div_eq_mul_inv]
  · refine sum_congr rfl fun t _ => ?_
    rw [tree_weight, Gibbs.prob]
    by_cases h1 : DepAvoids (F b) t <;> simp [h1, div_eq_mul_inv]

/-! ### The entries -/

theorem entries (σ : Slope) (h : Valid true q lengths) (F : ℕ → ℕ → ℕ → ℕ → Prop) :
    ∃ μ, DepBackward.marginals σ (forbidArc q F) lengths = .ok μ ∧ ∀ b < q.d0, ∀ τ : Factors,
      Agree σ (q.d1 + 1) b (DepTree.arcScores DepBackward.sr (DepTreeProofs.conv (DepTree.negBig : EReal) (forbidArc q F)) (DepTree.lensOr q.d0 (q.d1 + 1) lengths)) τ →
      ∀ i < q.d1, ∀ j < q.d1, μ [b, i, j] =
        fl (if i = j then gIR (q.d1 + 1) (len q lengths b) τ 0 (j + 1)
          else if i < j then gIR (q.d1 + 1) (len q lengths b) τ (i + 1) (j + 1) else gIL (q.d1 + 1) (len q lengths b) τ (j + 1) (i + 1)) := by
  have h' : Valid true (forbidArc q F) lengths := ⟨h.rank, h.square, h.batch, h.words, h.lens⟩
  have e1 : DepTree.convert (DepTree.negBig : EReal) (forbidArc q F) = .ok (DepTreeProofs.conv (DepTree.negBig : EReal) (forbidArc q F)) := Dependency.conv_eq _ h'
  have e2 := DepTreeProofs.logpartition_ok true DepBackward.sr (DepTreeProofs.conv (DepTree.negBig : EReal) (forbidArc q F)) q.d1 lengths rfl
    (by change q.d2 + 1 = q.d1 + 1; rw [h.square]) h.batch (by simp) fun l hl => ⟨(h.lens l hl).1, fun x hx => ((h.lens l hl).2 x hx).1⟩
  rw [DepBackward.marginals, e1]
  simp only [Bind.bind, Except.bind]
  rw [e2]
  refine ⟨_, rfl, fun b hb τ hτ i hi j hj => ?_⟩
  have hL : (DepTree.lensOr q.d0 (q.d1 + 1) lengths).getD b 0 = len q lengths b := DepTreeProofs.lensOr_getD hb
  change DepTree.unconvertCell (fun b h m _ => (DepBackward.backLoop σ q.d0 (q.d1 + 1) _ (DepTree.lensOr q.d0 (q.d1 + 1) lengths)).arc b h m) b i j 0 = _
  rw [DepTree.unconvertCell]
  by_cases hij : i = j
  · rw [if_pos hij, if_pos hij]
    exact (arc_grad hτ hb hL (by omega) (by omega)).1
  · rw [if_neg hij, if_neg hij]
    by_cases hlt : i < j
    · rw [if_pos hlt]
      exact (arc_grad hτ hb hL (by omega) (by omega)).1
    · rw [if_neg hlt]
      exact (arc_grad hτ hb hL (by omega) (by omega)).2

theorem len_lt (h : Valid true q lengths) {b : ℕ} (hb : b < q.d0) : len q lengths b < q.d1 + 1 := Nat.lt_succ_iff.2 (DepTreeProofs.len_le h.toValid hb).1

/-- The weights of row `b` are those of the model. -/
theorem arcs_log (h : Valid true q lengths) {b : ℕ} (hb : b < q.d0) (x y : ℕ) (hne : x ≠ y) :
    LogOf (DepTree.arcScores DepBackward.sr (DepTreeProofs.conv (DepTree.negBig : EReal) (forbidArc q F)) (DepTree.lensOr q.d0 (q.d1 + 1) lengths) b x y)
      (weight q F b (len q lengths b) x y) := weight_log h.rank (DepTreeProofs.lensOr_getD hb) hne

/-- The guarded value of entry `(i, j)`. -/
theorem guarded_value (h : Valid true q lengths) {b : ℕ} (hb : b < q.d0) {i j : ℕ} (hi : i < q.d1) (hj : j < q.d1) :
    (if i = j then gIR (q.d1 + 1) (len q lengths b) (guardedτ (weight q F b (len q lengths b)) (q.d1 + 1)) 0 (j + 1)
      else if i < j then gIR (q.d1 + 1) (len q lengths b) (guardedτ (weight q F b (len q lengths b)) (q.d1 + 1)) (i + 1) (j + 1)
      else gIL (q.d1 + 1) (len q lengths b) (guardedτ (weight q F b (len q lengths b)) (q.d1 + 1)) (j + 1) (i + 1)) =
    ((Gibbs.condProb (depS true q lengths b) (DepAvoids (F b)) (fun t => HasArc t.1 i j) : ℝ) : WithTop ℝ) := by
  have ha := weight_nonneg (q := q) (F := F) b (len q lengths b)
  have hs := share (q := q) (F := F) b (len q lengths b) (i := i) (j := j) rfl rfl
  have hL := len_lt h hb
  by_cases hij : i = j
  · rw [if_pos hij, right_value ha (by omega) (by omega) hL]
    rw [if_pos hij] at hs
    rw [hs]; rfl
  · rw [if_neg hij] at hs
    rw [if_neg hij]
    by_cases hlt : i < j
    · rw [if_pos hlt, right_value ha (by omega) (by omega) hL, hs]; rfl
    · rw [if_neg hlt, left_value ha (by omega) (by omega) hL, hs]; rfl

/-- **C117.** If the gradient of `logsumexp` is guarded against a result of `-inf`, every marginal is the conditional probability of the arc given that no
forbidden arc is used; arcs that reach into the padding get 0. -/
theorem guarded_spec (q : Arcs ℝ) (lengths : Option (List ℕ)) (h : Valid true q lengths) (F : ℕ → ℕ → ℕ → ℕ → Prop) :
    ∃ μ, DepBackward.marginals Slope.guarded (forbidArc q F) lengths = .ok μ ∧ ∀ b < q.d0, (∃ t : ProjTrees true (len q lengths b), DepAvoids (F b) t) →
      ∀ i < q.d1, ∀ j < q.d1, μ [b, i, j] = IEEE.ofReal (Gibbs.condProb (depS true q lengths b) (DepAvoids (F b)) (fun t => HasArc t.1 i j)) := by
  obtain ⟨μ, h1, h2⟩ := entries Slope.guarded h F
  refine ⟨μ, h1, fun b hb _ i hi j hj => ?_⟩
  rw [h2 b hb _ (agree_guarded (weight_nonneg b (len q lengths b)) fun x y _ _ hne => arcs_log h hb x y hne) i hi j hj, guarded_value h hb hi hj]
  rfl

theorem plain_or_guarded {b n N : ℕ} {i j : ℕ} (v : Factors → WithTop ℝ)
    (hv : v = (fun τ => gIR N n τ i j) ∨ v = fun τ => gIL N n τ i j) (hne : v (plainτ (weight q F b n) N) ≠ ⊤) :
    v (plainτ (weight q F b n) N) = v (guardedτ (weight q F b n) N) := by
  rcases hv with rfl | rfl
  · exact gIR_same plain_x plain_r plain_l hne
  · exact gIL_same plain_x plain_r plain_l hne

theorem blockedR_iff (b n : ℕ) {N i j : ℕ} (hij : i < j) : gIR (N + 1) n (plainτ (weight q F b n) (N + 1)) i j = ⊤ ↔ BlockedR (Cut (F b) n) N i j := by
  rw [gIR_nan bad_plain hij, BlockedR]
  refine exists_congr fun p => exists_congr fun r => ?_
  rw [NoLeft, ← right_iff (q := q), ← split_iff (q := q), ← left_iff (q := q), Nat.lt_succ_iff, Nat.add_sub_cancel]
  simp only [ne_eq, not_not]

theorem blockedL_iff (b n : ℕ) {N i j : ℕ} (hij : i < j) (hj : j ≤ N) :
    gIL (N + 1) n (plainτ (weight q F b n) (N + 1)) i j = ⊤ ↔ BlockedL (Cut (F b) n) N j i := by
  rw [gIL_nan bad_plain hij (by omega), BlockedL]
  refine exists_congr fun p => exists_congr fun r => ?_
  rw [NoLeft, ← right_iff (q := q), ← split_iff (q := q), ← left_iff (q := q), Nat.lt_succ_iff, Nat.add_sub_cancel]
  simp only [ne_eq, not_not]

/-- **C117.** With torch's `logsumexp` gradient, the marginal of an arc is NaN exactly if the arc is blocked: it lies in a range of nodes for which there is no
half tree, or no division, without forbidden arcs.  Everywhere else it is the conditional probability of the arc given that no forbidden arc is used. -/
theorem plain_spec (q : Arcs ℝ) (lengths : Option (List ℕ)) (h : Valid true q lengths) (F : ℕ → ℕ → ℕ → ℕ → Prop) :
    ∃ μ, DepBackward.marginals Slope.plain (forbidArc q F) lengths = .ok μ ∧ ∀ b < q.d0, ∀ i < q.d1, ∀ j < q.d1,
      (μ [b, i, j] = IEEE.nan ↔ Blocked (Cut (F b) (len q lengths b)) q.d1 i j) ∧
      (μ [b, i, j] ≠ IEEE.nan → (∃ t : ProjTrees true (len q lengths b), DepAvoids (F b) t) →
        μ [b, i, j] = IEEE.ofReal (Gibbs.condProb (depS true q lengths b) (DepAvoids (F b)) (fun t => HasArc t.1 i j))) := by
  obtain ⟨μ, h1, h2⟩ := entries Slope.plain h F
  refine ⟨μ, h1, fun b hb i hi j hj => ?_⟩
  have e := h2 b hb _ (agree_plain (weight_nonneg b (len q lengths b)) fun x y _ _ hne => arcs_log h hb x y hne) i hi j hj
  have g := guarded_value (F := F) h hb hi hj
  have hnan : ∀ v, fl v = IEEE.nan ↔ v = ⊤ := fun v => ⟨fun hv => fl_inj (y := ⊤) hv, fun hv => by rw [hv]; rfl⟩
  rw [e, hnan, Blocked]
  by_cases hij : i = j
  · simp only [if_pos hij] at g ⊢
    refine ⟨blockedR_iff b _ (by omega), fun hne _ => ?_⟩
    rw [plain_or_guarded (fun τ => gIR (q.d1 + 1) (len q lengths b) τ 0 (j + 1)) (Or.inl rfl) fun hc => hne ((hnan _).2 hc), g]; rfl
  · simp only [if_neg hij] at g ⊢
    by_cases hlt : i < j
    · simp only [if_pos hlt] at g ⊢
      refine ⟨blockedR_iff b _ (by omega), fun hne _ => ?_⟩
      rw [plain_or_guarded (fun τ => gIR (q.d1 + 1) (len q lengths b) τ (i + 1) (j + 1)) (Or.inl rfl) fun hc => hne ((hnan _).2 hc), g]; rfl
    · simp only [if_neg hlt] at g ⊢
      refine ⟨blockedL_iff b _ (by omega) (by omega), fun hne _ => ?_⟩
      rw [plain_or_guarded (fun τ => gIL (q.d1 + 1) (len q lengths b) τ (j + 1) (i + 1)) (Or.inr rfl) fun hc => hne ((hnan _).2 hc), g]; rfl

/-! ### Neighbours -/

/-- The tree in which every word's head is the node before it. -/
def chain (n : ℕ) : ProjTrees true n :=
  ⟨fun k => ⟨k, by omega⟩, by
    have step : ∀ k ≤ n, headOf (fun k : Fin n => (⟨k, by omega⟩ : Fin (n + 1))) k = k - 1 := by
      intro k hk
      rw [headOf]
      split_ifs with h
      · rfl
      · omega
    refine ⟨fun k => ⟨k + 1, ?_⟩, fun k y hy => by unfold Between at hy; simp only at hy; omega, by simp⟩
    have key : ∀ s m, m ≤ n → m ≤ s → (headOf (fun k : Fin n => (⟨k, by omega⟩ : Fin (n + 1))))^[s] m = 0 := by
      intro s
      induction s with
      | zero => intro m _ h; simpa using h
      | succ s ih => intro m h1 h2; rw [Function.iterate_succ_apply, step m h1]; exact ih _ (by omega) (by omega)
    exact key _ _ (by omega) le_rfl⟩

theorem chain_head (n : ℕ) (k : Fin n) : ((chain n).1 k : ℕ) = k := rfl

/-- The arcs between neighbouring nodes of a sentence of `n` words are allowed: from the root to the first word, and between neighbouring words in both
directions. -/
def NeighboursAllowed (F : ℕ → ℕ → ℕ → Prop) (n : ℕ) : Prop := (1 ≤ n → ¬ F 0 0 0) ∧ ∀ k, k + 2 ≤ n → ¬ F k (k + 1) 0 ∧ ¬ F (k + 1) k 0

theorem rightHalf_of {F : ℕ → ℕ → ℕ → Prop} {n : ℕ} (h : NeighboursAllowed F n) (i j : ℕ) : RightHalf (Cut F n) i j := by
  refine ⟨chain _, fun k hc => ?_⟩
  rw [chain_head] at hc
  obtain ⟨h1, h2, h3, h4⟩ := hc
  by_cases h0 : i + k = 0
  · have e : i + ((k : ℕ) + 1) - 1 = 0 := by omega
    rw [h0, e, arcCell, if_pos rfl] at h4
    exact h.1 (by omega) h4
  · obtain ⟨x, hx⟩ : ∃ x, i + (k : ℕ) = x + 1 := ⟨i + k - 1, by omega⟩
    have e : i + ((k : ℕ) + 1) - 1 = x + 1 := by omega
    rw [hx, e, arcCell, if_neg (by omega)] at h4
    exact (h.2 x (by omega)).1 h4

theorem leftHalf_of {F : ℕ → ℕ → ℕ → Prop} {n : ℕ} (h : NeighboursAllowed F n) (i j : ℕ) : LeftHalf (Cut F n) i j := by
  refine ⟨chain _, fun k hc => ?_⟩
  rw [chain_head] at hc
  obtain ⟨h1, h2, h3, h4⟩ := hc
  obtain ⟨x, hx⟩ : ∃ x, j - ((k : ℕ) + 1) = x + 1 := ⟨j - (k + 1) - 1, by omega⟩
  have e : j - (k : ℕ) = x + 2 := by omega
  rw [hx, e, arcCell, if_neg (by omega)] at h4
  exact (h.2 x (by omega)).2 h4

theorem not_blocked {F : ℕ → ℕ → ℕ → Prop} {n N i j : ℕ} (h : NeighboursAllowed F n) : ¬ Blocked (Cut F n) N i j := by
  have hs : ∀ i j, i < j → Split (Cut F n) i j := fun i j hij => ⟨i, le_rfl, hij, rightHalf_of h i i, leftHalf_of h (i + 1) j⟩
  have hR : ∀ x y, x < y → ¬ BlockedR (Cut F n) N x y := by
    rintro x y hxy ⟨p, r, h1, h2, _, h3 | ⟨_, h4 | h4⟩⟩
    · exact h3 (rightHalf_of h p r)
    · exact h4 (hs p r (by omega))
    · exact h4.1 (leftHalf_of h p r)
  rw [Blocked]
  split_ifs with c1 c2
  · exact hR _ _ (by omega)
  · exact hR _ _ (by omega)
  · rintro ⟨p, r, h1, h2, _, h3 | ⟨_, h4 | h4⟩⟩
    · exact h3.1 (leftHalf_of h p r)
    · exact h4 (hs p r (by omega))
    · exact h4 (rightHalf_of h p r)

/-- **C117, neighbours allowed.** If no arc between neighbouring nodes is forbidden, there is no NaN: all marginals are conditional probabilities. -/
theorem neighbours_allowed (q : Arcs ℝ) (lengths : Option (List ℕ)) (h : Valid true q lengths) (F : ℕ → ℕ → ℕ → ℕ → Prop) :
    ∃ μ, DepBackward.marginals Slope.plain (forbidArc q F) lengths = .ok μ ∧ ∀ b < q.d0, NeighboursAllowed (F b) (len q lengths b) →
      ∀ i < q.d1, ∀ j < q.d1, μ [b, i, j] = IEEE.ofReal (Gibbs.condProb (depS true q lengths b) (DepAvoids (F b)) (fun t => HasArc t.1 i j)) := by
  obtain ⟨μ, h1, h2⟩ := plain_spec q lengths h F
  refine ⟨μ, h1, fun b hb hN i hi j hj => (h2 b hb i hi j hj).2 ?_ ?_⟩
  · rw [ne_eq, (h2 b hb i hi j hj).1]; exact not_blocked hN
  · obtain ⟨t, ht⟩ := rightHalf_of hN 0 (len q lengths b)
    refine ⟨t, (depAvoids_iff _ _).2 fun k hF => ht k ?_⟩
    have h1 := k.2
    have h2 := (t.1 k).2
    simp only [Nat.sub_zero] at h1 h2
    refine ⟨by omega, by omega, by omega, ?_⟩
    have e : 0 + ((k : ℕ) + 1) - 1 = k := by omega
    rw [Nat.zero_add, e]
    exact hF

theorem one_arc (n : ℕ) (hn : n = 1) (t : ProjTrees true n) (k : Fin n) : (t.1 k : ℕ) = 0 ∧ (k : ℕ) = 0 := by
  subst hn
  have h1 := not_own t k
  have h2 := (t.1 k).2
  have h3 := k.2
  omega

/-- **C117, a forbidden neighbour.** The marginal of a forbidden arc between neighbouring nodes of the sentence is NaN, where the conditional probability is 0. -/
theorem neighbour_nan (q : Arcs ℝ) (lengths : Option (List ℕ)) (h : Valid true q lengths) (F : ℕ → ℕ → ℕ → ℕ → Prop) :
    ∃ μ, DepBackward.marginals Slope.plain (forbidArc q F) lengths = .ok μ ∧ ∀ b < q.d0,
      (1 ≤ len q lengths b → F b 0 0 0 → μ [b, 0, 0] = IEEE.nan) ∧
      (∀ k, k + 2 ≤ len q lengths b → (F b k (k + 1) 0 → μ [b, k, k + 1] = IEEE.nan) ∧ (F b (k + 1) k 0 → μ [b, k + 1, k] = IEEE.nan)) := by
  obtain ⟨μ, h1, h2⟩ := plain_spec q lengths h F
  refine ⟨μ, h1, fun b hb => ?_⟩
  have hL := len_lt h hb
  have hR : ∀ i, Cut (F b) (len q lengths b) i (i + 1) → ¬ RightHalf (Cut (F b) (len q lengths b)) i (i + 1) := by
    rintro i hc ⟨t, ht⟩
    have k : Fin (i + 1 - i) := ⟨0, by omega⟩
    have h0 := one_arc _ (by omega) t k
    have := ht k
    rw [h0.1, h0.2] at this
    exact this hc
  have hLf : ∀ i, Cut (F b) (len q lengths b) (i + 1) i → ¬ LeftHalf (Cut (F b) (len q lengths b)) i (i + 1) := by
    rintro i hc ⟨t, ht⟩
    have k : Fin (i + 1 - i) := ⟨0, by omega⟩
    have h0 := one_arc _ (by omega) t k
    have := ht k
    rw [h0.1, h0.2, Nat.sub_zero, Nat.add_sub_cancel] at this
    exact this hc
  refine ⟨fun h3 hF => ((h2 b hb 0 (by omega) 0 (by omega)).1).2 ?_, fun k hk => ⟨fun hF => ((h2 b hb k (by omega) (k + 1) (by omega)).1).2 ?_,
    fun hF => ((h2 b hb (k + 1) (by omega) k (by omega)).1).2 ?_⟩⟩
  · rw [Blocked, if_pos rfl]
    exact ⟨0, 1, le_rfl, le_rfl, by omega, Or.inl (hR 0 ⟨le_rfl, h3, by omega, hF⟩)⟩
  · rw [Blocked, if_neg (by omega), if_pos (by omega)]
    refine ⟨k + 1, k + 2, le_rfl, le_rfl, by omega, Or.inl (hR (k + 1) ⟨by omega, by omega, by omega, ?_⟩)⟩
    rw [arcCell, if_neg (by omega)]; exact hF
  · rw [Blocked, if_neg (by omega), if_neg (by omega)]
    refine ⟨k + 1, k + 2, le_rfl, le_rfl, by omega, Or.inl ⟨hLf (k + 1) ⟨by omega, by omega, by omega, ?_⟩, by omega⟩⟩
    rw [arcCell, if_neg (by omega)]; exact hF

/-- **C117, no tree left.** If every tree of a row uses a forbidden arc, all marginals of the row's sentence are NaN. -/
theorem no_tree_nan (q : Arcs ℝ) (lengths : Option (List ℕ)) (h : Valid true q lengths) (F : ℕ → ℕ → ℕ → ℕ → Prop) :
    ∃ μ, DepBackward.marginals Slope.plain (forbidArc q F) lengths = .ok μ ∧ ∀ b < q.d0, (¬ ∃ t : ProjTrees true (len q lengths b), DepAvoids (F b) t) →
      ∀ i < len q lengths b, ∀ j < len q lengths b, μ [b, i, j] = IEEE.nan := by
  obtain ⟨μ, h1, h2⟩ := plain_spec q lengths h F
  refine ⟨μ, h1, fun b hb hno i hi j hj => ?_⟩
  have hL := len_lt h hb
  have hR : ¬ RightHalf (Cut (F b) (len q lengths b)) 0 (len q lengths b) := by
    rintro ⟨t, ht⟩
    refine hno ⟨t, (depAvoids_iff _ _).2 fun k hF => ht k ?_⟩
    have h1 := k.2
    have h2 := (t.1 k).2
    simp only [Nat.sub_zero] at h1 h2
    refine ⟨by omega, by omega, by omega, ?_⟩
    have e : 0 + ((k : ℕ) + 1) - 1 = k := by omega
    rw [Nat.zero_add, e]
    exact hF
  rw [(h2 b hb i (by omega) j (by omega)).1, Blocked]
  split_ifs
  · exact ⟨0, _, by omega, by omega, by omega, Or.inl hR⟩
  · exact ⟨0, len q lengths b, by omega, by omega, by omega, Or.inl hR⟩
  · exact ⟨0, len q lengths b, by omega, by omega, by omega, Or.inr ⟨by omega, Or.inr hR⟩⟩

/-- **C117, finite potentials.** With finite potentials the backward pass computes `marginals` as modelled with exact derivatives (C46). -/
theorem finite (q : Arcs ℝ) (lengths : Option (List ℕ)) (h : Valid true q lengths) :
    ∃ μ ν, DepBackward.marginals Slope.plain ⟨q.rank, q.d0, q.d1, q.d2, q.d3, fun b i j l => (q.get b i j l : EReal)⟩ lengths = .ok μ ∧
      DepTree.marginals true q lengths = .ok ν ∧ ∀ b < q.d0, ∀ i < q.d1, ∀ j < q.d1, μ [b, i, j] = IEEE.ofReal (ν [b, i, j]) := by
  obtain ⟨μ, h1, h2⟩ := neighbours_allowed q lengths h fun _ _ _ _ => False
  obtain ⟨ν, h3, h4⟩ := Dependency.marginals_spec true q lengths h
  have e : forbidArc q (fun _ _ _ _ => False) = ⟨q.rank, q.d0, q.d1, q.d2, q.d3, fun b i j l => (q.get b i j l : EReal)⟩ := by
    rw [forbidArc]; simp
  rw [e] at h1
  refine ⟨μ, ν, h1, h3, fun b hb i hi j hj => ?_⟩
  rw [h2 b hb ⟨fun _ => not_false, fun _ _ => ⟨not_false, not_false⟩⟩ i hi j hj, h4 b hb i j]
  congr 1
  have : Nonempty (ProjTrees true (len q lengths b)) := Dependency.trees_nonempty h b hb
  have hav : ∀ t : ProjTrees true (len q lengths b), DepAvoids (fun _ _ _ => False) t := fun t i j _ hf => hf
  have e1 : Gibbs.probOf (depS true q lengths b) (DepAvoids fun _ _ _ => False) = 1 := by
    rw [Gibbs.probOf, ← Gibbs.sum_prob (depS true q lengths b)]
    exact sum_congr rfl fun t _ => if_pos (hav t)
  rw [Gibbs.condProb, e1, div_one, Gibbs.probOf, Dependency.arcProb]
  refine sum_congr rfl fun t _ => ?_
  by_cases h0 : HasArc t.1 i j <;> simp only [h0, hav t, and_self, and_false, if_true, if_false] <;> rfl

/-! The hypotheses are met: the sample, with rows of three and two words. -/

/-- If the arc from the first to the second word is forbidden, its marginal is NaN. -/
example : ∃ μ, DepBackward.marginals Slope.plain (forbidArc Dependency.sample fun _ i j _ => i = 0 ∧ j = 1) (some [3, 2]) = .ok μ ∧ μ [0, 0, 1] = IEEE.nan ∧ μ [1, 0, 1] = IEEE.nan := by
  obtain ⟨μ, h1, h2⟩ := neighbour_nan Dependency.sample _ (Dependency.sample_valid true) fun _ i j _ => i = 0 ∧ j = 1
  exact ⟨μ, h1, ((h2 0 (by decide)).2 0 (by decide)).1 ⟨rfl, rfl⟩, ((h2 1 (by decide)).2 0 (by decide)).1 ⟨rfl, rfl⟩⟩

/-- If only the arc from the first to the third word is forbidden, all marginals are conditional probabilities; its own is 0. -/
example : ∃ μ, DepBackward.marginals Slope.plain (forbidArc Dependency.sample fun _ i j _ => i = 0 ∧ j = 2) (some [3, 2]) = .ok μ ∧ μ [0, 0, 2] = IEEE.ofReal 0 ∧
    ∃ v : ℝ, μ [0, 1, 2] = IEEE.ofReal v := by
  obtain ⟨μ, h1, h2⟩ := neighbours_allowed Dependency.sample _ (Dependency.sample_valid true) fun _ i j _ => i = 0 ∧ j = 2
  have hN : NeighboursAllowed (fun i j _ => i = 0 ∧ j = 2) 3 := ⟨fun _ => by omega, fun k _ => ⟨by omega, by omega⟩⟩
  refine ⟨μ, h1, ?_, _, h2 0 (by decide) hN 1 (by decide) 2 (by decide)⟩
  rw [h2 0 (by decide) hN 0 (by decide) 2 (by decide)]
  congr 1
  rw [Gibbs.condProb, Gibbs.probOf, sum_eq_zero, zero_div]
  rintro t -
  exact if_neg fun hc => hc.1 0 2 hc.2 ⟨rfl, rfl⟩

/-- The blocked arcs may be allowed ones: if no arc leads from the root to the first or from the second to the first word of a sentence of two words, the
first word has no head, and the arc between the words is blocked in both directions. -/
example : Blocked (Cut (fun i j _ => (i = 0 ∧ j = 0) ∨ (i = 1 ∧ j = 0)) 2) 2 0 1 := by
  rw [Blocked, if_neg (by decide), if_pos (by decide)]
  refine ⟨0, 2, by decide, by decide, le_rfl, Or.inl ?_⟩
  rintro ⟨t, ht⟩
  have h0 := ht ⟨0, by decide⟩
  have h1 := not_own t ⟨0, by decide⟩
  have h2 := (t.1 ⟨0, by decide⟩).2
  generalize hx : ((t.1 ⟨0, by decide⟩ : Fin _) : ℕ) = x at h0 h1 h2
  simp only at h1
  refine h0 ⟨by decide, by decide, by omega, ?_⟩
  have : x = 0 ∨ x = 2 := by omega
  rcases this with rfl | rfl
  · exact Or.inl ⟨rfl, rfl⟩
  · exact Or.inr ⟨rfl, rfl⟩

end Props.DepInfinity
