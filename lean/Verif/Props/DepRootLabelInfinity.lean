import Verif.Props.DepRootInfinity

/-! C125: `DependencyCRF(…, multiroot=False).marginals` with labels and potentials `-inf`.  See Props/DepRootInfinity.lean for arcs without labels and
Props/DepLabelInfinity.lean for any number of roots. -/

open Finset Spec
open DepBackwardProofs (Factors cutArc sh)
open DepRootBackwardProofs (wT wT_trees shT guardedρ plainρ agree_guarded agree_plain atRoot_guarded atRoot_plain Agree AtRoot)
open TreeBackwardProofs (fl LogOf fl_coe fl_inj slope_real guarded_real bot_of_zero plain_nan tmul fl_mul tmul_eq_top tmul_coe)
open Props.Conditional (forbidArc LabAvoids labAvoids_iff labS)
open Props.LabelledDependency (Valid len row)
open Props.DepLabelInfinity (arcGrad headNode headNode_ne weight weight1 weight_nonneg weight1_nonneg weight_zero weight1_log weight_log Cut NeighboursAllowed sum_labels
  sum_labels_at has_arc_iff cut_cell)
open Props.DepRootInfinity (SingleTree Blocked many arcGrad_nan arcGrad_same arcGrad_value grad_entry unconvert_entry single_of not_blocked)
open DepTree (Arcs)

noncomputable section
namespace Props.DepRootLabelInfinity

/-! ### Specification -/

/-- The marginals of the labels of entry `(i, j)` of the user's table are NaN: the arc lies in a range of words that has no half tree or no division, or among first
words that have no tree (`DepRootInfinity.Blocked`), or all labels of the arc are forbidden. -/
def Spoilt (F : ℕ → ℕ → ℕ → Prop) (L n N i j : ℕ) : Prop := Blocked (Cut F L n) N i j ∨ (i < n ∧ j < n ∧ ∀ l < L, F i j l)

/-! ### The share of the trees with a labelled arc -/

variable {q : Arcs ℝ} {lengths : Option (List ℕ)} {F : ℕ → ℕ → ℕ → ℕ → Prop}

theorem share (b n : ℕ) (hn : 1 ≤ n) (hL : 1 ≤ q.d3) {i j l : ℕ} (hl : l < q.d3) :
    shT (weight q F b n) (headNode i j) (j + 1) n * (weight1 q F b n (headNode i j) (j + 1) l / weight q F b n (headNode i j) (j + 1)) =
      Gibbs.condProb (fun t : LabelledTrees false n q.d3 => labScore (row q b) t) (LabAvoids (F b)) (fun t => HasLabArc t i j l) := by
  classical
  have hne : Nonempty (ProjTrees false n) := DepTreeProofs.nonempty_trees false n fun _ => hn
  have : Nonempty (LabelledTrees false n q.d3) := ⟨(Classical.choice hne, fun _ => ⟨0, hL⟩)⟩
  have hZ := Gibbs.Z_pos (fun t : LabelledTrees false n q.d3 => labScore (row q b) t)
  have hav : ∀ t : LabelledTrees false n q.d3, LabAvoids (F b) ((many t.1, t.2) : LabelledTrees true n q.d3) ↔ LabAvoids (F b) t := fun t => Iff.rfl
  have hw : ∀ t : LabelledTrees false n q.d3, ∏ k : Fin n, weight1 q F b n (t.1.1 k) (k + 1) (t.2 k) = if LabAvoids (F b) t then Real.exp (labScore (row q b) t) else 0 :=
    fun t => (DepLabelInfinity.tree_weight b n ((many t.1, t.2) : LabelledTrees true n q.d3)).trans (if_congr (hav t) rfl rfl)
  -- the trees with the arc
  have harc : ∀ t : ProjTrees false n, (∏ k : Fin n, weight q F b n (t.1 k) (k + 1)) - (∏ k : Fin n, cutArc (weight q F b n) (headNode i j) (j + 1) (t.1 k) (k + 1)) =
      if ∃ k : Fin n, (k : ℕ) = j ∧ (t.1 k : ℕ) = headNode i j then ∏ k : Fin n, weight q F b n (t.1 k) (k + 1) else 0 := by
    intro t
    split_ifs with h
    · obtain ⟨k, h1, h2⟩ := h
      rw [prod_eq_zero (f := fun k : Fin n => cutArc (weight q F b n) (headNode i j) (j + 1) (t.1 k) (k + 1)) (mem_univ k), sub_zero]
      rw [cutArc, if_pos ⟨h2, by omega⟩]
    · rw [sub_eq_zero]
      refine prod_congr rfl fun k _ => ?_
      rw [cutArc, if_neg fun hk => h ⟨k, by omega, hk.1⟩]
  have hnum : ∀ t : ProjTrees false n, (∑ f : Fin n → Fin q.d3, if LabAvoids (F b) (t, f) ∧ HasLabArc (t, f) i j l then Real.exp (labScore (row q b) (t, f)) else 0) =
      ((∏ k : Fin n, weight q F b n (t.1 k) (k + 1)) - (∏ k : Fin n, cutArc (weight q F b n) (headNode i j) (j + 1) (t.1 k) (k + 1))) *
        (weight1 q F b n (headNode i j) (j + 1) l / weight q F b n (headNode i j) (j + 1)) := by
    intro t
    rw [harc]
    split_ifs with h
    · obtain ⟨k₀, h1, h2⟩ := h
      have := sum_labels_at (fun (k : Fin n) l => weight1 q F b n (t.1 k) (k + 1) l) (fun _ _ => weight1_nonneg _ _ _ _ _) k₀ hl
      simp only [h1, h2] at this
      refine Eq.trans ?_ this
      refine sum_congr rfl fun f _ => ?_
      rw [hw (t, f)]
      have hiff : HasLabArc (t, f) i j l ↔ (f k₀ : ℕ) = l := by
        rw [has_arc_iff]
        constructor
        · rintro ⟨k, g1, g2, g3⟩
          have : k = k₀ := Fin.ext (by omega)
          rw [← this]; exact g3
        · intro hf; exact ⟨k₀, h1, h2, hf⟩
      rw [hiff]
      by_cases h3 : LabAvoids (F b) (t, f) <;> by_cases h4 : (f k₀ : ℕ) = l <;> simp [h3, h4]
    · rw [zero_mul]
      refine sum_eq_zero fun f _ => if_neg ?_
      rintro ⟨-, hc⟩
      obtain ⟨k, g1, g2, -⟩ := (has_arc_iff _ _ _ _).1 hc
      exact h ⟨k, g1, g2⟩
  have hden : ∀ t : ProjTrees false n, (∑ f : Fin n → Fin q.d3, if LabAvoids (F b) (t, f) then Real.exp (labScore (row q b) (t, f)) else 0) =
      ∏ k : Fin n, weight q F b n (t.1 k) (k + 1) := by
    intro t
    have := sum_labels (L := q.d3) (fun (k : Fin n) l => weight1 q F b n (t.1 k) (k + 1) l)
    refine Eq.trans ?_ this
    exact sum_congr rfl fun f _ => (hw (t, f)).symm
  have h1 : Gibbs.condProb (fun t : LabelledTrees false n q.d3 => labScore (row q b) t) (LabAvoids (F b)) (fun t => HasLabArc t i j l) =
      (∑ t : LabelledTrees false n q.d3, if LabAvoids (F b) t ∧ HasLabArc t i j l then Real.exp (labScore (row q b) t) else 0) /
        ∑ t : LabelledTrees false n q.d3, if LabAvoids (F b) t then Real.exp (labScore (row q b) t) else 0 := by
    rw [Gibbs.condProb, Gibbs.probOf, Gibbs.probOf, ← mul_div_mul_right _ _ hZ.ne', sum_mul, sum_mul]
    congr 1
    · refine sum_congr rfl fun t _ => ?_
      by_cases g1 : LabAvoids (F b) t <;> by_cases g2 : HasLabArc t i j l <;> simp [g1, g2, Gibbs.prob, hZ.ne']
    · refine sum_congr rfl fun t _ => ?_
      by_cases g1 : LabAvoids (F b) t <;> simp [g1, Gibbs.prob, hZ.ne']
  rw [h1, Fintype.sum_prod_type, Fintype.sum_prod_type, sum_congr rfl fun t _ => hnum t, sum_congr rfl fun t _ => hden t, ← sum_mul, shT, sh, wT_trees n hn, wT_trees n hn,
    ← sum_sub_distrib, div_mul_eq_mul_div]

/-! ### The entries -/

theorem len_lt (h : Valid false q lengths) {b : ℕ} (hb : b < q.d0) : 1 ≤ len q lengths b ∧ len q lengths b < q.d1 + 1 :=
  ⟨(DepTreeProofs.len_le h.toValid hb).2 rfl, Nat.lt_succ_iff.2 (DepTreeProofs.len_le h.toValid hb).1⟩

theorem entries (σ : Slope) (h : Valid false q lengths) (F : ℕ → ℕ → ℕ → ℕ → Prop) :
    ∃ μ, DepRootBackward.labelMarginals σ (forbidArc q F) lengths = .ok μ ∧ ∀ b < q.d0, ∀ τ : Factors,
      Agree σ (q.d1 + 1) b (DepTree.arcScores DepBackward.sr (DepTreeProofs.conv (DepTree.negBig : EReal) (forbidArc q F)) (DepTree.lensOr q.d0 (q.d1 + 1) lengths)) τ →
      AtRoot (q.d1 + 1) τ → ∀ i < q.d1, ∀ j < q.d1, ∀ l, ∃ x z : EReal, LogOf x (weight1 q F b (len q lengths b) (headNode i j) (j + 1) l) ∧
        LogOf z (weight q F b (len q lengths b) (headNode i j) (j + 1)) ∧ μ [b, i, j, l] = IEEE.mul (fl (arcGrad q.d1 (len q lengths b) τ i j)) (σ x z) := by
  have h' : Valid false (forbidArc q F) lengths := ⟨h.rank, h.labels, h.square, h.batch, h.words, h.lens⟩
  have e1 : DepTree.convert (DepTree.negBig : EReal) (forbidArc q F) = .ok (DepTreeProofs.conv (DepTree.negBig : EReal) (forbidArc q F)) := LabelledDependency.conv_eq _ h'
  have e2 := DepTreeProofs.logpartition_ok false DepBackward.sr (DepTreeProofs.conv (DepTree.negBig : EReal) (forbidArc q F)) q.d1 lengths rfl
    (by change q.d2 + 1 = q.d1 + 1; rw [h.square]) h.batch h.words fun l hl => ⟨(h.lens l hl).1, fun x hx => ((h.lens l hl).2 x hx).1⟩
  rw [DepRootBackward.labelMarginals, e1]
  simp only [Bind.bind, Except.bind]
  rw [e2]
  refine ⟨_, rfl, fun b hb τ hτ h0 i hi j hj l => ?_⟩
  have hL : (DepTree.lensOr q.d0 (q.d1 + 1) lengths).getD b 0 = len q lengths b := DepTreeProofs.lensOr_getD hb
  refine ⟨_, _, weight1_log hL (headNode_ne i j) l, weight_log h.rank h.labels hL (headNode_ne i j), ?_⟩
  change DepTree.unconvertCell (DepRootBackward.labelGrad σ (DepTreeProofs.conv (DepTree.negBig : EReal) (forbidArc q F)) (DepTree.lensOr q.d0 (q.d1 + 1) lengths)) b i j l = _
  rw [unconvert_entry, DepRootBackward.labelGrad]
  congr 1
  exact grad_entry hτ h0 hb hL hi hj

/-- The weights of row `b` are those of the model. -/
theorem arcs_log (h : Valid false q lengths) {b : ℕ} (hb : b < q.d0) (x y : ℕ) (hne : x ≠ y) :
    LogOf (DepTree.arcScores DepBackward.sr (DepTreeProofs.conv (DepTree.negBig : EReal) (forbidArc q F)) (DepTree.lensOr q.d0 (q.d1 + 1) lengths) b x y)
      (weight q F b (len q lengths b) x y) := weight_log h.rank h.labels (DepTreeProofs.lensOr_getD hb) hne

/-- **C125, labels.** If the gradient of `logsumexp` is guarded against a result of `-inf`, every marginal is the conditional probability of the labelled arc given
that no forbidden labelled arc is used; arcs that reach into the padding get 0. -/
theorem guarded_spec (q : Arcs ℝ) (lengths : Option (List ℕ)) (h : Valid false q lengths) (F : ℕ → ℕ → ℕ → ℕ → Prop) :
    ∃ μ, DepRootBackward.labelMarginals Slope.guarded (forbidArc q F) lengths = .ok μ ∧
      ∀ b < q.d0, (∃ t : LabelledTrees false (len q lengths b) q.d3, LabAvoids (F b) t) → ∀ i < q.d1, ∀ j < q.d1, ∀ l < q.d3,
        μ [b, i, j, l] = IEEE.ofReal (Gibbs.condProb (labS false q lengths b) (LabAvoids (F b)) (fun t => HasLabArc t i j l)) := by
  obtain ⟨μ, h1, h2⟩ := entries Slope.guarded h F
  refine ⟨μ, h1, fun b hb _ i hi j hj l hl => ?_⟩
  obtain ⟨x, z, hx, hz, e⟩ := h2 b hb _ (agree_guarded (weight_nonneg b (len q lengths b)) fun x y _ _ hne => arcs_log h hb x y hne) atRoot_guarded i hi j hj l
  have hzero : weight q F b (len q lengths b) (headNode i j) (j + 1) = 0 → weight1 q F b (len q lengths b) (headNode i j) (j + 1) l = 0 := fun h0 =>
    (sum_eq_zero_iff_of_nonneg fun _ _ => weight1_nonneg _ _ _ _ _).1 h0 l (mem_range.2 hl)
  rw [e, arcGrad_value (weight_nonneg b _) hi hj (len_lt h hb).2, guarded_real hx hz hzero, fl_coe, IEEE.mul_real, share b _ (len_lt h hb).1 h.labels hl]
  rfl

/-- **C125, labels.** With torch's `logsumexp` gradient, the marginal of a labelled arc is NaN exactly if the arc is spoilt: it is blocked by arcs all labels of
which are forbidden, or all its own labels are forbidden.  Everywhere else it is the conditional probability of the labelled arc given that no forbidden labelled
arc is used. -/
theorem plain_spec (q : Arcs ℝ) (lengths : Option (List ℕ)) (h : Valid false q lengths) (F : ℕ → ℕ → ℕ → ℕ → Prop) :
    ∃ μ, DepRootBackward.labelMarginals Slope.plain (forbidArc q F) lengths = .ok μ ∧ ∀ b < q.d0, ∀ i < q.d1, ∀ j < q.d1, ∀ l < q.d3,
      (μ [b, i, j, l] = IEEE.nan ↔ Spoilt (F b) q.d3 (len q lengths b) q.d1 i j) ∧
      (μ [b, i, j, l] ≠ IEEE.nan → (∃ t : LabelledTrees false (len q lengths b) q.d3, LabAvoids (F b) t) →
        μ [b, i, j, l] = IEEE.ofReal (Gibbs.condProb (labS false q lengths b) (LabAvoids (F b)) (fun t => HasLabArc t i j l))) := by
  obtain ⟨μ, h1, h2⟩ := entries Slope.plain h F
  refine ⟨μ, h1, fun b hb i hi j hj l hl => ?_⟩
  obtain ⟨x, z, hx, hz, e⟩ := h2 b hb _ (agree_plain (weight_nonneg b (len q lengths b)) fun x y _ _ hne => arcs_log h hb x y hne) atRoot_plain i hi j hj l
  have hnan : ∀ v, fl v = IEEE.nan ↔ v = ⊤ := fun v => ⟨fun hv => fl_inj (y := ⊤) hv, fun hv => by rw [hv]; rfl⟩
  have hcut := cut_cell (F b) q.d3 (len q lengths b) i j
  rw [← weight_zero (q := q) (F := F) h.labels (headNode_ne i j)] at hcut
  by_cases hw : weight q F b (len q lengths b) (headNode i j) (j + 1) = 0
  · have hx0 : weight1 q F b (len q lengths b) (headNode i j) (j + 1) l = 0 :=
      (sum_eq_zero_iff_of_nonneg fun _ _ => weight1_nonneg _ _ _ _ _).1 hw l (mem_range.2 hl)
    rw [hw] at hz
    rw [hx0] at hx
    have e' : μ [b, i, j, l] = IEEE.nan := by
      rw [e, bot_of_zero hx, bot_of_zero hz, plain_nan]
      exact (fl_mul _ ⊤).trans ((hnan _).2 (tmul_eq_top.2 (Or.inr rfl)))
    exact ⟨⟨fun _ => Or.inr (hcut.1 hw), fun _ => e'⟩, fun hne => absurd e' hne⟩
  · have e' : μ [b, i, j, l] = fl (tmul (arcGrad q.d1 (len q lengths b) (plainρ (weight q F b (len q lengths b)) (q.d1 + 1)) i j)
        ((weight1 q F b (len q lengths b) (headNode i j) (j + 1) l / weight q F b (len q lengths b) (headNode i j) (j + 1) : ℝ) : WithTop ℝ)) := by
      rw [e, slope_real hx hz hw, ← fl_mul]; rfl
    rw [e', hnan, tmul_eq_top, arcGrad_nan (weight_nonneg b _) (fun x y hne => weight_zero h.labels hne) _ hi hj, Spoilt]
    refine ⟨⟨fun hc => hc.elim Or.inl fun hc => absurd hc WithTop.coe_ne_top, fun hc => hc.elim Or.inl fun hc => absurd (hcut.2 hc) hw⟩, fun hne _ => ?_⟩
    have hg : arcGrad q.d1 (len q lengths b) (plainρ (weight q F b (len q lengths b)) (q.d1 + 1)) i j ≠ ⊤ := fun hc => hne (by rw [hc]; rfl)
    rw [arcGrad_same _ _ _ _ _ hg, arcGrad_value (weight_nonneg b _) hi hj (len_lt h hb).2, tmul_coe, fl_coe, share b _ (len_lt h hb).1 h.labels hl]
    rfl

/-! ### Consequences -/

/-- A tree without cut arcs has an allowed labelling. -/
theorem labelling {F : ℕ → ℕ → ℕ → Prop} {L n : ℕ} (hh : SingleTree (Cut F L n) n) : ∃ t : LabelledTrees false n L, LabAvoids F t := by
  obtain ⟨t, ht⟩ := hh
  have key : ∀ k : Fin n, ∃ l : Fin L, ¬ F (arcCell (t.1 k) k).1 (arcCell (t.1 k) k).2 l := by
    intro k
    by_contra hc
    push Not at hc
    refine ht k ?_
    have h1 := k.2
    have h2 := (t.1 k).2
    refine ⟨by omega, by omega, by omega, fun l hl => ?_⟩
    rw [Nat.add_sub_cancel]
    exact hc ⟨l, hl⟩
  choose f hf using key
  exact ⟨(t, f), (labAvoids_iff _ _).2 hf⟩

/-- **C125, labels, neighbours allowed.** If every arc between neighbouring nodes has an allowed label, the marginals of all arcs with an allowed label are
conditional probabilities; the marginals of the forbidden labels of such an arc are therefore 0. -/
theorem neighbours_allowed (q : Arcs ℝ) (lengths : Option (List ℕ)) (h : Valid false q lengths) (F : ℕ → ℕ → ℕ → ℕ → Prop) :
    ∃ μ, DepRootBackward.labelMarginals Slope.plain (forbidArc q F) lengths = .ok μ ∧ ∀ b < q.d0, NeighboursAllowed (F b) q.d3 (len q lengths b) →
      ∀ i < q.d1, ∀ j < q.d1, (∃ l < q.d3, ¬ F b i j l) → ∀ l < q.d3,
        μ [b, i, j, l] = IEEE.ofReal (Gibbs.condProb (labS false q lengths b) (LabAvoids (F b)) (fun t => HasLabArc t i j l)) ∧
        (F b i j l → μ [b, i, j, l] = IEEE.ofReal 0) := by
  obtain ⟨μ, h1, h2⟩ := plain_spec q lengths h F
  refine ⟨μ, h1, fun b hb hN i hi j hj ha l hl => ?_⟩
  have e : μ [b, i, j, l] = IEEE.ofReal (Gibbs.condProb (labS false q lengths b) (LabAvoids (F b)) (fun t => HasLabArc t i j l)) := by
    refine (h2 b hb i hi j hj l hl).2 ?_ (labelling (single_of hN (len_lt h hb).1))
    rw [ne_eq, (h2 b hb i hi j hj l hl).1]
    rintro (hc | ⟨_, _, hc⟩)
    · exact not_blocked hN hc
    · obtain ⟨l', h3, h4⟩ := ha
      exact h4 (hc l' h3)
  refine ⟨e, fun hF => e.trans ?_⟩
  congr 1
  rw [Gibbs.condProb, Gibbs.probOf, sum_eq_zero, zero_div]
  rintro t -
  exact if_neg fun hc => hc.1 i j l hc.2 hF

/-- **C125, labels, an arc without allowed labels.** If all labels of an arc of the sentence are forbidden, all its marginals are NaN, where the conditional
probabilities are 0. -/
theorem forbidden_arc_nan (q : Arcs ℝ) (lengths : Option (List ℕ)) (h : Valid false q lengths) (F : ℕ → ℕ → ℕ → ℕ → Prop) :
    ∃ μ, DepRootBackward.labelMarginals Slope.plain (forbidArc q F) lengths = .ok μ ∧ ∀ b < q.d0, ∀ i < len q lengths b, ∀ j < len q lengths b,
      (∀ l < q.d3, F b i j l) → ∀ l < q.d3, μ [b, i, j, l] = IEEE.nan := by
  obtain ⟨μ, h1, h2⟩ := plain_spec q lengths h F
  refine ⟨μ, h1, fun b hb i hi j hj hF l hl => ?_⟩
  have := len_lt h hb
  exact ((h2 b hb i (by omega) j (by omega) l hl).1).2 (Or.inr ⟨hi, hj, hF⟩)

/-- **C125, labels, no tree left.** If every labelled tree of a row uses a forbidden labelled arc, all marginals of the row's sentence are NaN. -/
theorem no_tree_nan (q : Arcs ℝ) (lengths : Option (List ℕ)) (h : Valid false q lengths) (F : ℕ → ℕ → ℕ → ℕ → Prop) :
    ∃ μ, DepRootBackward.labelMarginals Slope.plain (forbidArc q F) lengths = .ok μ ∧
      ∀ b < q.d0, (¬ ∃ t : LabelledTrees false (len q lengths b) q.d3, LabAvoids (F b) t) →
        ∀ i < len q lengths b, ∀ j < len q lengths b, ∀ l < q.d3, μ [b, i, j, l] = IEEE.nan := by
  obtain ⟨μ, h1, h2⟩ := plain_spec q lengths h F
  refine ⟨μ, h1, fun b hb hno i hi j hj l hl => ?_⟩
  have hL := len_lt h hb
  have hT : ¬ SingleTree (Cut (F b) q.d3 (len q lengths b)) (len q lengths b) := fun hc => hno (labelling hc)
  refine ((h2 b hb i (by omega) j (by omega) l hl).1).2 (Or.inl ?_)
  rw [Blocked]
  split_ifs
  all_goals exact Or.inl ⟨len q lengths b, by omega, by omega, hT⟩

/-- **C125, labels, finite potentials.** With finite potentials the backward pass computes `marginals` as modelled with exact derivatives. -/
theorem finite (q : Arcs ℝ) (lengths : Option (List ℕ)) (h : Valid false q lengths) :
    ∃ μ ν, DepRootBackward.labelMarginals Slope.plain ⟨q.rank, q.d0, q.d1, q.d2, q.d3, fun b i j l => (q.get b i j l : EReal)⟩ lengths = .ok μ ∧
      DepTree.marginals false q lengths = .ok ν ∧ ∀ b < q.d0, ∀ i < q.d1, ∀ j < q.d1, ∀ l < q.d3, μ [b, i, j, l] = IEEE.ofReal (ν [b, i, j, l]) := by
  obtain ⟨μ, h1, h2⟩ := neighbours_allowed q lengths h fun _ _ _ _ => False
  obtain ⟨ν, h3, h4⟩ := LabelledDependency.marginals_spec false q lengths h
  have e : forbidArc q (fun _ _ _ _ => False) = ⟨q.rank, q.d0, q.d1, q.d2, q.d3, fun b i j l => (q.get b i j l : EReal)⟩ := by
    rw [forbidArc]; simp
  rw [e] at h1
  refine ⟨μ, ν, h1, h3, fun b hb i hi j hj l hl => ?_⟩
  have hf : ¬ ∀ l < q.d3, False := fun hc => hc 0 h.labels
  rw [(h2 b hb ⟨fun _ => hf, fun _ _ => ⟨hf, hf⟩⟩ i hi j hj ⟨0, h.labels, not_false⟩ l hl).1, h4 b hb i j l]
  congr 1
  have : Nonempty (LabelledTrees false (len q lengths b) q.d3) := LabelledDependency.trees_nonempty h b hb
  have hav : ∀ t : LabelledTrees false (len q lengths b) q.d3, LabAvoids (fun _ _ _ => False) t := fun t i j l _ hf => hf
  have e1 : Gibbs.probOf (labS false q lengths b) (LabAvoids fun _ _ _ => False) = 1 := by
    rw [Gibbs.probOf, ← Gibbs.sum_prob (labS false q lengths b)]
    exact sum_congr rfl fun t _ => if_pos (hav t)
  rw [Gibbs.condProb, e1, div_one, Gibbs.probOf, LabelledDependency.arcProb]
  refine sum_congr rfl fun t _ => ?_
  by_cases h0 : HasLabArc t i j l <;> simp only [h0, hav t, and_self, and_false, if_true, if_false] <;> rfl

/-! The hypotheses are met: the sample with two labels, with rows of three and two words. -/

/-- If one label of the arc from the root to the first word is forbidden, its marginal is 0 and that of the other label a probability. -/
example : ∃ μ, DepRootBackward.labelMarginals Slope.plain (forbidArc LabelledDependency.sample fun _ i j l => i = 0 ∧ j = 0 ∧ l = 0) (some [3, 2]) = .ok μ ∧
    μ [0, 0, 0, 0] = IEEE.ofReal 0 ∧ ∃ v : ℝ, μ [0, 0, 0, 1] = IEEE.ofReal v := by
  obtain ⟨μ, h1, h2⟩ := neighbours_allowed LabelledDependency.sample _ (LabelledDependency.sample_valid false) fun _ i j l => i = 0 ∧ j = 0 ∧ l = 0
  have hf : ∀ i j, ¬ ∀ l < 2, i = 0 ∧ j = 0 ∧ l = 0 := fun i j hc => by have := (hc 1 (by decide)).2.2; omega
  have hN : NeighboursAllowed (fun i j l => i = 0 ∧ j = 0 ∧ l = 0) 2 3 := ⟨fun _ => hf _ _, fun k _ => ⟨hf _ _, hf _ _⟩⟩
  have ha : ∃ l < LabelledDependency.sample.d3, ¬ (0 = 0 ∧ 0 = 0 ∧ l = 0) := ⟨1, by decide, by omega⟩
  exact ⟨μ, h1, (h2 0 (by decide) hN 0 (by decide) 0 (by decide) ha 0 (by decide)).2 ⟨rfl, rfl, rfl⟩, _,
    (h2 0 (by decide) hN 0 (by decide) 0 (by decide) ha 1 (by decide)).1⟩

/-- If both labels of the arc from the root to the second word are forbidden, its marginals are NaN. -/
example : ∃ μ, DepRootBackward.labelMarginals Slope.plain (forbidArc LabelledDependency.sample fun _ i j _ => i = 1 ∧ j = 1) (some [3, 2]) = .ok μ ∧
    μ [0, 1, 1, 0] = IEEE.nan ∧ μ [0, 1, 1, 1] = IEEE.nan := by
  obtain ⟨μ, h1, h2⟩ := forbidden_arc_nan LabelledDependency.sample _ (LabelledDependency.sample_valid false) fun _ i j _ => i = 1 ∧ j = 1
  have := h2 0 (by decide) 1 (by decide) 1 (by decide) fun l _ => ⟨rfl, rfl⟩
  exact ⟨μ, h1, this 0 (by decide), this 1 (by decide)⟩

end Props.DepRootLabelInfinity
