import Verif.Proofs.TreeBackwardValue
import Verif.Props.Conditional

/-! C113: `TreeCRF.marginals` with potentials `-inf`.

Forbidden labelled spans have potential `-inf` (`Props.Conditional.forbid4`).  The backward pass of torch gives the conditional probabilities except at
exactly described entries, which are NaN. -/

open Finset Spec TreeBackwardProofs CKYCRFProofs
open Props.Conditional (forbid4 TreeAvoids)

noncomputable section
namespace Props.TreeInfinity

/-- There is a tree over the words `i … j` without forbidden labelled spans, the span of all of them aside. -/
def Divisible (NT : ℕ) (F : ℕ → ℕ → ℕ → Prop) (i j : ℕ) : Prop :=
  ∃ t : Trees NT (j - i + 1), ∀ k l (a : Fin NT), (k, l, a) ∈ t.1.spans i → (k, l) ≠ (i, j) → ¬ F k l a

/-- Some span of words of the table (sentence or padding) that is strictly larger than `i … j` is not divisible. -/
def Blocked (N NT : ℕ) (F : ℕ → ℕ → ℕ → Prop) (i j : ℕ) : Prop :=
  ∃ i' j', i' ≤ i ∧ j ≤ j' ∧ j' < N ∧ (i', j') ≠ (i, j) ∧ ¬ Divisible NT F i' j'

variable {p : T4 ℝ} {lengths : Option (List ℕ)} {F : ℕ → ℕ → ℕ → ℕ → Prop}

open Classical in
/-- The weights of the labelled spans of row `b`. -/
def weight (p : T4 ℝ) (F : ℕ → ℕ → ℕ → ℕ → Prop) (b i j a : ℕ) : ℝ := if F b i j a then 0 else Real.exp (p.get b i j a)

theorem weight_nonneg (b i j a : ℕ) : 0 ≤ weight p F b i j a := by
  rw [weight]; split_ifs
  · exact le_rfl
  · exact (Real.exp_pos _).le

theorem weight_eq_zero {b i j a : ℕ} : weight p F b i j a = 0 ↔ F b i j a := by
  rw [weight]; split_ifs with h
  · simp [h]
  · simp [h, Real.exp_ne_zero]

theorem weight_log (b i j a : ℕ) : LogOf ((forbid4 p F).get b i j a) (weight p F b i j a) := by
  refine ⟨weight_nonneg b i j a, ?_⟩
  rw [weight, forbid4]
  simp only
  split_ifs with h
  · simp
  · rw [EReal.exp_coe]

theorem reduced_log (h : 1 ≤ p.d3) (b i j : ℕ) : LogOf (CKYCRF.reduced TreeBackward.sr (forbid4 p F) b i j) (∑ a ∈ range p.d3, weight p F b i j a) :=
  logOf_rel.sum_range h fun a _ => weight_log b i j a

theorem lab_zero {b i j : ℕ} : lab p.d3 (weight p F b) i j = 0 ↔ ∀ a : Fin p.d3, F b i j a := by
  rw [lab, sum_eq_zero_iff_of_nonneg fun a _ => weight_nonneg b i j a]
  simp only [mem_range, weight_eq_zero]
  exact ⟨fun h a => h a a.2, fun h a ha => h ⟨a, ha⟩⟩

theorem divisible_iff (h : 1 ≤ p.d3) {b i j : ℕ} (hij : i < j) : Divisible p.d3 (F b) i j ↔ halves p.d3 (weight p F b) i j ≠ 0 := by
  rw [halves_ne_zero h (weight_nonneg b) hij]
  simp only [Divisible, ne_eq, weight_eq_zero]

theorem part_row {NT L : ℕ} (hL : 1 ≤ L) (x : ℕ → ℕ → ℕ → ℝ) (i j : ℕ) (a : Fin NT) [∀ t : Trees NT L, Decidable ((i, j, a) ∈ t.1.spans 0)] : part x i j a 0 (L - 1) =
    ∑ t : Trees NT L, if (i, j, a) ∈ t.1.spans 0 then treeProd x t else 0 := by
  obtain ⟨n, rfl⟩ : ∃ n, L = n + 1 := ⟨L - 1, by omega⟩
  refine sum_congr rfl fun t _ => ?_
  congr

theorem wt_row {NT L : ℕ} (hL : 1 ≤ L) (x : ℕ → ℕ → ℕ → ℝ) : wt NT x 0 (L - 1) = ∑ t : Trees NT L, treeProd x t := by
  obtain ⟨n, rfl⟩ : ∃ n, L = n + 1 := ⟨L - 1, by omega⟩
  rfl

theorem tree_weight (b : ℕ) {n : ℕ} (t : Trees p.d3 n) [Decidable (TreeAvoids (F b) t)] :
    treeProd (weight p F b) t = if TreeAvoids (F b) t then Real.exp (treeScore (TreeCRF.row p b) t) else 0 := by
  split_ifs with h
  · rw [treeScore, Real.exp_list_sum, List.map_map, treeProd]
    congr 1
    refine List.map_congr_left fun s hs => ?_
    rw [weight, if_neg (h _ _ _ hs)]
    rfl
  · rw [treeProd, List.prod_eq_zero_iff]
    simp only [TreeAvoids, not_forall, not_not] at h
    obtain ⟨i, j, a, hm, hF⟩ := h
    exact List.mem_map.2 ⟨_, hm, weight_eq_zero.2 hF⟩

/-- The share of the trees with a labelled span is its conditional probability. -/
theorem share {b L : ℕ} (hL : 1 ≤ L) (hNT : 1 ≤ p.d3) (i j : ℕ) (a : Fin p.d3) :
    part (weight p F b) i j a 0 (L - 1) / wt p.d3 (weight p F b) 0 (L - 1) =
      Gibbs.condProb (treeScore (TreeCRF.row p b) : Trees p.d3 L → ℝ) (TreeAvoids (F b)) (fun t => (i, j, a) ∈ t.1.spans 0) := by
  classical
  have : Nonempty (Trees p.d3 L) := nonempty_trees hNT hL
  have hZ := Gibbs.Z_pos (treeScore (TreeCRF.row p b) : Trees p.d3 L → ℝ)
  rw [part_row hL, wt_row hL, Gibbs.condProb, Gibbs.probOf, Gibbs.probOf, ← mul_div_mul_right _ _ (inv_ne_zero hZ.ne'), sum_mul, sum_mul]
  congr 1
  · refine sum_congr rfl fun t _ => ?_
    rw [tree_weight, Gibbs.prob]
    by_cases h1 : TreeAvoids (F b) t <;> by_cases h2 : (i, j, a) ∈ t.1.spans 0 <;> simp [h1, h2, div_eq_mul_inv]
  · refine sum_congr rfl fun t _ => ?_
    rw [tree_weight, Gibbs.prob]
    by_cases h1 : TreeAvoids (F b) t <;> simp [h1, div_eq_mul_inv]

theorem root_weight {b L : ℕ} (hL : 1 ≤ L) (h : ∃ t : Trees p.d3 L, TreeAvoids (F b) t) : wt p.d3 (weight p F b) 0 (L - 1) ≠ 0 := by
  classical
  rw [wt_row hL]
  obtain ⟨t, ht⟩ := h
  refine (lt_of_lt_of_le ?_ (single_le_sum (f := fun t : Trees p.d3 L => treeProd (weight p F b) t) (fun t _ => ?_) (mem_univ t))).ne'
  · rw [tree_weight, if_pos ht]
    exact Real.exp_pos _
  · rw [tree_weight]
    split_ifs
    · exact (Real.exp_pos _).le
    · exact le_rfl

theorem last (h : TreeCRF.Valid p lengths) {b : ℕ} (hb : b < p.d0) :
    CKYCRF.lastIndex p.d1 ((CKYCRF.lensOr p.d0 p.d1 lengths).getD b 0) = TreeCRF.len p lengths b - 1 := by
  have hl := len_in h.words h.lens b hb
  have e : (CKYCRF.lensOr p.d0 p.d1 lengths).getD b 0 = lenOf p.d1 lengths b := by
    cases lengths with
    | none => simp [CKYCRF.lensOr, lenOf, hb]
    | some l => rfl
  rw [e, CKYCRF.lastIndex, if_neg (by omega), TreeCRF.len]

/-- The entries of the result. -/
theorem entries (σ : Slope) (h : TreeCRF.Valid p lengths) (F : ℕ → ℕ → ℕ → ℕ → Prop) :
    ∃ μ, TreeBackward.marginals σ (forbid4 p F) lengths = .ok μ ∧ ∀ b < p.d0, ∀ τ : ℕ → ℕ → ℕ → WithTop ℝ,
      (∀ i j m, i ≤ m → m < j → j < p.d1 → σ (TreeBackward.product p.d1 (CKYCRF.reduced TreeBackward.sr (forbid4 p F)) (j - i) b i (m - i))
        (TreeBackward.dotAt p.d1 (CKYCRF.reduced TreeBackward.sr (forbid4 p F)) (j - i) b i) = fl (τ i j m)) →
      ∀ i j a, μ [b, i, j, a] = IEEE.mul (fl (if i ≤ j ∧ j < p.d1 then gam p.d1 (TreeCRF.len p lengths b) τ i j else 0))
        (σ ((forbid4 p F).get b i j a) (CKYCRF.reduced TreeBackward.sr (forbid4 p F) b i j)) := by
  have h' : TreeCRF.Valid (forbid4 p F) lengths := ⟨h.square, h.words, h.labels, h.lens⟩
  rw [TreeBackward.marginals, logpartition_ok _ _ _ h']
  refine ⟨_, rfl, fun b hb τ hτ i j a => ?_⟩
  rw [← scoreGrad_eq hτ hb (last h hb) (len_in h.words h.lens b hb).1 h.words]
  rfl

/-- **C113.** With torch's `logsumexp` gradient, the marginal of a span is NaN exactly if all its labels are forbidden or a larger span of words
of the table cannot be divided without forbidden spans; below the diagonal, exactly if all labels of the entry are `-inf`.  Everywhere else it is the
probability of the labelled span given that nothing forbidden is used, and 0 for spans that reach into the padding and below the diagonal. -/
theorem plain_spec (p : T4 ℝ) (lengths : Option (List ℕ)) (h : TreeCRF.Valid p lengths) (F : ℕ → ℕ → ℕ → ℕ → Prop) :
    ∃ μ, TreeBackward.marginals Slope.plain (forbid4 p F) lengths = .ok μ ∧ ∀ b < p.d0, ∀ i j, j < p.d1 → ∀ a : Fin p.d3,
      (i ≤ j → (μ [b, i, j, (a : ℕ)] = IEEE.nan ↔ (∀ a' : Fin p.d3, F b i j a') ∨ Blocked p.d1 p.d3 (F b) i j)) ∧
      (j < i → (μ [b, i, j, (a : ℕ)] = IEEE.nan ↔ ∀ a' : Fin p.d3, F b i j a')) ∧
      (μ [b, i, j, (a : ℕ)] ≠ IEEE.nan → (∃ t : Trees p.d3 (TreeCRF.len p lengths b), TreeAvoids (F b) t) → μ [b, i, j, (a : ℕ)] =
        IEEE.ofReal (if i ≤ j ∧ j < TreeCRF.len p lengths b then Gibbs.condProb (treeScore (TreeCRF.row p b) : Trees p.d3 (TreeCRF.len p lengths b) → ℝ)
          (TreeAvoids (F b)) (fun t => (i, j, a) ∈ t.1.spans 0) else 0)) := by
  classical
  obtain ⟨μ, h1, h2⟩ := entries Slope.plain h F
  refine ⟨μ, h1, fun b hb i j hj a => ?_⟩
  have hl : 1 ≤ TreeCRF.len p lengths b ∧ TreeCRF.len p lengths b ≤ p.d1 := len_in h.words h.lens b hb
  have hx := weight_nonneg (p := p) (F := F) b
  have e := h2 b hb (plainFactor p.d3 (weight p F b)) (plain_factor hx fun i j _ _ => reduced_log h.labels b i j) i j a
  have hs : Slope.plain ((forbid4 p F).get b i j a) (CKYCRF.reduced TreeBackward.sr (forbid4 p F) b i j) =
      fl (if lab p.d3 (weight p F b) i j = 0 then ⊤ else ((weight p F b i j a / lab p.d3 (weight p F b) i j : ℝ) : WithTop ℝ)) := by
    have k1 := weight_log (p := p) (F := F) b i j a
    have k2 := reduced_log (p := p) (F := F) h.labels b i j
    split_ifs with h0
    · rw [weight_eq_zero.2 (lab_zero.1 h0 a)] at k1
      rw [lab] at h0
      rw [h0] at k2
      rw [bot_of_zero k1, bot_of_zero k2, plain_nan]; rfl
    · exact slope_real k1 k2 h0
  rw [hs, fl_mul] at e
  have hnan : ∀ v, fl v = IEEE.nan ↔ v = ⊤ := fun v => ⟨fun hv => fl_inj (y := ⊤) hv, fun hv => by rw [hv]; rfl⟩
  have htop : i ≤ j → (gam p.d1 (TreeCRF.len p lengths b) (plainFactor p.d3 (weight p F b)) i j = ⊤ ↔ Blocked p.d1 p.d3 (F b) i j) := by
    intro hij
    rw [gam_top p.d1 (TreeCRF.len p lengths b) (plainFactor p.d3 (weight p F b)) (fun i j => halves p.d3 (weight p F b) i j = 0) (fun i j m _ _ _ => by
      rw [plainFactor]; split_ifs with h0 <;> simp [h0]) _ i j rfl hij hj, Blocked]
    refine exists_congr fun i' => exists_congr fun j' => ?_
    constructor
    · rintro ⟨a1, a2, a3, a4, a5⟩
      exact ⟨a1, a2, a3, a4, by rw [divisible_iff h.labels (by simp only [ne_eq, Prod.mk.injEq] at a4; omega)]; simpa using a5⟩
    · rintro ⟨a1, a2, a3, a4, a5⟩
      rw [divisible_iff h.labels (by simp only [ne_eq, Prod.mk.injEq] at a4; omega)] at a5
      exact ⟨a1, a2, a3, a4, by simpa using a5⟩
  have hlab : (if lab p.d3 (weight p F b) i j = 0 then ⊤ else ((weight p F b i j a / lab p.d3 (weight p F b) i j : ℝ) : WithTop ℝ)) = ⊤ ↔
      ∀ a' : Fin p.d3, F b i j a' := by
    rw [← lab_zero]
    split_ifs with h0 <;> simp [h0]
  refine ⟨fun hij => ?_, fun hij => ?_, fun hn ht => ?_⟩
  · rw [e, hnan, tmul_eq_top, if_pos ⟨hij, hj⟩, htop hij, hlab, or_comm]
  · rw [e, hnan, tmul_eq_top, if_neg (by omega), hlab]
    simp
  · rw [e, ne_eq, hnan, tmul_eq_top, not_or] at hn
    obtain ⟨n1, n2⟩ := hn
    have hl0 : lab p.d3 (weight p F b) i j ≠ 0 := fun h0 => n2 (by rw [if_pos h0])
    rw [e, if_neg hl0]
    by_cases hij : i ≤ j
    · rw [if_pos ⟨hij, hj⟩] at n1 ⊢
      have hb' : ¬ Blocked p.d1 p.d3 (F b) i j := fun h0 => n1 ((htop hij).2 h0)
      rw [gam_real p.d1 (TreeCRF.len p lengths b) _ (ratio (wt p.d3 (weight p F b)) (halves p.d3 (weight p F b))) _ i j rfl hij hj ?_, tmul_coe, fl_coe,
        value hx hl.2 hij hj a fun _ => root_weight hl.1 ht]
      · congr 1
        by_cases hjl : j < TreeCRF.len p lengths b
        · rw [if_pos hjl, if_pos ⟨hij, hjl⟩]
          exact share hl.1 h.labels i j a
        · rw [if_neg hjl, if_neg fun h0 => hjl h0.2]
      · intro i' j' a1 a2 a3 a4 m a5 a6
        rw [plainFactor, if_neg]
        intro h0
        refine hb' ⟨i', j', a1, a2, a3, a4, ?_⟩
        rw [divisible_iff h.labels (by omega)]
        simpa using h0
    · rw [if_neg (by omega), if_neg (by omega)]
      change fl (tmul ((0 : ℝ) : WithTop ℝ) _) = _
      rw [tmul_coe, zero_mul]
      rfl

/-- **C113.** If the gradient of `logsumexp` is guarded against a result of `-inf`, every marginal is the conditional probability. -/
theorem guarded_spec (p : T4 ℝ) (lengths : Option (List ℕ)) (h : TreeCRF.Valid p lengths) (F : ℕ → ℕ → ℕ → ℕ → Prop) :
    ∃ μ, TreeBackward.marginals Slope.guarded (forbid4 p F) lengths = .ok μ ∧ ∀ b < p.d0, (∃ t : Trees p.d3 (TreeCRF.len p lengths b), TreeAvoids (F b) t) →
      ∀ i j, j < p.d1 → ∀ a : Fin p.d3, μ [b, i, j, (a : ℕ)] =
        IEEE.ofReal (if i ≤ j ∧ j < TreeCRF.len p lengths b then Gibbs.condProb (treeScore (TreeCRF.row p b) : Trees p.d3 (TreeCRF.len p lengths b) → ℝ)
          (TreeAvoids (F b)) (fun t => (i, j, a) ∈ t.1.spans 0) else 0) := by
  classical
  obtain ⟨μ, h1, h2⟩ := entries Slope.guarded h F
  refine ⟨μ, h1, fun b hb ht i j hj a => ?_⟩
  have hl : 1 ≤ TreeCRF.len p lengths b ∧ TreeCRF.len p lengths b ≤ p.d1 := len_in h.words h.lens b hb
  have hx := weight_nonneg (p := p) (F := F) b
  have e := h2 b hb (fun i j m => (ratio (wt p.d3 (weight p F b)) (halves p.d3 (weight p F b)) i j m : ℝ))
    (guarded_factor hx fun i j _ _ => reduced_log h.labels b i j) i j a
  have hs : Slope.guarded ((forbid4 p F).get b i j a) (CKYCRF.reduced TreeBackward.sr (forbid4 p F) b i j) =
      fl ((weight p F b i j a / lab p.d3 (weight p F b) i j : ℝ) : WithTop ℝ) :=
    guarded_real (weight_log b i j a) (reduced_log h.labels b i j) fun h0 => weight_eq_zero.2 (lab_zero.1 h0 a)
  rw [hs, fl_mul] at e
  rw [e]
  by_cases hij : i ≤ j
  · rw [if_pos ⟨hij, hj⟩, gam_real p.d1 (TreeCRF.len p lengths b) _ (ratio (wt p.d3 (weight p F b)) (halves p.d3 (weight p F b))) _ i j rfl hij hj
      (fun _ _ _ _ _ _ _ _ _ => rfl), tmul_coe, fl_coe, value hx hl.2 hij hj a fun _ => root_weight hl.1 ht]
    congr 1
    by_cases hjl : j < TreeCRF.len p lengths b
    · rw [if_pos hjl, if_pos ⟨hij, hjl⟩]
      exact share hl.1 h.labels i j a
    · rw [if_neg hjl, if_neg fun h0 => hjl h0.2]
  · rw [if_neg (by omega), if_neg (by omega)]
    change fl (tmul ((0 : ℝ) : WithTop ℝ) _) = _
    rw [tmul_coe, zero_mul]
    rfl

theorem tree_span (NT : ℕ) : ∀ (t : LTree NT) (i k : ℕ), i ≤ k → k < i + t.size → ∃ a, (k, k, a) ∈ t.spans i
  | .leaf a, i, k, h1, h2 => ⟨a, by simp only [LTree.size] at h2; obtain rfl : k = i := by omega
                                    simp [LTree.spans]⟩
  | .node a l r, i, k, h1, h2 => by
    simp only [LTree.size] at h2
    by_cases h : k < i + l.size
    · obtain ⟨a', ha⟩ := tree_span NT l i k h1 h
      exact ⟨a', by simp [LTree.spans, ha]⟩
    · obtain ⟨a', ha⟩ := tree_span NT r (i + l.size) k (by omega) (by omega)
      exact ⟨a', by simp [LTree.spans, ha]⟩

/-- A span of several words with a forbidden word is not divisible. -/
theorem not_divisible {NT : ℕ} {F : ℕ → ℕ → ℕ → Prop} {i j k : ℕ} (hij : i < j) (h1 : i ≤ k) (h2 : k ≤ j) (hF : ∀ a : Fin NT, F k k a) : ¬ Divisible NT F i j := by
  rintro ⟨t, ht⟩
  obtain ⟨a, ha⟩ := tree_span NT t.1 i k h1 (by rw [t.2]; omega)
  exact ht k k a ha (by simp only [ne_eq, Prod.mk.injEq]; omega) (hF a)

/-- **C113, padding.** If the first word of padding of a row has `-inf` for all labels, all marginals of the sentence of that row are NaN, although only
padding is forbidden and `partition` of the row does not change. -/
theorem padding_nan (p : T4 ℝ) (lengths : Option (List ℕ)) (h : TreeCRF.Valid p lengths) (F : ℕ → ℕ → ℕ → ℕ → Prop) :
    ∃ us vs μ, Dist.partition CKYCRF.algo p lengths = .ok us ∧ Dist.partitionE CKYCRF.algo lengths (forbid4 p F) = .ok vs ∧
      TreeBackward.marginals Slope.plain (forbid4 p F) lengths = .ok μ ∧ ∀ b < p.d0, TreeCRF.len p lengths b < p.d1 →
        (∀ i j a, F b i j a → TreeCRF.len p lengths b ≤ j) → (∀ a : Fin p.d3, F b (TreeCRF.len p lengths b) (TreeCRF.len p lengths b) a) →
        vs[b]? = some ((us.getD b 0 : ℝ) : EReal) ∧ ∀ i j, i ≤ j → j < TreeCRF.len p lengths b → ∀ a : Fin p.d3, μ [b, i, j, (a : ℕ)] = IEEE.nan := by
  obtain ⟨us, vs, h1, h2, h3⟩ := Conditional.tree_forbid p lengths h F
  obtain ⟨μ, h4, h5⟩ := plain_spec p lengths h F
  refine ⟨us, vs, μ, h1, h2, h4, fun b hb hlt hF hpad => ⟨?_, fun i j hij hj a => ?_⟩⟩
  · have hl : 1 ≤ TreeCRF.len p lengths b ∧ TreeCRF.len p lengths b ≤ p.d1 := len_in h.words h.lens b hb
    obtain ⟨t⟩ := nonempty_trees h.labels hl.1
    have hav : ∀ t : Trees p.d3 (TreeCRF.len p lengths b), TreeAvoids (F b) t := fun t i j a hm hf => by
      have k1 := spans_mem t.1 0 _ hm
      have k2 := hF i j a hf
      have k3 := t.2
      simp only at k1
      omega
    rw [(h3 b hb).1 ⟨t, hav t⟩]
    have : Nonempty (Trees p.d3 (TreeCRF.len p lengths b)) := ⟨t⟩
    have e : Gibbs.probOf (treeScore (TreeCRF.row p b) : Trees p.d3 (TreeCRF.len p lengths b) → ℝ) (TreeAvoids (F b)) = 1 := by
      rw [Gibbs.probOf, ← Gibbs.sum_prob (treeScore (TreeCRF.row p b) : Trees p.d3 (TreeCRF.len p lengths b) → ℝ)]
      exact sum_congr rfl fun t _ => if_pos (hav t)
    rw [e, Real.log_one, add_zero]
  · refine ((h5 b hb i j (by omega) a).1 hij).2 (Or.inr ⟨i, TreeCRF.len p lengths b, le_rfl, by omega, hlt, by simp only [ne_eq, Prod.mk.injEq]; omega, ?_⟩)
    exact not_divisible (by omega) (by omega) le_rfl hpad

/-- **C113, a label everywhere.** If every entry of the row keeps an allowed label, there is no NaN: all marginals are conditional probabilities. -/
theorem label_everywhere (p : T4 ℝ) (lengths : Option (List ℕ)) (h : TreeCRF.Valid p lengths) (F : ℕ → ℕ → ℕ → ℕ → Prop) :
    ∃ μ, TreeBackward.marginals Slope.plain (forbid4 p F) lengths = .ok μ ∧ ∀ b < p.d0,
      (∀ i < p.d1, ∀ j < p.d1, ∃ a : Fin p.d3, ¬ F b i j a) → ∀ i < p.d1, ∀ j < p.d1, ∀ a : Fin p.d3, μ [b, i, j, (a : ℕ)] =
        IEEE.ofReal (if i ≤ j ∧ j < TreeCRF.len p lengths b then Gibbs.condProb (treeScore (TreeCRF.row p b) : Trees p.d3 (TreeCRF.len p lengths b) → ℝ)
          (TreeAvoids (F b)) (fun t => (i, j, a) ∈ t.1.spans 0) else 0) := by
  obtain ⟨μ, h4, h5⟩ := plain_spec p lengths h F
  refine ⟨μ, h4, fun b hb hlab i hi j hj a => ?_⟩
  have hl : 1 ≤ TreeCRF.len p lengths b ∧ TreeCRF.len p lengths b ≤ p.d1 := len_in h.words h.lens b hb
  have key : ∀ n i, 1 ≤ n → i + n ≤ p.d1 → ∃ t : Trees p.d3 n, ∀ k l (a : Fin p.d3), (k, l, a) ∈ t.1.spans i → ¬ F b k l a := by
    intro n
    induction n with
    | zero => intro i h; omega
    | succ n ih =>
      intro i _ hi
      obtain ⟨a0, ha0⟩ := hlab i (by omega) i (by omega)
      by_cases hn : n = 0
      · subst hn
        refine ⟨⟨.leaf a0, rfl⟩, fun k l a hm => ?_⟩
        simp only [LTree.spans, List.mem_singleton, Prod.mk.injEq] at hm
        obtain ⟨rfl, rfl, rfl⟩ := hm
        exact ha0
      · obtain ⟨t, ht⟩ := ih (i + 1) (by omega) (by omega)
        obtain ⟨a1, ha1⟩ := hlab i (by omega) (i + n) (by omega)
        refine ⟨⟨.node a1 (.leaf a0) t.1, by simp only [LTree.size, t.2]; omega⟩, fun k l a hm => ?_⟩
        simp only [LTree.spans, LTree.size, t.2, List.mem_cons, List.mem_append, Prod.mk.injEq, List.not_mem_nil, or_false] at hm
        rcases hm with ⟨rfl, rfl, rfl⟩ | ⟨rfl, rfl, rfl⟩ | hm
        · have e : k + 1 + n - 1 = k + n := by omega
          rw [e]; exact ha1
        · exact ha0
        · exact ht k l a hm
  have hn : μ [b, i, j, (a : ℕ)] ≠ IEEE.nan := by
    obtain ⟨a0, ha0⟩ := hlab i hi j hj
    rcases Nat.lt_or_ge j i with hij | hij
    · rw [ne_eq, (h5 b hb i j hj a).2.1 hij]
      exact fun h0 => ha0 (h0 a0)
    · rw [ne_eq, (h5 b hb i j hj a).1 hij]
      rintro (h0 | ⟨i', j', a1, a2, a3, a4, a5⟩)
      · exact ha0 (h0 a0)
      · obtain ⟨t, ht⟩ := key (j' - i' + 1) i' (by omega) (by omega)
        exact a5 ⟨t, fun k l a hm _ => ht k l a hm⟩
  refine (h5 b hb i j hj a).2.2 hn ?_
  obtain ⟨t, ht⟩ := key (TreeCRF.len p lengths b) 0 hl.1 (by omega)
  exact ⟨t, fun k l a hm => ht k l a hm⟩

/-- **C113, finite potentials.** With finite potentials the backward pass computes `marginals` as modelled with exact derivatives (C25, C47). -/
theorem finite (p : T4 ℝ) (lengths : Option (List ℕ)) (h : TreeCRF.Valid p lengths) :
    ∃ μ ν, TreeBackward.marginals Slope.plain ⟨p.d0, p.d1, p.d2, p.d3, fun b i j a => (p.get b i j a : EReal)⟩ lengths = .ok μ ∧
      Dist.marginals CKYCRF.algo p lengths = .ok ν ∧
      ∀ b < p.d0, ∀ i < p.d1, ∀ j < p.d1, ∀ a < p.d3, μ [b, i, j, a] = IEEE.ofReal (ν [b, i, j, a]) := by
  obtain ⟨μ, h1, h2⟩ := label_everywhere p lengths h fun _ _ _ _ => False
  obtain ⟨ν, h3, h4⟩ := TreeCRF.marginals_spec p lengths h
  have e : forbid4 p (fun _ _ _ _ => False) = ⟨p.d0, p.d1, p.d2, p.d3, fun b i j a => (p.get b i j a : EReal)⟩ := by
    rw [forbid4]; simp
  rw [e] at h1
  refine ⟨μ, ν, h1, h3, fun b hb i hi j hj a ha => ?_⟩
  have hl : 1 ≤ TreeCRF.len p lengths b ∧ TreeCRF.len p lengths b ≤ p.d1 := len_in h.words h.lens b hb
  have k := h2 b hb (fun _ _ _ _ => ⟨⟨0, h.labels⟩, not_false⟩) i hi j hj ⟨a, ha⟩
  have k' := h4 b hb i j ⟨a, ha⟩
  simp only at k k'
  rw [k, k']
  congr 1
  obtain ⟨t⟩ := nonempty_trees h.labels hl.1
  have : Nonempty (Trees p.d3 (TreeCRF.len p lengths b)) := ⟨t⟩
  have hav : ∀ t : Trees p.d3 (TreeCRF.len p lengths b), TreeAvoids (fun _ _ _ => False) t := fun t i j a hm hf => hf
  have e1 : Gibbs.probOf (treeScore (TreeCRF.row p b) : Trees p.d3 (TreeCRF.len p lengths b) → ℝ) (TreeAvoids fun _ _ _ => False) = 1 := by
    rw [Gibbs.probOf, ← Gibbs.sum_prob (treeScore (TreeCRF.row p b) : Trees p.d3 (TreeCRF.len p lengths b) → ℝ)]
    exact sum_congr rfl fun t _ => if_pos (hav t)
  have e2 : Gibbs.condProb (treeScore (TreeCRF.row p b) : Trees p.d3 (TreeCRF.len p lengths b) → ℝ) (TreeAvoids fun _ _ _ => False)
      (fun t => (i, j, (⟨a, ha⟩ : Fin p.d3)) ∈ t.1.spans 0) =
      ∑ t : Trees p.d3 (TreeCRF.len p lengths b), if (i, j, (⟨a, ha⟩ : Fin p.d3)) ∈ t.1.spans 0 then Gibbs.prob (treeScore (TreeCRF.row p b)) t else 0 := by
    rw [Gibbs.condProb, e1, div_one, Gibbs.probOf]
    refine sum_congr rfl fun t _ => ?_
    by_cases h0 : (i, j, (⟨a, ha⟩ : Fin p.d3)) ∈ t.1.spans 0 <;> simp [h0, hav t]
  rw [e2]
  split_ifs with hc
  · rfl
  · symm
    refine sum_eq_zero fun t _ => if_neg fun hm => hc ?_
    have k1 := spans_mem t.1 0 _ hm
    have k3 := t.2
    simp only at k1
    omega

/-! The hypotheses are met: the sample, whose second row has two words and one word of padding. -/

/-- With `-inf` in the padding, the marginal of the first word of the second row is NaN. -/
example : ∃ μ, TreeBackward.marginals Slope.plain (forbid4 TreeCRF.sample fun b _ j _ => b = 1 ∧ 2 ≤ j) (some [3, 2]) = .ok μ ∧ μ [1, 0, 0, 0] = IEEE.nan := by
  obtain ⟨_, _, μ, -, -, h1, h2⟩ := padding_nan TreeCRF.sample _ TreeCRF.sample_valid fun b _ j _ => b = 1 ∧ 2 ≤ j
  have hn : TreeCRF.len TreeCRF.sample (some [3, 2]) 1 = 2 := rfl
  have := (h2 1 (by decide) (by rw [hn]; decide) (fun _ _ _ h => by rw [hn]; exact h.2) (fun _ => by rw [hn]; exact ⟨rfl, le_rfl⟩)).2 0 0 le_rfl (by rw [hn]; decide)
    ⟨0, by decide⟩
  exact ⟨μ, h1, this⟩

/-- With `-inf` below the diagonal, where there are no spans, the marginals there are NaN. -/
example : ∃ μ, TreeBackward.marginals Slope.plain (forbid4 TreeCRF.sample fun _ i j _ => j < i) (some [3, 2]) = .ok μ ∧ μ [0, 2, 1, 0] = IEEE.nan := by
  obtain ⟨μ, h1, h2⟩ := plain_spec TreeCRF.sample _ TreeCRF.sample_valid fun _ i j _ => j < i
  exact ⟨μ, h1, ((h2 0 (by decide) 2 1 (by decide) ⟨0, by decide⟩).2.1 (by decide)).2 fun _ => by decide⟩

/-- With the span of the first two words of the three-word row forbidden, the span of the last two has marginal 1 in total: here its label 0 has a real
value, the conditional probability. -/
example : ∃ μ, TreeBackward.marginals Slope.plain (forbid4 TreeCRF.sample fun _ i j _ => i = 0 ∧ j = 1) (some [3, 2]) = .ok μ ∧ ∃ v : ℝ, μ [0, 1, 2, 0] = IEEE.ofReal v := by
  obtain ⟨μ, h1, h2⟩ := plain_spec TreeCRF.sample _ TreeCRF.sample_valid fun _ i j _ => i = 0 ∧ j = 1
  have k := h2 0 (by decide) 1 2 (by decide) ⟨0, by decide⟩
  have ht : ∃ t : Trees TreeCRF.sample.d3 3, ∀ i j a, (i, j, a) ∈ t.1.spans 0 → ¬ (i = 0 ∧ j = 1) := by
    refine ⟨⟨.node ⟨0, by decide⟩ (.leaf ⟨0, by decide⟩) (.node ⟨0, by decide⟩ (.leaf ⟨0, by decide⟩) (.leaf ⟨0, by decide⟩)), rfl⟩, ?_⟩
    rintro i j a hm ⟨rfl, rfl⟩
    simp [LTree.spans, LTree.size] at hm
  have hn : μ [0, 1, 2, 0] ≠ IEEE.nan := by
    refine fun h0 => ?_
    rcases (k.1 (by decide)).1 h0 with h | ⟨i', j', a1, a2, a3, a4, a5⟩
    · exact absurd (h ⟨0, by decide⟩) (by decide)
    · have a3 : j' < 3 := a3
      simp only [ne_eq, Prod.mk.injEq] at a4
      obtain rfl : j' = 2 := by omega
      obtain rfl : i' = 0 := by omega
      obtain ⟨t, ht⟩ := ht
      exact a5 ⟨t, fun k l a hm _ => ht k l a hm⟩
  exact ⟨μ, h1, _, k.2.2 hn (by obtain ⟨t, ht⟩ := ht; exact ⟨t, ht⟩)⟩

/-- Forbidding `0 … 1` and `1 … 2` in a sentence of four words leaves a tree, but the words inside `0 … 2` are blocked. -/
example : Blocked 4 1 (fun i j _ => (i = 0 ∧ j = 1) ∨ (i = 1 ∧ j = 2)) 0 0 ∧
    ∃ t : Trees 1 4, TreeAvoids (fun i j _ => (i = 0 ∧ j = 1) ∨ (i = 1 ∧ j = 2)) t := by
  constructor
  · refine ⟨0, 2, le_rfl, by decide, by decide, by decide, ?_⟩
    rintro ⟨⟨t, hs⟩, ht⟩
    cases t with
    | leaf a => simp [LTree.size] at hs
    | node a l r =>
      simp only [LTree.size] at hs
      have hl := l.size_pos
      have hr := r.size_pos
      have hroot : ∀ (t : LTree 1) (i : ℕ), ∃ a, (i, i + t.size - 1, a) ∈ t.spans i := by
        intro t i
        cases t with
        | leaf a => exact ⟨a, by simp [LTree.spans, LTree.size]⟩
        | node a l r => exact ⟨a, by simp [LTree.spans, LTree.size, add_assoc]⟩
      by_cases h : l.size = 2
      · obtain ⟨a', ha⟩ := hroot l 0
        rw [h] at ha
        exact ht 0 1 a' (by simp only [LTree.spans, List.mem_cons, List.mem_append]; exact Or.inr (Or.inl ha)) (by decide) (Or.inl ⟨rfl, rfl⟩)
      · have h1 : l.size = 1 := by omega
        have h2 : r.size = 2 := by omega
        obtain ⟨a', ha⟩ := hroot r 1
        rw [h2] at ha
        exact ht 1 2 a' (by simp only [LTree.spans, List.mem_cons, List.mem_append, h1]; exact Or.inr (Or.inr ha)) (by decide) (Or.inr ⟨rfl, rfl⟩)
  · refine ⟨⟨.node 0 (.leaf 0) (.node 0 (.leaf 0) (.node 0 (.leaf 0) (.leaf 0))), rfl⟩, ?_⟩
    rintro i j a hm h
    simp [LTree.spans, LTree.size] at hm
    omega

end Props.TreeInfinity
