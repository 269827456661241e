import Verif.Proofs.ArcLabels

/-! Property theorems C108: given the brackets of its tree, the labels of a `TreeCRF` are independent of each other, each with the softmax of the potentials of its span;
and the brackets are distributed as in the `TreeCRF` with one label over the log-sum-exp of the labels. -/

open Finset Spec CKYCRF TreeLabels Props.TreeCRF

noncomputable section
namespace Props.TreeLabels

/-- What the table over the log-sum-exp of the labels is: the same rows, words, and lengths; still valid. -/
theorem lse_valid {p : T4 ℝ} {lengths : Option (List ℕ)} (h : TreeCRF.Valid p lengths) : TreeCRF.Valid (lseLabels p) lengths :=
  ⟨h.square, h.words, Nat.le_refl 1, h.lens⟩

/-- **C108.** In any commutative semiring, the labels can be summed out before the dynamic program. -/
theorem any_semiring {R : Type} [CommSemiring R] (p : T4 R) (lengths : Option (List ℕ)) (h : TreeCRF.Valid p lengths) :
    logpartition (Semirings.std R) p lengths = logpartition (Semirings.std R) (sumLabels p) lengths := by
  rw [sum_any_semiring p lengths h, sum_any_semiring (sumLabels p) lengths ⟨h.square, h.words, Nat.le_refl 1, h.lens⟩]
  congr 1
  refine List.map_congr_left fun b _ => ?_
  exact sum_trees (row p b) _

/-- **C108.** The partition is that of the table over the log-sum-exp of the labels. -/
theorem partition (p : T4 ℝ) (lengths : Option (List ℕ)) (h : TreeCRF.Valid p lengths) :
    Dist.partition algo p lengths = Dist.partition algo (lseLabels p) lengths := by
  rw [partition_spec p lengths h, partition_spec _ lengths (lse_valid h)]
  congr 1
  refine List.map_congr_left fun b _ => ?_
  exact congrArg Real.log (Z_eq h.labels (row p b) _)

/-- **C108.** The max is that of the table with the best label of every span. -/
theorem max (p p' : T4 ℝ) (hp : IsMaxLabels p p') (lengths : Option (List ℕ)) (h : TreeCRF.Valid p lengths) :
    Dist.max algo p lengths = Dist.max algo p' lengths := by
  obtain ⟨d0, d1, d2, d3, g⟩ := p'
  obtain ⟨rfl, rfl, rfl, rfl, ha, hb⟩ := hp
  obtain ⟨vs, h1, h2, h3⟩ := max_spec p lengths h
  obtain ⟨vs', h1', h2', h3'⟩ := max_spec ⟨p.d0, p.d1, p.d2, 1, g⟩ lengths ⟨h.square, h.words, Nat.le_refl 1, h.lens⟩
  rw [h1, h1']
  congr 1
  refine List.ext_getElem (h2.trans h2'.symm) fun b hb1 hb2 => ?_
  obtain ⟨⟨t, ht⟩, hle⟩ := h3 b hb1
  obtain ⟨⟨u, hu⟩, hle'⟩ := h3' b hb2
  refine le_antisymm ?_ ?_
  · rw [ht]
    refine le_trans ?_ (hle' (strip t))
    rw [treeScore, treeScore]
    change _ ≤ ((t.1.brackets.spans 0).map _).sum
    rw [brackets_spans, List.map_map]
    exact List.sum_le_sum fun x _ => hb b x.1 x.2.1 x.2.2
  · rw [hu]
    -- the tree with the best labels
    let best : ∀ s : ℕ, LTree 1 → LTree p.d3 := fun s u => LTree.rec (motive := fun _ => ℕ → LTree p.d3)
      (fun _ s => .leaf (ha b s s).choose) (fun _ l r f g s => .node (ha b s (s + l.size + r.size - 1)).choose (f s) (g (s + l.size))) u s
    have hsize : ∀ (u : LTree 1) (s : ℕ), (best s u).size = u.size := by
      intro u
      induction u with
      | leaf a => intro s; rfl
      | node a l r ihl ihr => intro s; exact congrArg₂ (· + ·) (ihl s) (ihr _)
    have hscore : ∀ (u : LTree 1) (s : ℕ), (((best s u).spans s).map fun x => p.get b x.1 x.2.1 x.2.2).sum = ((u.spans s).map fun x => g b x.1 x.2.1 0).sum := by
      intro u
      induction u with
      | leaf a => intro s; simpa [best, LTree.spans] using (ha b s s).choose_spec.symm
      | node a l r ihl ihr =>
        intro s
        change (((LTree.node (ha b s (s + l.size + r.size - 1)).choose (best s l) (best (s + l.size) r)).spans s).map _).sum = _
        rw [LTree.spans, LTree.spans, hsize, hsize, List.map_cons, List.map_cons, List.map_append, List.map_append, List.sum_cons, List.sum_cons, List.sum_append,
          List.sum_append, ihl, ihr]
        congr 1
        exact (ha b s (s + l.size + r.size - 1)).choose_spec.symm
    refine le_trans (le_of_eq ?_) (hle ⟨best 0 u.1, (hsize u.1 0).trans u.2⟩)
    rw [treeScore, treeScore]
    refine Eq.trans ?_ (hscore u.1 0).symm
    congr 1
    refine List.map_congr_left fun x _ => ?_
    have : (x.2.2 : ℕ) = 0 := Nat.lt_one_iff.1 x.2.2.2
    simp only [row, this]

/-- **C108.** The marginal of a labelled span is the marginal of the span in the table over the log-sum-exp of the labels times the softmax of the potentials of the
span: where the span is and what the other labels are does not matter. -/
theorem marginals (p : T4 ℝ) (lengths : Option (List ℕ)) (h : TreeCRF.Valid p lengths) : ∃ μ μ', Dist.marginals algo p lengths = .ok μ ∧
    Dist.marginals algo (lseLabels p) lengths = .ok μ' ∧
    ∀ b < p.d0, ∀ i j (a : Fin p.d3), μ [b, i, j, (a : ℕ)] = μ' [b, i, j, 0] * softmaxLabel (p.get b i j) a := by
  obtain ⟨μ, h1, h2⟩ := marginals_spec p lengths h
  obtain ⟨μ', h1', h2'⟩ := marginals_spec (lseLabels p) lengths (lse_valid h)
  refine ⟨μ, μ', h1, h1', fun b hb i j a => ?_⟩
  rw [h2 b hb]
  refine (spanProb_eq h.labels (row p b) _ i j a).trans ?_
  have := h2' b hb i j (0 : Fin 1)
  rw [show μ' [b, i, j, 0] = _ from this]
  rfl

/-- **C108.** The label of the whole sentence has the softmax of its potentials, whatever the other potentials are. -/
theorem root_label (p : T4 ℝ) (lengths : Option (List ℕ)) (h : TreeCRF.Valid p lengths) : ∃ μ, Dist.marginals algo p lengths = .ok μ ∧
    ∀ b < p.d0, ∀ a : Fin p.d3, μ [b, 0, len p lengths b - 1, (a : ℕ)] = softmaxLabel (p.get b 0 (len p lengths b - 1)) a := by
  obtain ⟨μ, h1, h2⟩ := marginals_spec p lengths h
  refine ⟨μ, h1, fun b hb a => ?_⟩
  have hl := CKYCRFProofs.len_in h.words h.lens b hb
  rw [h2 b hb, spanProb_eq h.labels, ← sum_spanProb h.labels]
  have := root_marginal (NT := p.d3) h.labels (row p b) (len p lengths b) hl.1
  rw [this, one_mul]
  rfl

/-- **C108.** The probability of a labelled tree is the probability of its brackets (over the log-sum-exp of the labels) times the softmax probability of each of its
labels: given the brackets, the labels are independent. -/
theorem tree_prob (p : T4 ℝ) (lengths : Option (List ℕ)) (h : TreeCRF.Valid p lengths) (b : ℕ) (t : Trees p.d3 (len p lengths b)) :
    Gibbs.prob (treeScore (row p b)) t = Gibbs.prob (treeScore (row (lseLabels p) b)) (strip t) *
      ((t.1.spans 0).map fun x => softmaxLabel (p.get b x.1 x.2.1) x.2.2).prod :=
  prob_eq h.labels (row p b) t

theorem spans_nodup {NT L : ℕ} (t : Trees NT L) : (t.1.spans 0).Nodup := by
  have := CKYCRFProofs.treeParts_nodup 0 t
  rw [CKYCRFProofs.treeParts, Multiset.coe_nodup] at this
  exact List.Nodup.of_map _ this

theorem expect_score {NT L : ℕ} (φ ψ : ℕ → ℕ → ℕ → ℝ) : Gibbs.expect (treeScore φ : Trees NT L → ℝ) (treeScore ψ) =
    ∑ i ∈ range L, ∑ j ∈ range L, ∑ a : Fin NT, spanProb φ L i j a * ψ i j a := by
  have e : ∀ t : Trees NT L, treeScore ψ t = ∑ i ∈ range L, ∑ j ∈ range L, ∑ a : Fin NT, if (i, j, a) ∈ t.1.spans 0 then ψ i j a else 0 := by
    intro t
    have h1 : treeScore ψ t = ∑ x ∈ (t.1.spans 0).toFinset, ψ x.1 x.2.1 x.2.2 := by
      rw [treeScore, List.sum_toFinset _ (spans_nodup t)]
    have h2 : (t.1.spans 0).toFinset = ((range L ×ˢ (range L ×ˢ univ)).filter fun x => x ∈ t.1.spans 0) := by
      ext x
      simp only [List.mem_toFinset, mem_filter, mem_product, mem_range, mem_univ, and_true]
      refine ⟨fun h => ⟨?_, h⟩, fun h => h.2⟩
      have := spans_bounds t.1 0 x h
      rw [t.2] at this
      omega
    rw [h1, h2, sum_filter, sum_product]
    refine sum_congr rfl fun i _ => ?_
    rw [sum_product]
  rw [Gibbs.expect]
  simp only [e, spanProb, mul_sum, sum_mul]
  rw [sum_comm]
  refine sum_congr rfl fun i _ => ?_
  rw [sum_comm]
  refine sum_congr rfl fun j _ => ?_
  rw [sum_comm]
  refine sum_congr rfl fun a _ => sum_congr rfl fun t _ => ?_
  split_ifs <;> simp

theorem entropy_softmax {n : ℕ} (hn : 0 < n) (s : ℕ → ℝ) : labelEntropy n s = Real.log (∑ c : Fin n, Real.exp (s c)) - ∑ c : Fin n, softmaxLabel s c * s c := by
  have hp := sum_exp_pos hn s
  have e : ∀ c : Fin n, softmaxLabel s c * Real.log (softmaxLabel s c) = softmaxLabel s c * s c - softmaxLabel s c * Real.log (∑ c : Fin n, Real.exp (s c)) := by
    intro c
    rw [softmaxLabel, Real.log_div (Real.exp_pos _).ne' hp.ne', Real.log_exp]
    ring
  rw [labelEntropy, sum_congr rfl fun c _ => e c, sum_sub_distrib, ← sum_mul, sum_softmax hn]
  ring

/-- **C108.** The chain rule for `entropy`: the entropy of the brackets plus, for every span, its marginal times the entropy of its label. -/
theorem entropy (p : T4 ℝ) (lengths : Option (List ℕ)) (h : TreeCRF.Valid p lengths) : ∃ hs hs' μ', Dist.entropy algo p lengths = .ok hs ∧
    Dist.entropy algo (lseLabels p) lengths = .ok hs' ∧ Dist.marginals algo (lseLabels p) lengths = .ok μ' ∧ hs.length = p.d0 ∧ hs'.length = p.d0 ∧
    ∀ b < p.d0, hs.getD b 0 = hs'.getD b 0 +
      ∑ i ∈ range (len p lengths b), ∑ j ∈ range (len p lengths b), μ' [b, i, j, 0] * labelEntropy p.d3 (p.get b i j) := by
  obtain ⟨μ', h1', h2'⟩ := marginals_spec (lseLabels p) lengths (lse_valid h)
  refine ⟨_, _, μ', entropy_spec p lengths h, entropy_spec _ lengths (lse_valid h), h1', by simp, by simp [lseLabels], fun b hb => ?_⟩
  have hl := CKYCRFProofs.len_in h.words h.lens b hb
  have hlen : len (lseLabels p) lengths b = len p lengths b := rfl
  have hb' : b < (lseLabels p).d0 := hb
  rw [List.getD_eq_getElem _ _ (by simpa using hb), List.getD_eq_getElem _ _ (by simpa using hb'), List.getElem_map, List.getElem_map, List.getElem_range,
    List.getElem_range, hlen]
  have : Nonempty (Trees p.d3 (len p lengths b)) := CKYCRFProofs.nonempty_trees h.labels hl.1
  have : Nonempty (Trees (lseLabels p).d3 (len p lengths b)) := CKYCRFProofs.nonempty_trees (Nat.le_refl 1) hl.1
  rw [Gibbs.entropy_eq, Gibbs.entropy_eq, expect_score, expect_score]
  have hZ : Gibbs.Z (treeScore (row p b) : Trees p.d3 (len p lengths b) → ℝ) =
    Gibbs.Z (treeScore (row (lseLabels p) b) : Trees (lseLabels p).d3 (len p lengths b) → ℝ) := Z_eq h.labels (row p b) _
  rw [hZ, sub_add, sub_right_inj, ← sum_sub_distrib]
  refine sum_congr rfl fun i _ => ?_
  rw [← sum_sub_distrib]
  refine sum_congr rfl fun j _ => ?_
  have hμ : μ' [b, i, j, 0] = spanProb (NT := 1) (row (lseLabels p) b) (len p lengths b) i j 0 := h2' b hb' i j (0 : Fin 1)
  have hone : ∑ a : Fin (lseLabels p).d3, spanProb (row (lseLabels p) b) (len p lengths b) i j a * row (lseLabels p) b i j a =
      μ' [b, i, j, 0] * Real.log (∑ c : Fin p.d3, Real.exp (p.get b i j c)) := by
    rw [hμ]
    exact Fin.sum_univ_one _
  rw [hone, entropy_softmax h.labels]
  have : ∀ a : Fin p.d3, spanProb (row p b) (len p lengths b) i j a * row p b i j a = μ' [b, i, j, 0] * (softmaxLabel (p.get b i j) a * p.get b i j a) := by
    intro a
    rw [spanProb_eq h.labels, hμ]
    change _ * _ * _ = _
    rw [mul_assoc]
    rfl
  rw [sum_congr rfl fun a _ => this a, ← mul_sum]
  ring

/-! ### Labelled dependency trees -/

theorem lse_get (q : DepTree.Arcs ℝ) (b i j : ℕ) : Dependency.row (CrossModel.lseLabels q) b i j = Real.log (∑ l : Fin q.d3, Real.exp (q.get b i j l)) := by
  change Real.log _ = _
  rw [List.map_map, Fin.sum_univ_eq_sum_range (fun l => Real.exp (q.get b i j l))]
  rfl

/-- **C108.** The marginal of a labelled arc is the marginal of the arc in the table over the log-sum-exp of the labels times the softmax of the potentials of the
labels of the arc. -/
theorem arc_marginals (mr : Bool) (q : DepTree.Arcs ℝ) (lengths : Option (List ℕ)) (h : LabelledDependency.Valid mr q lengths) :
    ∃ μ μ', DepTree.marginals mr q lengths = .ok μ ∧ DepTree.marginals mr (CrossModel.lseLabels q) lengths = .ok μ' ∧
      ∀ b < q.d0, ∀ i j (l : Fin q.d3), μ [b, i, j, (l : ℕ)] = μ' [b, i, j] * softmaxLabel (q.get b i j) l := by
  obtain ⟨μ, μ', h1, h1', h2⟩ := CrossModel.labels_marginals mr q lengths h
  obtain ⟨ν, h3, h4⟩ := LabelledDependency.marginals_spec mr q lengths h
  obtain rfl : μ = ν := Except.ok.inj (h1.symm.trans h3)
  refine ⟨μ, μ', h1, h1', fun b hb i j l => ?_⟩
  rw [← h2 b hb, sum_congr rfl fun l _ => h4 b hb i j l, h4 b hb]
  exact ArcLabels.arcProb_eq h.labels _ i j l

/-- **C108.** The chain rule for the entropy of labelled dependency trees: the entropy of the trees plus, for every arc, its marginal times the entropy of its label. -/
theorem arc_entropy (mr : Bool) (q : DepTree.Arcs ℝ) (lengths : Option (List ℕ)) (h : LabelledDependency.Valid mr q lengths) :
    ∃ hs hs' μ', DepTree.entropy mr q lengths = .ok hs ∧ DepTree.entropy mr (CrossModel.lseLabels q) lengths = .ok hs' ∧
      DepTree.marginals mr (CrossModel.lseLabels q) lengths = .ok μ' ∧ hs.length = q.d0 ∧ hs'.length = q.d0 ∧
      ∀ b < q.d0, hs.getD b 0 = hs'.getD b 0 + ∑ i ∈ range (LabelledDependency.len q lengths b), ∑ j ∈ range (LabelledDependency.len q lengths b),
        μ' [b, i, j] * labelEntropy q.d3 (q.get b i j) := by
  obtain ⟨μ, μ', h1, h1', h2⟩ := arc_marginals mr q lengths h
  have hv := CrossModel.combine_valid (fun l => Real.log (l.map Real.exp).sum) h
  obtain ⟨ν, h3, h4⟩ := LabelledDependency.marginals_spec mr q lengths h
  obtain rfl : μ = ν := Except.ok.inj (h1.symm.trans h3)
  obtain ⟨ν', h3', h4'⟩ := Dependency.marginals_spec mr (CrossModel.lseLabels q) lengths hv
  obtain rfl : μ' = ν' := Except.ok.inj (h1'.symm.trans h3')
  refine ⟨_, _, μ', LabelledDependency.entropy_spec mr q lengths h, Dependency.entropy_spec mr _ lengths hv, h1', by simp, by simp [CrossModel.lseLabels, CrossModel.combine],
    fun b hb => ?_⟩
  have hb' : b < (CrossModel.lseLabels q).d0 := hb
  rw [List.getD_eq_getElem _ _ (by simpa using hb), List.getD_eq_getElem _ _ (by simpa using hb'), List.getElem_map, List.getElem_map, List.getElem_range,
    List.getElem_range]
  have hlen : Dependency.len (CrossModel.lseLabels q) lengths b = LabelledDependency.len q lengths b := rfl
  rw [hlen]
  have hn := LabelledDependency.trees_nonempty h b hb
  have : Nonempty (ProjTrees mr (LabelledDependency.len q lengths b)) := ⟨hn.some.1⟩
  rw [Gibbs.entropy_eq, Gibbs.entropy_eq, ArcLabels.expect_lab, ArcLabels.expect_dep, CrossModel.Z_labels h, sub_add, sub_right_inj, ← sum_sub_distrib]
  refine sum_congr rfl fun i _ => ?_
  rw [← sum_sub_distrib]
  refine sum_congr rfl fun j _ => ?_
  rw [lse_get, ← hlen, ← h4' b hb', entropy_softmax h.labels]
  have e : ∀ l : Fin q.d3, LabelledDependency.arcProb mr q.d3 (LabelledDependency.row q b) (LabelledDependency.len q lengths b) i j l * LabelledDependency.row q b i j l =
      μ' [b, i, j] * (softmaxLabel (q.get b i j) l * q.get b i j l) := by
    intro l
    rw [← h4 b hb, h2 b hb, mul_assoc]
    rfl
  rw [hlen, sum_congr rfl fun l _ => e l, ← mul_sum]
  ring

/-- The hypotheses are met: two rows of lengths 3 and 2 with two labels. -/
example := partition TreeCRF.sample (some [3, 2]) TreeCRF.sample_valid
example := arc_marginals true LabelledDependency.sample (some [3, 2]) (LabelledDependency.sample_valid true)
example := entropy TreeCRF.sample (some [3, 2]) TreeCRF.sample_valid

end Props.TreeLabels
