import Verif.Proofs.Reweight
import Verif.Props.Raise

/-! Property theorems C141: moving the potential of one part.  The odds of the part are multiplied by `exp δ`, and `partition` moves by the logarithm of
`1 - m + m exp δ`, where `m` is the marginal of the part. -/

open Finset Spec Generic

noncomputable section
namespace Props.Reweight
open Props.Raise Props.Likelihood

/-- **C141, `TreeCRF`.** -/
theorem tree_reweight (p : T4 ℝ) (lengths : Option (List ℕ)) (h : TreeCRF.Valid p lengths) (b i j a : ℕ) (hb : b < p.d0) (δ : ℝ) :
    ∃ μ ν z z', Dist.marginals CKYCRF.algo p lengths = .ok μ ∧ Dist.marginals CKYCRF.algo { p with get := raised p.get b i j a δ } lengths = .ok ν ∧
      rowValue (Dist.partition CKYCRF.algo p lengths) b = some z ∧ rowValue (Dist.partition CKYCRF.algo { p with get := raised p.get b i j a δ } lengths) b = some z' ∧
      Reweighted δ z z' (μ [b, i, j, a]) (ν [b, i, j, a]) := by
  have D' := CKYCRFProofs.batchDP { p with get := raised p.get b i j a δ } lengths ⟨h.square, h.words, h.labels, h.lens⟩
  refine (CKYCRFProofs.batchDP p lengths h).reweight D' b hb [b, i, j, a] rfl δ ?_ (fun y => y.elim)
    (fun y => Multiset.nodup_iff_count_le_one.1 (CKYCRFProofs.treeParts_nodup b y) _) fun y => y.elim
  rintro e ⟨i', j', a', rfl, -⟩
  by_cases hc : i' = i ∧ j' = j ∧ a' = a
  · obtain ⟨rfl, rfl, rfl⟩ := hc
    simp [CKYCRFProofs.at4, raised]
  · simp [CKYCRFProofs.at4, raised, hc]

/-- **C141, `SemiMarkovCRF`**, for the steps of the row. -/
theorem semimarkov_reweight (p : T5 ℝ) (lengths : Option (List ℕ)) (h : SemiMarkov.Valid p lengths) (b n k i j : ℕ) (hb : b < p.d0) (hn : n < SemiMarkov.steps p lengths b)
    (δ : ℝ) : ∃ μ ν z z', Dist.marginals _root_.SemiMarkov.algo p lengths = .ok μ ∧
      Dist.marginals _root_.SemiMarkov.algo { p with get := raised5 p.get b n k i j δ } lengths = .ok ν ∧
      rowValue (Dist.partition _root_.SemiMarkov.algo p lengths) b = some z ∧
      rowValue (Dist.partition _root_.SemiMarkov.algo { p with get := raised5 p.get b n k i j δ } lengths) b = some z' ∧
      Reweighted δ z z' (μ [b, n, k, i, j]) (ν [b, n, k, i, j]) := by
  have hK := SemiMarkov.hK h
  have D' : BatchDP _root_.SemiMarkov.algo { p with get := raised5 p.get b n k i j δ } lengths p.d0 (SemiMarkovProofs.at5 { p with get := raised5 p.get b n k i j δ })
      (SemiMarkovProofs.Entry p lengths) (ι := fun b => Segmentation p.d2 p.d3 (SemiMarkovProofs.steps p lengths b)) (π := SemiMarkovProofs.Ph p lengths hK)
      (fun b => SemiMarkovProofs.segParts b) (fun _ y => 2 ^ Nat.clog 2 p.d1 - y.2.1.length) (fun _ => AtomChain.Phantom.atoms) :=
    SemiMarkovProofs.batchDP { p with get := raised5 p.get b n k i j δ } lengths ⟨h.rows, h.square, h.classes, h.positions, h.segs, h.lens⟩ hK
  refine (SemiMarkovProofs.batchDP p lengths h hK).reweight D' b hb [b, n, k, i, j] rfl δ ?_ (fun y hy => ?_)
    (fun y => Multiset.nodup_iff_count_le_one.1 (SemiMarkovProofs.segParts_nodup b y) _)
    fun y => Multiset.nodup_iff_count_le_one.1 (SemiMarkov.links_nodup p lengths h b y) _
  · rintro e ⟨n', k', c1, c2, rfl, -⟩
    by_cases hc : n' = n ∧ k' = k ∧ (c1 : ℕ) = i ∧ (c2 : ℕ) = j
    · obtain ⟨rfl, rfl, rfl, rfl⟩ := hc
      simp [SemiMarkovProofs.at5, SemiMarkovProofs.entry, raised5]
    · simp [SemiMarkovProofs.at5, SemiMarkovProofs.entry, raised5, hc]
  · unfold AtomChain.Phantom.atoms AtomChain.Path.atoms at hy
    obtain ⟨m, -, h1⟩ := Multiset.mem_map.1 hy
    exact Gradient.not_masked _ _ _ _ _ _ _ _ _ _ _ _ hn (h1 ▸ y.1.atom_mem m)

open GradientChain in
/-- **C141, `LinearChainCRF`**, for the edges of the row. -/
theorem chain_reweight (p : T4 ℝ) (lengths : Option (List ℕ)) (h : LinearChain.Valid p lengths) (b n i j : ℕ) (hb : b < p.d0) (hn : n < LinearChain.numEdges p lengths b)
    (hi : i < p.d2) (hj : j < p.d3) (δ : ℝ) :
    ∃ μ ν z z', Dist.marginals _root_.LinearChain.algo p lengths = .ok μ ∧ Dist.marginals _root_.LinearChain.algo { p with get := raised p.get b n i j δ } lengths = .ok ν ∧
      rowValue (Dist.partition _root_.LinearChain.algo p lengths) b = some z ∧
      rowValue (Dist.partition _root_.LinearChain.algo { p with get := raised p.get b n i j δ } lengths) b = some z' ∧
      Reweighted δ z z' (μ [b, n, i, j]) (ν [b, n, i, j]) := by
  have : Nonempty (Fin p.d2) := ⟨⟨0, h.classes⟩⟩
  have hj' : j < p.d2 := by have := h.square; omega
  have hg : ({ p with get := raised p.get b n i j δ } : T4 ℝ) = nudge p b n i j δ := by
    unfold nudge
    congr 1
    funext b' n' i' j'
    by_cases hc : b' = b ∧ n' = n ∧ i' = i ∧ j' = j <;> simp [raised, hc]
  rw [hg]
  obtain ⟨μ, m1, m2⟩ := marginals_stand p lengths h
  obtain ⟨ν, n1, n2⟩ := marginals_stand (nudge p b n i j δ) lengths (nudge_valid h b n i j δ)
  refine ⟨μ, ν, _, _, m1, n1, partition_stand p lengths h b hb, partition_stand (nudge p b n i j δ) lengths (nudge_valid h b n i j δ) b hb, ?_⟩
  have e1 := m2 b hb n hn ⟨i, hi⟩ ⟨j, hj'⟩
  have e2 := n2 b hb n hn ⟨i, hi⟩ ⟨j, hj'⟩
  have ht := fun x => congrFun (nudge_stand p (LinearChain.numEdges p lengths b) b n ⟨i, hi⟩ ⟨j, hj'⟩ δ) x
  have hc : ∀ x : Tags (LinearChain.numEdges p lengths b) p.d2 × (Fin (LinearChain.numEdges p lengths b) → Bool),
      standUses (LinearChain.numEdges p lengths b) n ⟨i, hi⟩ ⟨j, hj'⟩ x = 0 ∨ standUses (LinearChain.numEdges p lengths b) n ⟨i, hi⟩ ⟨j, hj'⟩ x = 1 := fun x => by
    unfold standUses
    rw [sum_eq_single (⟨n, hn⟩ : Fin (LinearChain.numEdges p lengths b)) (fun m _ hm => if_neg fun hc => hm (Fin.ext hc.1)) (by simp)]
    split_ifs <;> simp
  obtain ⟨s1, s2⟩ := Gibbs.shift _ _ _ δ hc ht
  have s3 := Gibbs.expect_shift _ _ _ δ hc ht
  rw [← e1] at s1 s2 s3
  refine ⟨s2, ?_, e2.trans s3⟩
  rw [add_assoc]
  exact congrArg _ s1

theorem arc_reweight (mr : Bool) (q : DepTree.Arcs ℝ) (lengths : Option (List ℕ)) (h : DepTreeProofs.Valid mr q lengths) (b i j l : ℕ) (hb : b < q.d0)
    (hl : l < q.labels) (δ : ℝ) : ∃ μ ν z z', DepTree.marginals mr q lengths = .ok μ ∧ DepTree.marginals mr { q with get := raised q.get b i j l δ } lengths = .ok ν ∧
      rowValue (DepTree.partition mr q lengths) b = some z ∧ rowValue (DepTree.partition mr { q with get := raised q.get b i j l δ } lengths) b = some z' ∧
      Reweighted δ z z' (μ (DepTreeProofs.cellTag (decide q.labeled) b i j l)) (ν (DepTreeProofs.cellTag (decide q.labeled) b i j l)) := by
  have hv : ∀ q' : DepTree.Arcs ℝ, q'.rank = q.rank → q'.d1 = q.d1 → q'.d2 = q.d2 → DepTree.convert DepTree.negBig q' = .ok (DepTreeProofs.conv DepTree.negBig q') :=
    fun q' h1 h2 h3 => DepTreeProofs.convert_ok _ (by rw [h1]; exact h.rank) (by rw [h2, h3]; exact h.square)
  have hl' : ∀ l < q.labels, q.labeled ∨ l = 0 := by
    intro l hl
    rcases h.rank with h3 | h4
    · rw [DepTreeProofs.labels_one h3] at hl; right; omega
    · exact Or.inl h4
  have D' : BatchDP (DepTree.algo mr) (DepTreeProofs.conv DepTree.negBig { q with get := raised q.get b i j l δ }) lengths q.d0
      (DepTreeProofs.atQ DepTree.negBig { q with get := raised q.get b i j l δ }) (fun b => DepTreeProofs.Entry (decide q.labeled) q.labels (lenOf q.d1 lengths b) b)
      (ι := fun b => LabelledTrees mr (lenOf q.d1 lengths b) q.labels) (π := fun _ => Empty) (fun b => DepTreeProofs.labParts (decide q.labeled) b)
      (fun b _ => DepTreeProofs.onesOf mr (lenOf q.d1 lengths b)) (fun _ y => y.elim) :=
    DepTreeProofs.batchDP mr DepTree.negBig { q with get := raised q.get b i j l δ } lengths ⟨h.rank, h.square, h.labels, h.batch, h.words, h.lens⟩
  have key : ∀ e, DepTreeProofs.Entry (decide q.labeled) q.labels (lenOf q.d1 lengths b) b e → DepTreeProofs.atQ DepTree.negBig { q with get := raised q.get b i j l δ } e =
      DepTreeProofs.atQ DepTree.negBig q e + δ * if e = DepTreeProofs.cellTag (decide q.labeled) b i j l then 1 else 0 := by
    rintro e ⟨h', k, l', rfl, -, -, -, hl''⟩
    have e4 := hl' _ hl''
    have g1 := DepTreeProofs.atQ_cell DepTree.negBig q b (arcCell h' k).1 (arcCell h' k).2 l' e4
    have g2 := DepTreeProofs.atQ_cell DepTree.negBig { q with get := raised q.get b i j l δ } b (arcCell h' k).1 (arcCell h' k).2 l' e4
    refine g2.trans ?_
    rw [g1]
    change raised q.get b i j l δ b (arcCell h' k).1 (arcCell h' k).2 l' = _
    by_cases hc : (arcCell h' k).1 = i ∧ (arcCell h' k).2 = j ∧ l' = l
    · obtain ⟨rfl, rfl, rfl⟩ := hc
      simp [raised]
    · rw [raised, if_neg fun hd => hc hd.2, if_neg, mul_zero, add_zero]
      intro hd
      obtain ⟨-, c1, c2, c3⟩ := DepTreeProofs.cellTag_inj hd
      refine hc ⟨c1, c2, ?_⟩
      rcases e4 with hq | hx0
      · exact c3 (decide_eq_true hq)
      · rcases hl' _ hl with hq | hy0
        · exact c3 (decide_eq_true hq)
        · exact hx0.trans hy0.symm
  obtain ⟨μ, ν, z, z', h1, h2, h3, h4, h5⟩ := (DepTreeProofs.batchDP mr DepTree.negBig q lengths h).reweight D' b hb
    (DepTreeProofs.cellTag (decide q.labeled) b i j l) (by simp [DepTreeProofs.cellTag]) δ key (fun y => y.elim)
    (fun y => Multiset.nodup_iff_count_le_one.1 (DepTreeProofs.labParts_nodup _ b y) _) fun y => y.elim
  exact ⟨μ, ν, z, z', by rw [DepTree.marginals, hv q rfl rfl rfl]; exact h1, by rw [DepTree.marginals, hv { q with get := raised q.get b i j l δ } rfl rfl rfl]; exact h2,
      by rw [DepTree.partition, hv q rfl rfl rfl]; exact h3, by rw [DepTree.partition, hv { q with get := raised q.get b i j l δ } rfl rfl rfl]; exact h4, h5⟩

/-- **C141, `DependencyCRF`.** -/
theorem dependency_reweight (mr : Bool) (q : DepTree.Arcs ℝ) (lengths : Option (List ℕ)) (h : Dependency.Valid mr q lengths) (b i j : ℕ) (hb : b < q.d0) (δ : ℝ) :
    ∃ μ ν z z', DepTree.marginals mr q lengths = .ok μ ∧ DepTree.marginals mr { q with get := raised q.get b i j 0 δ } lengths = .ok ν ∧
      rowValue (DepTree.partition mr q lengths) b = some z ∧ rowValue (DepTree.partition mr { q with get := raised q.get b i j 0 δ } lengths) b = some z' ∧
      Reweighted δ z z' (μ [b, i, j]) (ν [b, i, j]) := by
  have := arc_reweight mr q lengths h.toValid b i j 0 hb (by rw [DepTreeProofs.labels_one h.rank]; exact one_pos) δ
  simpa [DepTreeProofs.cellTag, DepTreeProofs.not_labeled h.rank] using this

/-- **C141, `DependencyCRF` with labels.** -/
theorem labelled_reweight (mr : Bool) (q : DepTree.Arcs ℝ) (lengths : Option (List ℕ)) (h : LabelledDependency.Valid mr q lengths) (b i j l : ℕ) (hb : b < q.d0)
    (hl : l < q.labels) (δ : ℝ) : ∃ μ ν z z', DepTree.marginals mr q lengths = .ok μ ∧ DepTree.marginals mr { q with get := raised q.get b i j l δ } lengths = .ok ν ∧
      rowValue (DepTree.partition mr q lengths) b = some z ∧ rowValue (DepTree.partition mr { q with get := raised q.get b i j l δ } lengths) b = some z' ∧
      Reweighted δ z z' (μ [b, i, j, l]) (ν [b, i, j, l]) := by
  have := arc_reweight mr q lengths h.toValid b i j l hb hl δ
  simpa [DepTreeProofs.cellTag, DepTreeProofs.is_labeled h.rank] using this

/-! ### What the equations say about the marginal -/

/-- **C141.** Impossible and certain parts stay so. -/
theorem fixed {δ z z' m m' : ℝ} (h : Reweighted δ z z' m m') (hm : m = 0 ∨ m = 1) : m' = m := by
  obtain ⟨-, -, h3⟩ := h
  rcases hm with rfl | rfl
  · simp [h3]
  · rw [h3]
    simp

/-- **C141.** Any other marginal follows its potential strictly. -/
theorem follows {δ z z' m m' : ℝ} (h : Reweighted δ z z' m m') (h0 : 0 < m) (h1 : m < 1) : m < m' ↔ 0 < δ := by
  obtain ⟨hp, -, h3⟩ := h
  rw [h3, lt_div_iff₀ hp, ← Real.one_lt_exp_iff]
  have e : m * Real.exp δ - m * (1 - m + m * Real.exp δ) = m * (1 - m) * (Real.exp δ - 1) := by ring
  have hk : 0 < m * (1 - m) := mul_pos h0 (by linarith)
  rw [← sub_pos, e, mul_pos_iff_of_pos_left hk, sub_pos]

/-- **C141.** The odds of the part are multiplied by `exp δ`. -/
theorem odds {δ z z' m m' : ℝ} (h : Reweighted δ z z' m m') : m' * (1 - m) = Real.exp δ * (m * (1 - m')) := by
  obtain ⟨hp, -, h3⟩ := h
  rw [h3]
  field_simp
  ring

/-! ## Concrete cases -/

example := tree_reweight TreeCRF.sample (some [3, 2]) TreeCRF.sample_valid 1 0 1 0 (by decide) (-2)

example := chain_reweight LinearChain.sample (some [3, 2]) LinearChain.sample_valid 1 0 1 0 (by decide) (by decide) (by decide) (by decide) 2

example := semimarkov_reweight SemiMarkov.sample (some [4, 3]) SemiMarkov.sample_valid 1 0 1 1 0 (by decide) (by decide) 2

example (mr : Bool) := dependency_reweight mr Dependency.sample (some [3, 2]) (Dependency.sample_valid mr) 1 0 1 (by decide) 2

example (mr : Bool) := labelled_reweight mr LabelledDependency.sample (some [3, 2]) (LabelledDependency.sample_valid mr) 1 0 1 0 (by decide) (by decide) 2

example : Reweighted (Real.log 3) 0 (Real.log 2) (1 / 2) (3 / 4) := by
  refine ⟨?_, ?_, ?_⟩ <;> rw [Real.exp_log (by norm_num)] <;> norm_num

end Props.Reweight
