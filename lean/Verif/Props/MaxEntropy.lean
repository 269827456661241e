import Verif.Proofs.MaxEntropy
import Verif.Props.Likelihood
import Verif.Props.LinearChainValue

/-! Property theorems C137: the variational principle and maximum entropy.  `partition` is the largest value of expected score plus entropy over all distributions on
structures; among the distributions with the expected parts `marginals`, that of the model has the largest entropy, namely `entropy`. -/

open Finset Spec Generic

noncomputable section
namespace Props.MaxEntropy
open Props.Likelihood

/-- The distribution `q` over structures is the one whose logarithms are the answers `lp` of `log_prob`. -/
def Agrees {ι : Type} (lp : ι → Except PyErr ℝ) (q : ι → ℝ) : Prop := ∀ y, 0 < q y ∧ lp y = .ok (Real.log (q y))

theorem agrees_iff {ι : Type} [Fintype ι] [Nonempty ι] {lp : ι → Except PyErr ℝ} {s : ι → ℝ} (h : ∀ y, lp y = .ok (Real.log (Gibbs.prob s y))) (q : ι → ℝ) :
    Agrees lp q ↔ q = Gibbs.prob s := by
  constructor
  · exact fun ha => funext fun y => Real.log_injOn_pos (Set.mem_Ioi.2 (ha y).1) (Set.mem_Ioi.2 (Gibbs.prob_pos s y)) (Except.ok.inj ((ha y).2.symm.trans (h y)))
  · rintro rfl y
    exact ⟨Gibbs.prob_pos s y, h y⟩

theorem mean_ite {ι : Type} [Fintype ι] (q : ι → ℝ) (P : ι → Prop) [DecidablePred P] : mean q (fun y => if P y then 1 else 0) = ∑ y, if P y then q y else 0 := by
  unfold mean
  exact sum_congr rfl fun y _ => by by_cases hc : P y <;> simp [hc]

/-- The score of an event, from `log_prob` and `partition`. -/
theorem score_of {z s S : ℝ} {lp : Except PyErr ℝ} (h1 : lp = .ok (S - z)) (h2 : lp = .ok (s - z)) : s = S := by
  have := Except.ok.inj (h1.symm.trans h2)
  linarith

/-- **C137, `TreeCRF`.** -/
theorem tree_maxEntropy (p : T4 ℝ) (lengths : Option (List ℕ)) (h : TreeCRF.Valid p lengths) : ∃ μ, Dist.marginals CKYCRF.algo p lengths = .ok μ ∧
    ∀ b < p.d0, ∃ z e, rowValue (Dist.partition CKYCRF.algo p lengths) b = some z ∧ rowValue (Dist.entropy CKYCRF.algo p lengths) b = some e ∧
      ∀ q : Trees p.d3 (TreeCRF.len p lengths b) → ℝ, IsDist q →
        (mean q (treeScore (TreeCRF.row p b)) + shannon q ≤ z ∧
          (mean q (treeScore (TreeCRF.row p b)) + shannon q = z ↔ Agrees (fun t => CKYCRF.logProb p lengths b (TreeCRF.event t)) q)) ∧
        ((∀ i < p.d1, ∀ j < p.d2, ∀ a < p.d3, mean q (fun t => TreeCRF.event t i j a) = μ [b, i, j, a]) →
          shannon q ≤ e ∧ (shannon q = e ↔ Agrees (fun t => CKYCRF.logProb p lengths b (TreeCRF.event t)) q)) := by
  obtain ⟨μ, hμ, sp⟩ := TreeCRF.marginals_spec p lengths h
  refine ⟨μ, hμ, fun b hb => ?_⟩
  have : Nonempty (Trees p.d3 (TreeCRF.len p lengths b)) := CKYCRFProofs.nonempty_trees h.labels (CKYCRFProofs.len_in h.words h.lens b hb).1
  have hlp := TreeCRF.logProb_spec p lengths h b hb
  refine ⟨_, _, by rw [TreeCRF.partition_spec p lengths h, rowValue_ok _ _ _ hb], by rw [TreeCRF.entropy_spec p lengths h, rowValue_ok _ _ _ hb], fun q hq => ?_⟩
  rw [agrees_iff hlp]
  refine ⟨⟨Gibbs.variational _ q hq, Gibbs.variational_eq _ q hq⟩, fun hm => ?_⟩
  refine Gibbs.maxEntropy (range p.d1 ×ˢ range p.d2 ×ˢ range p.d3) (fun x => p.get b x.1 x.2.1 x.2.2) (fun t x => TreeCRF.event t x.1 x.2.1 x.2.2)
    (treeScore (TreeCRF.row p b)) q (fun t => ?_) hq fun x hx => ?_
  · refine score_of (z := Real.log (Gibbs.Z (treeScore (TreeCRF.row p b) : Trees p.d3 (TreeCRF.len p lengths b) → ℝ))) (lp := CKYCRF.logProb p lengths b (TreeCRF.event t)) ?_
      ((hlp t).trans (by rw [Gibbs.log_prob]))
    simp only [CKYCRF.logProb]
    rw [TreeCRF.partition_spec p lengths h]
    change Except.ok _ = _
    rw [LogProbGradient.score3, List.getD_eq_getElem _ _ (by simpa using hb), List.getElem_map, List.getElem_range,
      sum3 p.d1 p.d2 p.d3 fun i j a => p.get b i j a * TreeCRF.event t i j a]
    rfl
  · obtain ⟨m1, m2, m3⟩ := mem3.1 hx
    rw [hm _ m1 _ m2 _ m3, sp b hb x.1 x.2.1 ⟨x.2.2, m3⟩, TreeCRF.spanProb, ← mean_ite]
    exact congrArg _ (funext fun t => (TreeCRF.event_apply t x.1 x.2.1 ⟨x.2.2, m3⟩).symm)

/-- **C137, `DependencyCRF`.** -/
theorem dependency_maxEntropy (mr : Bool) (q : DepTree.Arcs ℝ) (lengths : Option (List ℕ)) (h : Dependency.Valid mr q lengths) :
    ∃ μ, DepTree.marginals mr q lengths = .ok μ ∧
    ∀ b < q.d0, ∃ z e, rowValue (DepTree.partition mr q lengths) b = some z ∧ rowValue (DepTree.entropy mr q lengths) b = some e ∧
      ∀ w : ProjTrees mr (Dependency.len q lengths b) → ℝ, IsDist w →
        (mean w (fun t => depScore (Dependency.row q b) t.1) + shannon w ≤ z ∧
          (mean w (fun t => depScore (Dependency.row q b) t.1) + shannon w = z ↔ Agrees (fun t => DepTree.logProb mr q lengths b (Dependency.event t)) w)) ∧
        ((∀ i < q.d1, ∀ j < q.d2, mean w (fun t => Dependency.event t i j 0) = μ [b, i, j]) →
          shannon w ≤ e ∧ (shannon w = e ↔ Agrees (fun t => DepTree.logProb mr q lengths b (Dependency.event t)) w)) := by
  obtain ⟨μ, hμ, sp⟩ := Dependency.marginals_spec mr q lengths h
  refine ⟨μ, hμ, fun b hb => ?_⟩
  have := Dependency.trees_nonempty h b hb
  have hlp := Dependency.logProb_spec mr q lengths h b hb
  refine ⟨_, _, by rw [Dependency.partition_spec mr q lengths h, rowValue_ok _ _ _ hb], by rw [Dependency.entropy_spec mr q lengths h, rowValue_ok _ _ _ hb], fun w hw => ?_⟩
  rw [agrees_iff hlp]
  refine ⟨⟨Gibbs.variational _ w hw, Gibbs.variational_eq _ w hw⟩, fun hm => ?_⟩
  refine Gibbs.maxEntropy (range q.d1 ×ˢ range q.d2 ×ˢ range q.labels) (fun x => q.get b x.1 x.2.1 x.2.2) (fun t x => Dependency.event t x.1 x.2.1 x.2.2)
    _ w (fun t => ?_) hw fun x hx => ?_
  · refine score_of (z := Real.log (Gibbs.Z fun t : ProjTrees mr (Dependency.len q lengths b) => depScore (Dependency.row q b) t.1))
      (lp := DepTree.logProb mr q lengths b (Dependency.event t)) ?_ ((hlp t).trans (by rw [Gibbs.log_prob]))
    simp only [DepTree.logProb]
    rw [Dependency.partition_spec mr q lengths h]
    change Except.ok _ = _
    rw [LogProbGradient.score3, List.getD_eq_getElem _ _ (by simpa using hb), List.getElem_map, List.getElem_range,
      sum3 q.d1 q.d2 q.labels fun i j a => q.get b i j a * Dependency.event t i j a]
    rfl
  · obtain ⟨m1, m2, m3⟩ := mem3.1 hx
    refine (hm _ m1 _ m2).trans ?_
    rw [sp b hb x.1 x.2.1, Dependency.arcProb]
    unfold mean
    exact sum_congr rfl fun t _ => by unfold Dependency.event; by_cases hc : HasArc t.1 x.1 x.2.1 <;> simp [hc]

/-- **C137, `DependencyCRF` with labels.** -/
theorem labelled_maxEntropy (mr : Bool) (q : DepTree.Arcs ℝ) (lengths : Option (List ℕ)) (h : LabelledDependency.Valid mr q lengths) :
    ∃ μ, DepTree.marginals mr q lengths = .ok μ ∧
    ∀ b < q.d0, ∃ z e, rowValue (DepTree.partition mr q lengths) b = some z ∧ rowValue (DepTree.entropy mr q lengths) b = some e ∧
      ∀ w : LabelledTrees mr (LabelledDependency.len q lengths b) q.d3 → ℝ, IsDist w →
        (mean w (labScore (LabelledDependency.row q b)) + shannon w ≤ z ∧
          (mean w (labScore (LabelledDependency.row q b)) + shannon w = z ↔ Agrees (fun t => DepTree.logProb mr q lengths b (LabelledDependency.event t)) w)) ∧
        ((∀ i < q.d1, ∀ j < q.d2, ∀ l < q.labels, mean w (fun t => LabelledDependency.event t i j l) = μ [b, i, j, l]) →
          shannon w ≤ e ∧ (shannon w = e ↔ Agrees (fun t => DepTree.logProb mr q lengths b (LabelledDependency.event t)) w)) := by
  obtain ⟨μ, hμ, sp⟩ := LabelledDependency.marginals_spec mr q lengths h
  refine ⟨μ, hμ, fun b hb => ?_⟩
  have := LabelledDependency.trees_nonempty h b hb
  have hlp := LabelledDependency.logProb_spec mr q lengths h b hb
  refine ⟨_, _, by rw [LabelledDependency.partition_spec mr q lengths h, rowValue_ok _ _ _ hb],
    by rw [LabelledDependency.entropy_spec mr q lengths h, rowValue_ok _ _ _ hb], fun w hw => ?_⟩
  rw [agrees_iff hlp]
  refine ⟨⟨Gibbs.variational _ w hw, Gibbs.variational_eq _ w hw⟩, fun hm => ?_⟩
  refine Gibbs.maxEntropy (range q.d1 ×ˢ range q.d2 ×ˢ range q.labels) (fun x => q.get b x.1 x.2.1 x.2.2) (fun t x => LabelledDependency.event t x.1 x.2.1 x.2.2)
    _ w (fun t => ?_) hw fun x hx => ?_
  · refine score_of (z := Real.log (Gibbs.Z (labScore (LabelledDependency.row q b) : LabelledTrees mr (LabelledDependency.len q lengths b) q.d3 → ℝ)))
      (lp := DepTree.logProb mr q lengths b (LabelledDependency.event t)) ?_ ((hlp t).trans (by rw [Gibbs.log_prob]))
    simp only [DepTree.logProb]
    rw [LabelledDependency.partition_spec mr q lengths h]
    change Except.ok _ = _
    rw [LogProbGradient.score3, List.getD_eq_getElem _ _ (by simpa using hb), List.getElem_map, List.getElem_range,
      sum3 q.d1 q.d2 q.labels fun i j a => q.get b i j a * LabelledDependency.event t i j a]
    rfl
  · obtain ⟨m1, m2, m3⟩ := mem3.1 hx
    refine (hm _ m1 _ m2 _ m3).trans ?_
    rw [sp b hb x.1 x.2.1, LabelledDependency.arcProb]
    unfold mean
    exact sum_congr rfl fun t _ => by unfold LabelledDependency.event; by_cases hc : HasLabArc t x.1 x.2.1 x.2.2 <;> simp [hc]

/-- **C137, `LinearChainCRF`.** Expected score plus entropy of a distribution over tag sequences is at most `partition`, and some distribution comes within the error of
the stand-in for `log 0`. -/
theorem chain_variational (p : T4 ℝ) (lengths : Option (List ℕ)) (h : LinearChain.Valid p lengths) (m : ℝ) (hm : LinearChain.LowerBound p lengths m) :
    ∀ b < p.d0, ∃ z, rowValue (Dist.partition _root_.LinearChain.algo p lengths) b = some z ∧
      (∀ q : Tags (LinearChain.numEdges p lengths b) p.d2 → ℝ, IsDist q → mean q (seqScore (LinearChain.row p b)) + shannon q ≤ z) ∧
      ∃ q : Tags (LinearChain.numEdges p lengths b) p.d2 → ℝ, IsDist q ∧ z ≤ mean q (seqScore (LinearChain.row p b)) + shannon q +
        (LinearChain.numEdges p lengths b * Real.exp (-100000 - m) +
          ((2 ^ Nat.clog 2 p.d1 - LinearChain.numEdges p lengths b : ℕ) : ℝ) * ((2 * p.d2 - 1 : ℕ) * Real.exp (-100000))) := by
  intro b hb
  have : Nonempty (Fin p.d2) := ⟨⟨0, h.classes⟩⟩
  obtain ⟨vs, h1, h2, h3⟩ := LinearChain.partition_bounds p lengths h m hm
  have hbv : b < vs.length := by omega
  obtain ⟨l, u⟩ := h3 b hbv
  refine ⟨vs[b], ?_, fun q hq => (Gibbs.variational _ q hq).trans l, Gibbs.prob (seqScore (LinearChain.row p b)), Gibbs.prob_isDist _, ?_⟩
  · rw [h1]; exact List.getElem?_eq_getElem hbv
  · rw [(Gibbs.variational_eq _ _ (Gibbs.prob_isDist (seqScore (LinearChain.row p b)))).2 rfl]
    exact u

/-- **C137, `SemiMarkovCRF`.** -/
theorem semimarkov_variational (p : T5 ℝ) (lengths : Option (List ℕ)) (h : SemiMarkov.Valid p lengths) {B : ℝ} (hB : SemiMarkov.Bounded p lengths B) :
    ∀ b < p.d0, ∃ z, rowValue (Dist.partition _root_.SemiMarkov.algo p lengths) b = some z ∧
      (∀ q : Segmentation p.d2 p.d3 (SemiMarkov.steps p lengths b) → ℝ, IsDist q → mean q (segScore (SemiMarkov.row p b)) + shannon q ≤ z) ∧
      ∃ q : Segmentation p.d2 p.d3 (SemiMarkov.steps p lengths b) → ℝ, IsDist q ∧
        z ≤ mean q (segScore (SemiMarkov.row p b)) + shannon q + SemiMarkov.err p lengths B b := by
  intro b hb
  have : Nonempty (Segmentation p.d2 p.d3 (SemiMarkov.steps p lengths b)) := SemiMarkov.seg_nonempty h b
  obtain ⟨vs, h1, h2, h3⟩ := SemiMarkov.partition_spec p lengths h hB
  have hbv : b < vs.length := by omega
  obtain ⟨l, u⟩ := h3 b hbv
  refine ⟨vs[b], ?_, fun q hq => (Gibbs.variational _ q hq).trans l, Gibbs.prob (segScore (SemiMarkov.row p b)), Gibbs.prob_isDist _, ?_⟩
  · rw [h1]; exact List.getElem?_eq_getElem hbv
  · rw [(Gibbs.variational_eq _ _ (Gibbs.prob_isDist (segScore (SemiMarkov.row p b)))).2 rfl]
    exact u

/-! ## Concrete cases -/

/-- The uniform distribution over the trees of the second sample row meets the hypotheses of the variational principle. -/
example (mr : Bool) : ∃ z, rowValue (DepTree.partition mr Dependency.sample (some [3, 2])) 1 = some z ∧
    mean (Gibbs.prob fun _ => 0) (fun t : ProjTrees mr (Dependency.len Dependency.sample (some [3, 2]) 1) => depScore (Dependency.row Dependency.sample 1) t.1) +
      shannon (Gibbs.prob fun _ : ProjTrees mr (Dependency.len Dependency.sample (some [3, 2]) 1) => 0) ≤ z := by
  obtain ⟨μ, -, h⟩ := dependency_maxEntropy mr Dependency.sample (some [3, 2]) (Dependency.sample_valid mr)
  obtain ⟨z, e, h1, -, h2⟩ := h 1 (by decide)
  have := Dependency.trees_nonempty (Dependency.sample_valid mr) 1 (by decide)
  exact ⟨z, h1, (h2 _ (Gibbs.prob_isDist _)).1.1⟩

/-- The model's own distribution has the expected parts `marginals`, so it meets the hypothesis on them, and its entropy is `entropy`. -/
example : ∃ e, rowValue (Dist.entropy CKYCRF.algo TreeCRF.sample (some [3, 2])) 0 = some e ∧
    shannon (Gibbs.prob (treeScore (TreeCRF.row TreeCRF.sample 0) : Trees TreeCRF.sample.d3 (TreeCRF.len TreeCRF.sample (some [3, 2]) 0) → ℝ)) = e := by
  have hv := TreeCRF.sample_valid
  obtain ⟨μ, hμ, h⟩ := tree_maxEntropy TreeCRF.sample (some [3, 2]) hv
  obtain ⟨μ', hμ', sp⟩ := TreeCRF.marginals_spec TreeCRF.sample (some [3, 2]) hv
  obtain rfl : μ = μ' := Except.ok.inj (hμ.symm.trans hμ')
  obtain ⟨z, e, -, h1, h2⟩ := h 0 (by decide)
  have : Nonempty (Trees TreeCRF.sample.d3 (TreeCRF.len TreeCRF.sample (some [3, 2]) 0)) :=
    CKYCRFProofs.nonempty_trees hv.labels (CKYCRFProofs.len_in hv.words hv.lens 0 (by decide)).1
  refine ⟨e, h1, ((h2 _ (Gibbs.prob_isDist _)).2 fun i _ j _ a ha => ?_).2.2 ((agrees_iff (TreeCRF.logProb_spec TreeCRF.sample _ hv 0 (by decide)) _).2 rfl)⟩
  rw [sp 0 (by decide) i j ⟨a, ha⟩, TreeCRF.spanProb, ← mean_ite]
  exact congrArg _ (funext fun t => TreeCRF.event_apply t i j ⟨a, ha⟩)

example (mr : Bool) := labelled_maxEntropy mr LabelledDependency.sample (some [3, 2]) (LabelledDependency.sample_valid mr)

example := (LinearChain.exists_lowerBound LinearChain.sample (some [3, 2])).imp fun m hm => chain_variational LinearChain.sample (some [3, 2]) LinearChain.sample_valid m hm

end Props.MaxEntropy
