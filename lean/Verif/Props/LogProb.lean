import Verif.Proofs.LogProb
import Verif.Props.LogProbGradient
import Verif.Props.LinearChainEvents
import Verif.Props.Accepted

/-! Property theorems C72 and C73: `log_prob` on stacks of events, and with forbidden (`-inf`) parts. -/

open Finset Spec Tensor

noncomputable section
namespace Props.LogProb

theorem score_map {X : Type} (l : List X) (f g : X → ℝ) : Struct.score (l.map f) (l.map g) = (l.map fun x => f x * g x).sum := by
  rw [Struct.score]
  congr 1
  induction l with
  | nil => rfl
  | cons a l ih => simp [ih]

theorem indices3 (a b c : ℕ) : indices [a, b, c] = ((List.range a).flatMap fun i => (List.range b).flatMap fun j => (List.range c).map fun k => (i, j, k)).map
    fun x => [x.1, x.2.1, x.2.2] := by
  simp only [indices, List.map_flatMap, List.map_map, List.map_cons, List.map_nil]
  congr 1; funext i; congr 1; funext j
  induction List.range c with
  | nil => rfl
  | cons k l ih => simp_all

theorem indices4 (a b c d : ℕ) : indices [a, b, c, d] = ((List.range a).flatMap fun i => (List.range b).flatMap fun j => (List.range c).flatMap fun k =>
    (List.range d).map fun l => (i, j, k, l)).map fun x => [x.1, x.2.1, x.2.2.1, x.2.2.2] := by
  simp only [indices, List.map_flatMap, List.map_map, List.map_cons, List.map_nil]
  congr 1; funext i; congr 1; funext j; congr 1; funext k
  induction List.range d with
  | nil => rfl
  | cons k l ih => simp_all

theorem indices2 (a b : ℕ) : indices [a, b] = ((List.range a).flatMap fun i => (List.range b).flatMap fun j => (List.range 1).map fun k => (i, j, k)).map
    fun x => [x.1, x.2.1] := by
  simp only [indices, List.map_flatMap, List.map_map, List.map_cons, List.map_nil]
  simp [List.flatMap]

/-! ### Stacks of events

A stack of events has shape `ss x B x event_shape`; an index of the result is a sample index `s` (one number below each entry of `ss`) followed by
the batch row. -/

/-- **C72.** `log_prob` of a stack of events returns a tensor of shape `ss x B`; each entry is the `log_prob` of that event alone, in its batch
row.  It holds for every number of sample dimensions. -/
theorem chain_stack (p : T4 ℝ) (lengths : Option (List ℕ)) {vs : List ℝ} (hv : Dist.partition LinearChain.algo p lengths = .ok vs)
    (hB : 1 ≤ p.d0) (hl : vs.length = p.d0) (ss : List ℕ) (hs : 0 ∉ ss) (value : Tensor ℝ) (hsh : value.shape = ss ++ [p.d0, p.d1, p.d2, p.d3]) :
    ∃ t, LinearChain.logProbT p lengths value = .ok t ∧ t.shape = ss ++ [p.d0] ∧ ∀ s ∈ indices ss, ∀ b < p.d0,
      LinearChain.logProb p lengths b (fun n i j => value.get (s ++ [b, n, i, j])) = .ok (t.get (s ++ [b])) := by
  obtain ⟨t, h1, h2, h3⟩ := StructDistribution.logProb_stack .real (.of4 p) (.ofList 0 vs) value ss [p.d1, p.d2, p.d3] p.d0 rfl hsh
    (by simp [ofList, hl]) hs (by omega)
  refine ⟨t, by rw [LinearChain.logProbT, hv]; exact h1, h2, fun s hs b hb => ?_⟩
  rw [LinearChain.logProb, hv, h3 s hs b hb, indices3]
  simp only [bind, Except.bind, score_map, Arith.real, List.map_map]
  rfl

/-- **C72.** Same for `TreeCRF`. -/
theorem tree_stack (p : T4 ℝ) (lengths : Option (List ℕ)) {vs : List ℝ} (hv : Dist.partition CKYCRF.algo p lengths = .ok vs)
    (hB : 1 ≤ p.d0) (hl : vs.length = p.d0) (ss : List ℕ) (hs : 0 ∉ ss) (value : Tensor ℝ) (hsh : value.shape = ss ++ [p.d0, p.d1, p.d2, p.d3]) :
    ∃ t, CKYCRF.logProbT p lengths value = .ok t ∧ t.shape = ss ++ [p.d0] ∧ ∀ s ∈ indices ss, ∀ b < p.d0,
      CKYCRF.logProb p lengths b (fun n i j => value.get (s ++ [b, n, i, j])) = .ok (t.get (s ++ [b])) := by
  obtain ⟨t, h1, h2, h3⟩ := StructDistribution.logProb_stack .real (.of4 p) (.ofList 0 vs) value ss [p.d1, p.d2, p.d3] p.d0 rfl hsh
    (by simp [ofList, hl]) hs (by omega)
  refine ⟨t, by rw [CKYCRF.logProbT, hv]; exact h1, h2, fun s hs b hb => ?_⟩
  rw [CKYCRF.logProb, hv, h3 s hs b hb, indices3]
  simp only [bind, Except.bind, score_map, Arith.real, List.map_map]
  rfl

/-- **C72.** Same for `SemiMarkovCRF`. -/
theorem semimarkov_stack (p : T5 ℝ) (lengths : Option (List ℕ)) {vs : List ℝ} (hv : Dist.partition SemiMarkov.algo p lengths = .ok vs)
    (hB : 1 ≤ p.d0) (hl : vs.length = p.d0) (ss : List ℕ) (hs : 0 ∉ ss) (value : Tensor ℝ) (hsh : value.shape = ss ++ [p.d0, p.d1, p.d2, p.d3, p.d4]) :
    ∃ t, SemiMarkov.logProbT p lengths value = .ok t ∧ t.shape = ss ++ [p.d0] ∧ ∀ s ∈ indices ss, ∀ b < p.d0,
      SemiMarkov.logProb p lengths b (fun n k i j => value.get (s ++ [b, n, k, i, j])) = .ok (t.get (s ++ [b])) := by
  obtain ⟨t, h1, h2, h3⟩ := StructDistribution.logProb_stack .real (.of5 p) (.ofList 0 vs) value ss [p.d1, p.d2, p.d3, p.d4] p.d0 rfl hsh
    (by simp [ofList, hl]) hs (by omega)
  refine ⟨t, by rw [SemiMarkov.logProbT, hv]; exact h1, h2, fun s hs b hb => ?_⟩
  rw [SemiMarkov.logProb, hv, h3 s hs b hb, indices4]
  simp only [bind, Except.bind, score_map, Arith.real, List.map_map]
  rfl

/-- **C72.** Same for `DependencyCRF` (events `batch x N x N`). -/
theorem dependency_stack (mr : Bool) (q : DepTree.Arcs ℝ) (hr : q.rank = 3) (lengths : Option (List ℕ)) {vs : List ℝ}
    (hv : DepTree.partition mr q lengths = .ok vs) (hB : 1 ≤ q.d0) (hl : vs.length = q.d0) (ss : List ℕ) (hs : 0 ∉ ss) (value : Tensor ℝ)
    (hsh : value.shape = ss ++ [q.d0, q.d1, q.d2]) :
    ∃ t, DepTree.logProbT mr q lengths value = .ok t ∧ t.shape = ss ++ [q.d0] ∧ ∀ s ∈ indices ss, ∀ b < q.d0,
      DepTree.logProb mr q lengths b (fun i j _ => value.get (s ++ [b, i, j])) = .ok (t.get (s ++ [b])) := by
  obtain ⟨t, h1, h2, h3⟩ := StructDistribution.logProb_stack .real (.ofArcs q) (.ofList 0 vs) value ss [q.d1, q.d2] q.d0 (by simp [ofArcs, hr]) hsh
    (by simp [ofList, hl]) hs (by omega)
  refine ⟨t, by rw [DepTree.logProbT, hv]; exact h1, h2, fun s hs b hb => ?_⟩
  have hlab : q.labels = 1 := by simp [DepTree.Arcs.labels, DepTree.Arcs.labeled, hr]
  rw [DepTree.logProb, hv, h3 s hs b hb, indices2]
  simp only [bind, Except.bind, score_map, Arith.real, List.map_map, hlab]
  congr 3
  refine List.map_congr_left fun x hx => ?_
  simp only [List.mem_flatMap, List.mem_map, List.mem_range] at hx
  obtain ⟨i, -, j, -, k, hk, rfl⟩ := hx
  obtain rfl : k = 0 := by omega
  rfl

/-- **C72.** Same for labelled `DependencyCRF` (events `batch x N x N x L`). -/
theorem labelled_stack (mr : Bool) (q : DepTree.Arcs ℝ) (hr : q.rank = 4) (lengths : Option (List ℕ)) {vs : List ℝ}
    (hv : DepTree.partition mr q lengths = .ok vs) (hB : 1 ≤ q.d0) (hl : vs.length = q.d0) (ss : List ℕ) (hs : 0 ∉ ss) (value : Tensor ℝ)
    (hsh : value.shape = ss ++ [q.d0, q.d1, q.d2, q.d3]) :
    ∃ t, DepTree.logProbT mr q lengths value = .ok t ∧ t.shape = ss ++ [q.d0] ∧ ∀ s ∈ indices ss, ∀ b < q.d0,
      DepTree.logProb mr q lengths b (fun i j l => value.get (s ++ [b, i, j, l])) = .ok (t.get (s ++ [b])) := by
  obtain ⟨t, h1, h2, h3⟩ := StructDistribution.logProb_stack .real (.ofArcs q) (.ofList 0 vs) value ss [q.d1, q.d2, q.d3] q.d0 (by simp [ofArcs, hr]) hsh
    (by simp [ofList, hl]) hs (by omega)
  refine ⟨t, by rw [DepTree.logProbT, hv]; exact h1, h2, fun s hs b hb => ?_⟩
  have hlab : q.labels = q.d3 := by simp [DepTree.Arcs.labels, DepTree.Arcs.labeled, hr]
  rw [DepTree.logProb, hv, h3 s hs b hb, indices3]
  simp only [bind, Except.bind, score_map, Arith.real, List.map_map, hlab]
  rfl

/-! The same in terms of structures: a stack of encoded structures gets the stack of their log-probabilities. -/

/-- **C72.** A stack of encoded trees gets the log-probabilities of the trees under the Gibbs distribution of each row. -/
theorem tree_stack_prob (p : T4 ℝ) (lengths : Option (List ℕ)) (h : TreeCRF.Valid p lengths) (hB : 1 ≤ p.d0) (ss : List ℕ) (hs : 0 ∉ ss) (value : Tensor ℝ)
    (hsh : value.shape = ss ++ [p.d0, p.d1, p.d2, p.d3]) (y : List ℕ → ∀ b, Trees p.d3 (TreeCRF.len p lengths b))
    (hy : ∀ s ∈ indices ss, ∀ b < p.d0, ∀ i j a, value.get (s ++ [b, i, j, a]) = TreeCRF.event (y s b) i j a) :
    ∃ t, CKYCRF.logProbT p lengths value = .ok t ∧ t.shape = ss ++ [p.d0] ∧ ∀ s ∈ indices ss, ∀ b < p.d0,
      t.get (s ++ [b]) = Real.log (Gibbs.prob (treeScore (TreeCRF.row p b)) (y s b)) := by
  obtain ⟨t, h1, h2, h3⟩ := tree_stack p lengths (TreeCRF.partition_spec p lengths h) hB (by simp) ss hs value hsh
  refine ⟨t, h1, h2, fun s hs b hb => ?_⟩
  have h4 := h3 s hs b hb
  simp only [hy s hs b hb] at h4
  rw [show (fun n i j => TreeCRF.event (y s b) n i j) = TreeCRF.event (y s b) from rfl, TreeCRF.logProb_spec p lengths h b hb] at h4
  exact (Except.ok.inj h4).symm

/-- **C72.** A stack of encoded projective trees gets their log-probabilities. -/
theorem dependency_stack_prob (mr : Bool) (q : DepTree.Arcs ℝ) (lengths : Option (List ℕ)) (h : Dependency.Valid mr q lengths) (ss : List ℕ) (hs : 0 ∉ ss)
    (value : Tensor ℝ) (hsh : value.shape = ss ++ [q.d0, q.d1, q.d2]) (y : List ℕ → ∀ b, ProjTrees mr (Dependency.len q lengths b))
    (hy : ∀ s ∈ indices ss, ∀ b < q.d0, ∀ i j, value.get (s ++ [b, i, j]) = Dependency.event (y s b) i j 0) :
    ∃ t, DepTree.logProbT mr q lengths value = .ok t ∧ t.shape = ss ++ [q.d0] ∧ ∀ s ∈ indices ss, ∀ b < q.d0,
      t.get (s ++ [b]) = Real.log (Gibbs.prob (fun t : ProjTrees mr (Dependency.len q lengths b) => depScore (Dependency.row q b) t.1) (y s b)) := by
  obtain ⟨t, h1, h2, h3⟩ := dependency_stack mr q h.rank lengths (Dependency.partition_spec mr q lengths h) h.batch (by simp) ss hs value hsh
  refine ⟨t, h1, h2, fun s hs b hb => ?_⟩
  have h4 := h3 s hs b hb
  simp only [hy s hs b hb] at h4
  rw [show (fun i j (_ : ℕ) => Dependency.event (y s b) i j 0) = Dependency.event (y s b) from rfl, Dependency.logProb_spec mr q lengths h b hb] at h4
  exact (Except.ok.inj h4).symm

/-- **C72.** A stack of encoded labelled projective trees gets their log-probabilities. -/
theorem labelled_stack_prob (mr : Bool) (q : DepTree.Arcs ℝ) (lengths : Option (List ℕ)) (h : LabelledDependency.Valid mr q lengths) (ss : List ℕ)
    (hs : 0 ∉ ss) (value : Tensor ℝ) (hsh : value.shape = ss ++ [q.d0, q.d1, q.d2, q.d3])
    (y : List ℕ → ∀ b, LabelledTrees mr (LabelledDependency.len q lengths b) q.d3)
    (hy : ∀ s ∈ indices ss, ∀ b < q.d0, ∀ i j l, value.get (s ++ [b, i, j, l]) = LabelledDependency.event (y s b) i j l) :
    ∃ t, DepTree.logProbT mr q lengths value = .ok t ∧ t.shape = ss ++ [q.d0] ∧ ∀ s ∈ indices ss, ∀ b < q.d0,
      t.get (s ++ [b]) = Real.log (Gibbs.prob (labScore (LabelledDependency.row q b) : LabelledTrees mr (LabelledDependency.len q lengths b) q.d3 → ℝ) (y s b)) := by
  obtain ⟨t, h1, h2, h3⟩ := labelled_stack mr q h.rank lengths (LabelledDependency.partition_spec mr q lengths h) h.batch (by simp) ss hs value hsh
  refine ⟨t, h1, h2, fun s hs b hb => ?_⟩
  have h4 := h3 s hs b hb
  simp only [hy s hs b hb] at h4
  rw [show (fun i j l => LabelledDependency.event (y s b) i j l) = LabelledDependency.event (y s b) from rfl,
    LabelledDependency.logProb_spec mr q lengths h b hb] at h4
  exact (Except.ok.inj h4).symm

/-- **C72.** A stack of encoded segmentations gets their scores minus the partitions of their rows. -/
theorem semimarkov_stack_score (p : T5 ℝ) (lengths : Option (List ℕ)) (h : SemiMarkov.Valid p lengths) {vs : List ℝ}
    (hv : Dist.partition SemiMarkov.algo p lengths = .ok vs) (hl : vs.length = p.d0)
    (hB : 1 ≤ p.d0) (ss : List ℕ) (hs : 0 ∉ ss) (value : Tensor ℝ) (hsh : value.shape = ss ++ [p.d0, p.d1, p.d2, p.d3, p.d4])
    (y : List ℕ → ∀ b, SemiMarkov.Seg p lengths b)
    (hy : ∀ s ∈ indices ss, ∀ b < p.d0, ∀ n k i j, value.get (s ++ [b, n, k, i, j]) = SemiMarkov.event (y s b) n k i j) :
    ∃ t, SemiMarkov.logProbT p lengths value = .ok t ∧ t.shape = ss ++ [p.d0] ∧ ∀ s ∈ indices ss, ∀ b < p.d0,
      t.get (s ++ [b]) = segScore (SemiMarkov.row p b) (y s b) - vs.getD b 0 := by
  obtain ⟨t, h1, h2, h3⟩ := semimarkov_stack p lengths hv hB hl ss hs value hsh
  refine ⟨t, h1, h2, fun s hs b hb => ?_⟩
  have h4 := h3 s hs b hb
  simp only [hy s hs b hb] at h4
  rw [show (fun n k i j => SemiMarkov.event (y s b) n k i j) = SemiMarkov.event (y s b) from rfl, SemiMarkov.logProb_spec p lengths h b (y s b) hv] at h4
  exact (Except.ok.inj h4).symm

/-- **C72.** A stack of encoded batches of tag sequences (`to_event` of the batch `seq s`, for every sample index `s`) gets the scores of the
sequences minus the partitions of their rows. -/
theorem chain_stack_score (p : T4 ℝ) (lengths : Option (List ℕ)) (h : LinearChain.Valid p lengths) (hpos : ∀ l, lengths = some l → ∀ x ∈ l, 1 ≤ x)
    (hB : 1 ≤ p.d0) (ss : List ℕ) (hs : 0 ∉ ss) (value : Tensor ℝ) (hsh : value.shape = ss ++ [p.d0, p.d1, p.d2, p.d3])
    (seq : List ℕ → T2 ℕ) (h0 : ∀ s, (seq s).d0 = p.d0) (h1 : ∀ s, (seq s).d1 = p.d1 + 1) (hC : ∀ s, LinearChain.Classes (seq s) p.d2)
    (hy : ∀ s ∈ indices ss, ∃ e, LinearChain.toParts (seq s) p.d2 lengths = .ok e ∧ ∀ b n i j, value.get (s ++ [b, n, i, j]) = e.get b n i j) :
    ∃ vs t, Dist.partition LinearChain.algo p lengths = .ok vs ∧ LinearChain.logProbT p lengths value = .ok t ∧ t.shape = ss ++ [p.d0] ∧
      ∀ s ∈ indices ss, ∀ b < p.d0, ∀ y : Tags (LinearChain.numEdges p lengths b) p.d2, LinearChain.IsRow (seq s) b y →
        t.get (s ++ [b]) = seqScore (LinearChain.row p b) y - vs.getD b 0 := by
  obtain ⟨vs, hv, hl, -⟩ := LinearChain.partition_closed_form p lengths h
  obtain ⟨t, k1, k2, k3⟩ := chain_stack p lengths hv hB hl ss hs value hsh
  refine ⟨vs, t, hv, k1, k2, fun s hs b hb y hrow => ?_⟩
  obtain ⟨e, e1, e2⟩ := hy s hs
  obtain ⟨vs', e', j1, j2, j3, j4⟩ := LinearChain.logProb_event p lengths h hpos (seq s) (h0 s) (h1 s) (hC s)
  obtain rfl : vs = vs' := by rw [hv] at j1; exact Except.ok.inj j1
  obtain rfl : e = e' := by rw [e1] at j3; exact Except.ok.inj j3
  have h4 := k3 s hs b hb
  simp only [e2] at h4
  rw [j4 b (by omega) y hrow] at h4
  rw [List.getD_eq_getElem _ _ (by omega)]
  exact (Except.ok.inj h4).symm

/-- Non-vacuity: a `2 x 5` stack of the same pair of trees, for the example of `TreeCRF`. -/
example (y : ∀ b, Trees 2 (TreeCRF.len TreeCRF.sample (some [3, 2]) b)) :
    ∃ t, CKYCRF.logProbT TreeCRF.sample (some [3, 2])
      ⟨[2, 5, 2, 3, 3, 2], fun ix => TreeCRF.event (y (ix.getD 2 0)) (ix.getD 3 0) (ix.getD 4 0) (ix.getD 5 0)⟩ = .ok t ∧
      t.shape = [2, 5, 2] ∧ ∀ s ∈ indices [2, 5], ∀ b < 2, t.get (s ++ [b]) = Real.log (Gibbs.prob (treeScore (TreeCRF.row TreeCRF.sample b)) (y b)) :=
  tree_stack_prob TreeCRF.sample (some [3, 2]) TreeCRF.sample_valid (by decide) [2, 5] (by decide) _ rfl (fun _ b => y b) (by
    intro s hs b hb i j a
    obtain _ | ⟨h1, _ | ⟨h2, ⟨⟩⟩⟩ := mem_indices.1 hs
    rfl)

/-- **C72 (limit of the claim).** An event without the batch dimension is not broadcast over the batch: the scores of all rows are added up before the
partitions are subtracted. -/
theorem no_batch_broadcast (pot Z value : Tensor ℝ) (ev : List ℕ) (B : ℕ) (hp : pot.shape = B :: ev) (hv : value.shape = ev) (hz : Z.shape = [B]) (hB : B ≠ 0) :
    ∃ t, StructDistribution.logProb .real pot (.ok Z) value = .ok t ∧ t.shape = [B] ∧ ∀ b < B,
      t.get [b] = ((indices (B :: ev)).map fun r => pot.get r * value.get r.tail).sum - Z.get [b] := by
  have e1 : dims pot.shape.reverse value.shape.reverse = .ok pot.shape.reverse := by
    rw [hp, hv, List.reverse_cons]; exact dims_prefix' _ _
  have e2 : dims [] Z.shape.reverse = .ok Z.shape.reverse := by simp [dims]
  refine ⟨_, by
    rw [StructDistribution.logProb, Tensor.score, Tensor.zip, e1]
    simp only [bind, Except.bind, List.reverse_reverse]
    rw [show value.shape.length - pot.shape.tail.length = 0 from by rw [hv, hp]; simp]
    simp only [Nat.zero_le, if_true, List.take_zero, List.not_mem_nil, if_false, Tensor.zip, bind, Except.bind, List.reverse_nil]
    rw [e2], by simp [hz], fun b hb => ?_⟩
  simp only [Arith.real, List.drop_zero]
  have m1 : [b] ∈ indices [B] := by rw [mem_indices]; exact .cons hb .nil
  rw [hz, readAt_self m1]
  congr 2
  rw [hp]
  refine List.map_congr_left fun r hr => ?_
  have h0 : readAt [] [b] = [] := by simp [readAt]
  rw [h0, List.nil_append, readAt_self hr, hv]
  cases r with
  | nil => exact absurd (length_of_mem hr) (by simp)
  | cons a r =>
    have : r ∈ indices ev := by
      rw [mem_indices] at hr ⊢
      cases hr; assumption
    rw [show (a :: r) = [a] ++ r from rfl, readAt_drop this]; rfl

/-! ### Forbidden parts -/

/-- **C73.** If a potential is `-inf` and the event does not use that part, `log_prob` of the event is NaN: `score` multiplies the potential `-inf` by 0. -/
theorem forbidden_nan (pot Z value : Tensor IEEE) (ss ev : List ℕ) (B : ℕ) (hp : pot.shape = B :: ev) (hv : value.shape = ss ++ B :: ev)
    (hz : Z.shape = [B]) (hs : 0 ∉ ss) (s : List ℕ) (hsi : s ∈ indices ss) (b : ℕ) (hb : b < B) (r : List ℕ) (hr : r ∈ indices ev)
    (hbot : pot.get (b :: r) = some ⊥) (hzero : value.get (s ++ b :: r) = IEEE.ofReal 0) :
    ∃ t, StructDistribution.logProb .ieee pot (.ok Z) value = .ok t ∧ t.get (s ++ [b]) = IEEE.nan := by
  obtain ⟨t, h1, -, h3⟩ := StructDistribution.logProb_stack .ieee pot Z value ss ev B hp hv hz hs (by omega)
  refine ⟨t, h1, ?_⟩
  rw [h3 s hsi b hb, IEEE.sum_nan _ (List.mem_map.2 ⟨r, hr, by rw [hbot, hzero]; exact IEEE.mul_bot_zero⟩)]
  change IEEE.sub none (Z.get [b]) = none
  rw [IEEE.sub, IEEE.add_none_left]

/-- **C73 (the part that holds).** With finite potentials, values and partition, the arithmetic with infinities gives the result of the exact arithmetic:
no NaN appears. -/
theorem logProb_finite_partial (pot Z value : Tensor ℝ) (ss ev : List ℕ) (B : ℕ) (hp : pot.shape = B :: ev) (hv : value.shape = ss ++ B :: ev)
    (hz : Z.shape = [B]) (hs : 0 ∉ ss) (hB : B ≠ 0) :
    ∃ t t', StructDistribution.logProb .real pot (.ok Z) value = .ok t ∧
      StructDistribution.logProb .ieee ⟨pot.shape, fun ix => .ofReal (pot.get ix)⟩ (.ok ⟨Z.shape, fun ix => .ofReal (Z.get ix)⟩)
        ⟨value.shape, fun ix => .ofReal (value.get ix)⟩ = .ok t' ∧
      t'.shape = t.shape ∧ ∀ s ∈ indices ss, ∀ b < B, t'.get (s ++ [b]) = .ofReal (t.get (s ++ [b])) := by
  obtain ⟨t, h1, h2, h3⟩ := StructDistribution.logProb_stack .real pot Z value ss ev B hp hv hz hs hB
  obtain ⟨t', k1, k2, k3⟩ := StructDistribution.logProb_stack .ieee ⟨pot.shape, fun ix => .ofReal (pot.get ix)⟩ ⟨Z.shape, fun ix => .ofReal (Z.get ix)⟩
    ⟨value.shape, fun ix => .ofReal (value.get ix)⟩ ss ev B hp hv hz hs hB
  refine ⟨t, t', h1, k1, k2.trans h2.symm, fun s hs b hb => ?_⟩
  rw [h3 s hs b hb, k3 s hs b hb]
  simp only [Arith.real]
  rw [← IEEE.sub_real, ← IEEE.sum_real, List.map_map]
  change IEEE.sub _ _ = _
  congr 3
  funext r
  exact IEEE.mul_real _ _

/-- **C73.** For `LinearChainCRF`: if the potential of an edge of row `b` is `-inf` and an event of the stack does not use that edge, the `log_prob` of the event
is NaN, whatever the other potentials are. -/
theorem chain_forbidden_nan (p : T4 EReal) (lengths : Option (List ℕ)) (h : LinearChain.Valid p lengths) (ss : List ℕ) (hs : 0 ∉ ss) (value : Tensor ℝ)
    (hsh : value.shape = ss ++ [p.d0, p.d1, p.d2, p.d3]) (s : List ℕ) (hsi : s ∈ indices ss) (b : ℕ) (hb : b < p.d0) (n i j : ℕ) (hn : n < p.d1) (hi : i < p.d2)
    (hj : j < p.d3) (hbot : p.get b n i j = ⊥) (hzero : value.get (s ++ [b, n, i, j]) = 0) :
    ∃ t, LinearChain.logProbE p lengths value = .ok t ∧ t.get (s ++ [b]) = IEEE.nan := by
  obtain ⟨vs, h1, h2⟩ : ∃ vs, Dist.partitionE LinearChain.algo lengths p = .ok vs ∧ vs.length = p.d0 := by
    refine ⟨_, LinearChainProofs.logpartition_ok _ p lengths h.square h.edges h.lens, by simp⟩
  rw [LinearChain.logProbE, h1]
  refine forbidden_nan _ _ _ ss [p.d1, p.d2, p.d3] p.d0 rfl hsh (by simp [ofList, h2]) hs s hsi b hb [n, i, j] ?_ ?_ ?_
  · rw [mem_indices]; exact .cons hn (.cons hi (.cons hj .nil))
  · simp [of4, hbot]
  · simp [hzero]

/-- The property C73 for `LinearChainCRF`: for one batch row, the `log_prob` of the encoding of a tag sequence that uses no forbidden part is its score minus
the partition. -/
def LogProbWithForbidden : Prop :=
  ∀ (p : T4 EReal), p.d0 = 1 → LinearChain.Valid p none → (∀ n i j, p.get 0 n i j ≠ ⊤) → ∀ y : Tags p.d1 p.d2, seqScore (LinearChain.row p 0) y ≠ ⊥ →
    ∃ e vs t, LinearChain.toParts ⟨1, p.d1 + 1, fun _ n => if h : n < p.d1 + 1 then y ⟨n, h⟩ else 0⟩ p.d2 none = .ok e ∧
      Dist.partitionE LinearChain.algo none p = .ok vs ∧
      LinearChain.logProbE p none ⟨[1, p.d1, p.d2, p.d3], fun ix => e.get (ix.getD 0 0) (ix.getD 1 0) (ix.getD 2 0) (ix.getD 3 0)⟩ = .ok t ∧
      t.get [0] = some (seqScore (LinearChain.row p 0) y - vs.getD 0 0)

/-- Two classes, one edge; the transition from class 1 to class 1 is forbidden. -/
def forbid : T4 EReal := ⟨1, 1, 2, 2, fun _ _ i j => if i = 1 ∧ j = 1 then ⊥ else 0⟩

theorem forbid_valid : LinearChain.Valid forbid none := by
  constructor <;> simp [forbid, ValidLengths]

/-- **C73 (refutation).** The property is false: with one forbidden transition the sequence `0, 0`, whose score is 0, has `log_prob` NaN. -/
theorem logProb_forbidden_false : ¬ LogProbWithForbidden := by
  intro H
  obtain ⟨e, vs, t, h1, h2, h3, h4⟩ := H forbid rfl forbid_valid (fun n i j => by simp only [forbid]; split_ifs <;> simp) (fun _ => (0 : Fin 2)) (by
    simp [seqScore, LinearChain.row, forbid])
  obtain ⟨e', k1, k2⟩ := LinearChain.toParts_spec ⟨1, forbid.d1 + 1, fun _ n => if h : n < forbid.d1 + 1 then ((fun _ => (0 : Fin 2)) : Tags 1 2) ⟨n, h⟩ else 0⟩ 2 none
    (by simp [forbid]) (by intro b _ n _; simp) (by simp)
  obtain rfl : e = e' := by
    have := h1.symm.trans k1; exact Except.ok.inj this
  have hval : e.get 0 0 1 1 = 0 := by
    rw [k2.get 0 (by rw [k2.d0]; simp) 0 (by have := k2.d1; simp [forbid] at this; omega) 1 (by decide) 1 (by decide)]
    simp
  obtain ⟨t', j1, j2⟩ := chain_forbidden_nan forbid none forbid_valid [] (by simp) ⟨[1, forbid.d1, forbid.d2, forbid.d3], fun ix =>
    e.get (ix.getD 0 0) (ix.getD 1 0) (ix.getD 2 0) (ix.getD 3 0)⟩ rfl [] (by simp [indices]) 0 (by decide) 0 1 1 (by decide) (by decide) (by decide)
    (by simp [forbid]) (by simp [hval])
  obtain rfl : t = t' := Except.ok.inj (h3.symm.trans j1)
  rw [List.nil_append, h4] at j2
  exact absurd j2 (by simp [IEEE.nan])

end Props.LogProb
