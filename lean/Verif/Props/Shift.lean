import Verif.Spec.Shift
import Verif.Props.TreeCRF
import Verif.Props.Dependency
import Verif.Props.LabelledDependency
import Verif.Props.SemiMarkov
import Verif.Props.SentCFG

/-! **C69.**  Shift invariance of the other models: potentials that every structure of a row uses equally often can be shifted. -/

open Finset Spec

noncomputable section
namespace Props.Shift

/-! ### The distribution -/

section gibbs
variable {ι : Type} [Fintype ι]

theorem Z_shift (s s' : ι → ℝ) (K : ℝ) (h : ∀ y, s' y = s y + K) : Gibbs.Z s' = Gibbs.Z s * Real.exp K := by
  unfold Gibbs.Z
  rw [sum_mul]
  exact sum_congr rfl fun y _ => by rw [h, Real.exp_add]

theorem log_shift [Nonempty ι] (s s' : ι → ℝ) (K : ℝ) (h : ∀ y, s' y = s y + K) :
    Real.log (∑ y, Real.exp (s' y)) = Real.log (∑ y, Real.exp (s y)) + K := by
  have := Z_shift s s' K h
  unfold Gibbs.Z at this
  rw [this, Real.log_mul (sum_pos (fun y _ => Real.exp_pos _) univ_nonempty).ne' (Real.exp_pos _).ne', Real.log_exp]

theorem prob_shift (s s' : ι → ℝ) (K : ℝ) (h : ∀ y, s' y = s y + K) : Gibbs.prob s' = Gibbs.prob s := by
  funext y
  rw [Gibbs.prob, Gibbs.prob, Z_shift s s' K h, h, Real.exp_add, mul_div_mul_right _ _ (Real.exp_pos K).ne']

theorem entropy_shift (s s' : ι → ℝ) (K : ℝ) (h : ∀ y, s' y = s y + K) : Gibbs.entropy s' = Gibbs.entropy s := by
  rw [Gibbs.entropy, Gibbs.entropy, prob_shift s s' K h]

theorem best_shift {s s' : ι → ℝ} {K : ℝ} (h : ∀ y, s' y = s y + K) {t : ι} (ht : ∀ y, s' y ≤ s' t) (y : ι) : s y ≤ s t := by
  have h5 := ht y
  rw [h, h] at h5
  linarith

end gibbs

theorem adds_map {B : ℕ} {f f' : ℕ → ℝ} {K : ℕ → ℝ} (h : ∀ b < B, f' b = f b + K b) :
    Adds (.ok ((List.range B).map f)) (.ok ((List.range B).map f')) B K := by
  refine ⟨_, _, rfl, rfl, by simp, by simp, fun b h1 h2 => ?_⟩
  simp only [List.getElem_map, List.getElem_range]
  exact h b (by simpa using h1)

/-- Two maxima over the same structures. -/
theorem adds_max {ι : ℕ → Type} {B : ℕ} {s s' : ∀ b, ι b → ℝ} {K : ℕ → ℝ} (hs : ∀ b y, s' b y = s b y + K b) {r r' : Except PyErr (List ℝ)}
    (h : ∃ vs, r = .ok vs ∧ vs.length = B ∧ ∀ b (hb : b < vs.length), (∃ y, vs[b] = s b y) ∧ ∀ y, s b y ≤ vs[b])
    (h' : ∃ vs, r' = .ok vs ∧ vs.length = B ∧ ∀ b (hb : b < vs.length), (∃ y, vs[b] = s' b y) ∧ ∀ y, s' b y ≤ vs[b]) : Adds r r' B K := by
  obtain ⟨vs, h1, h2, h3⟩ := h
  obtain ⟨vs', h1', h2', h3'⟩ := h'
  refine ⟨vs, vs', h1, h1', h2, h2', fun b hb hb' => ?_⟩
  obtain ⟨⟨y, hy⟩, hu⟩ := h3 b hb
  obtain ⟨⟨y', hy'⟩, hu'⟩ := h3' b hb'
  have e1 := hu y'
  have e2 := hu' y
  rw [hs] at e2 hy'
  linarith

/-! ### TreeCRF -/

/-- `a b i` is added to every label of word `i` of row `b`, and `c b` to every label of every wider span. -/
def shiftTree (p : T4 ℝ) (a : ℕ → ℕ → ℝ) (c : ℕ → ℝ) : T4 ℝ := { p with get := fun b i j l => p.get b i j l + if i = j then a b i else c b }

theorem spans_shift {NT : ℕ} (φ : ℕ → ℕ → ℕ → ℝ) (a : ℕ → ℝ) (c : ℝ) : ∀ (t : LTree NT) (i : ℕ),
    ((t.spans i).map fun s => φ s.1 s.2.1 s.2.2 + if s.1 = s.2.1 then a s.1 else c).sum =
      ((t.spans i).map fun s => φ s.1 s.2.1 s.2.2).sum + (∑ k ∈ range t.size, a (i + k) + ((t.size : ℝ) - 1) * c)
  | .leaf x, i => by simp [LTree.spans, LTree.size]
  | .node x l r, i => by
    have hl := l.size_pos
    have hr := r.size_pos
    have e : i ≠ i + l.size + r.size - 1 := by omega
    simp only [LTree.spans, LTree.size, List.map_cons, List.map_append, List.sum_cons, List.sum_append, spans_shift φ a c l, spans_shift φ a c r,
      if_neg e, sum_range_add]
    push_cast
    simp only [add_assoc]
    ring

/-- How much the score of every tree of row `b` changes. -/
def treeK (p : T4 ℝ) (lengths : Option (List ℕ)) (a : ℕ → ℕ → ℝ) (c : ℕ → ℝ) (b : ℕ) : ℝ :=
  ∑ k ∈ range (TreeCRF.len p lengths b), a b k + ((TreeCRF.len p lengths b : ℝ) - 1) * c b

theorem treeScore_shift (p : T4 ℝ) (lengths : Option (List ℕ)) (a : ℕ → ℕ → ℝ) (c : ℕ → ℝ) (b : ℕ) (t : Trees p.d3 (TreeCRF.len p lengths b)) :
    treeScore (TreeCRF.row (shiftTree p a c) b) t = treeScore (TreeCRF.row p b) t + treeK p lengths a c b := by
  have := spans_shift (TreeCRF.row p b) (a b) (c b) t.1 0
  rw [t.2] at this
  simp only [zero_add] at this
  exact this

theorem shiftTree_valid {p : T4 ℝ} {lengths : Option (List ℕ)} (h : TreeCRF.Valid p lengths) (a : ℕ → ℕ → ℝ) (c : ℕ → ℝ) :
    TreeCRF.Valid (shiftTree p a c) lengths := { h with }

/-- **C69.**  `TreeCRF`: adding `a_i` to word `i` and `c` to every wider span adds `∑ a_i + (N - 1) c` to `partition` and `max`, changes neither `marginals`
nor `entropy`, and the argmax of the shifted table is a best tree of the original table. -/
theorem tree_shift (p : T4 ℝ) (lengths : Option (List ℕ)) (h : TreeCRF.Valid p lengths) (a : ℕ → ℕ → ℝ) (c : ℕ → ℝ) :
    Adds (Dist.partition CKYCRF.algo p lengths) (Dist.partition CKYCRF.algo (shiftTree p a c) lengths) p.d0 (treeK p lengths a c) ∧
    Adds (Dist.max CKYCRF.algo p lengths) (Dist.max CKYCRF.algo (shiftTree p a c) lengths) p.d0 (treeK p lengths a c) ∧
    Dist.entropy CKYCRF.algo (shiftTree p a c) lengths = Dist.entropy CKYCRF.algo p lengths ∧
    (∃ μ μ', Dist.marginals CKYCRF.algo p lengths = .ok μ ∧ Dist.marginals CKYCRF.algo (shiftTree p a c) lengths = .ok μ' ∧
      ∀ b < p.d0, ∀ i j (l : Fin p.d3), μ' [b, i, j, (l : ℕ)] = μ [b, i, j, (l : ℕ)]) ∧
    ∀ pick, Autograd.IsArgmax Prod.fst pick → ∃ μ, Dist.argmax CKYCRF.algo (shiftTree p a c) lengths pick = .ok μ ∧
      ∀ b < p.d0, ∃ t : Trees p.d3 (TreeCRF.len p lengths b), (∀ t' : Trees p.d3 (TreeCRF.len p lengths b), treeScore (TreeCRF.row p b) t' ≤ treeScore (TreeCRF.row p b) t) ∧
        ∀ i j (l : Fin p.d3), μ [b, i, j, (l : ℕ)] = if (i, j, l) ∈ t.1.spans 0 then 1 else 0 := by
  have hs := treeScore_shift p lengths a c
  have hv := shiftTree_valid h a c
  refine ⟨?_, ?_, ?_, ?_, ?_⟩
  · rw [TreeCRF.partition_spec p lengths h, TreeCRF.partition_spec _ lengths hv]
    refine adds_map fun b hb => ?_
    have := TreeCRF.trees_nonempty p lengths h b hb
    exact @log_shift _ _ this _ _ _ (hs b)
  · exact adds_max hs (TreeCRF.max_spec p lengths h) (TreeCRF.max_spec _ lengths hv)
  · rw [TreeCRF.entropy_spec p lengths h, TreeCRF.entropy_spec _ lengths hv]
    congr 1
    exact List.map_congr_left fun b _ => entropy_shift _ _ _ (hs b)
  · obtain ⟨μ, h1, h2⟩ := TreeCRF.marginals_spec p lengths h
    obtain ⟨μ', h1', h2'⟩ := TreeCRF.marginals_spec _ lengths hv
    refine ⟨μ, μ', h1, h1', fun b hb i j l => ?_⟩
    rw [h2 b hb]
    refine (h2' b hb i j l).trans ?_
    unfold TreeCRF.spanProb
    rw [← prob_shift _ _ _ (hs b)]
    rfl
  · intro pick hp
    obtain ⟨μ, h1, h2⟩ := TreeCRF.argmax_spec _ lengths hv hp
    refine ⟨μ, h1, fun b hb => ?_⟩
    obtain ⟨t, h3, h4⟩ := h2 b hb
    exact ⟨t, best_shift (hs b) h3, h4⟩

/-! ### DependencyCRF -/

/-- `a b j` is added to every arc of row `b` into word `j`, the arc from the root included. -/
def shiftArcs (q : DepTree.Arcs ℝ) (a : ℕ → ℕ → ℝ) : DepTree.Arcs ℝ := { q with get := fun b i j l => q.get b i j l + a b j }

theorem arcCell_snd (hd k : ℕ) : (arcCell hd k).2 = k := by unfold arcCell; split_ifs <;> rfl

theorem depScore_shift (q : DepTree.Arcs ℝ) (a : ℕ → ℕ → ℝ) (b : ℕ) {n : ℕ} (h : Heads n) :
    depScore (Dependency.row (shiftArcs q a) b) h = depScore (Dependency.row q b) h + ∑ k ∈ range n, a b k := by
  unfold depScore
  rw [Finset.sum_range, ← sum_add_distrib]
  refine sum_congr rfl fun k _ => ?_
  change q.get b _ _ 0 + a b _ = q.get b _ _ 0 + _
  rw [arcCell_snd]

theorem shiftArcs_valid {mr : Bool} {q : DepTree.Arcs ℝ} {lengths : Option (List ℕ)} (h : Dependency.Valid mr q lengths) (a : ℕ → ℕ → ℝ) :
    Dependency.Valid mr (shiftArcs q a) lengths := { h with }

open Classical in
/-- **C69.**  `DependencyCRF`, both root modes: adding `a_j` to every arc into word `j` adds `∑ a_j` to `partition` and `max`, changes neither `marginals` nor
`entropy`, and the argmax of the shifted table is a best tree of the original table. -/
theorem dependency_shift (mr : Bool) (q : DepTree.Arcs ℝ) (lengths : Option (List ℕ)) (h : Dependency.Valid mr q lengths) (a : ℕ → ℕ → ℝ) :
    Adds (DepTree.partition mr q lengths) (DepTree.partition mr (shiftArcs q a) lengths) q.d0 (fun b => ∑ k ∈ range (Dependency.len q lengths b), a b k) ∧
    Adds (DepTree.max mr q lengths) (DepTree.max mr (shiftArcs q a) lengths) q.d0 (fun b => ∑ k ∈ range (Dependency.len q lengths b), a b k) ∧
    DepTree.entropy mr (shiftArcs q a) lengths = DepTree.entropy mr q lengths ∧
    (∃ μ μ', DepTree.marginals mr q lengths = .ok μ ∧ DepTree.marginals mr (shiftArcs q a) lengths = .ok μ' ∧
      ∀ b < q.d0, ∀ i j, μ' [b, i, j] = μ [b, i, j]) ∧
    ∀ pick, Autograd.IsArgmax Prod.fst pick → ∃ μ, DepTree.argmax mr (shiftArcs q a) lengths pick = .ok μ ∧
      ∀ b < q.d0, ∃ t : ProjTrees mr (Dependency.len q lengths b),
        (∀ t' : ProjTrees mr (Dependency.len q lengths b), depScore (Dependency.row q b) t'.1 ≤ depScore (Dependency.row q b) t.1) ∧
        ∀ i j, μ [b, i, j] = if HasArc t.1 i j then 1 else 0 := by
  have hs : ∀ b (t : ProjTrees mr (Dependency.len q lengths b)), depScore (Dependency.row (shiftArcs q a) b) t.1 =
      depScore (Dependency.row q b) t.1 + ∑ k ∈ range (Dependency.len q lengths b), a b k := fun b t => depScore_shift q a b t.1
  have hv := shiftArcs_valid h a
  refine ⟨?_, ?_, ?_, ?_, ?_⟩
  · rw [Dependency.partition_spec mr q lengths h, Dependency.partition_spec mr _ lengths hv]
    refine adds_map fun b hb => ?_
    have := Dependency.trees_nonempty h b hb
    exact @log_shift _ _ this _ _ _ (hs b)
  · exact adds_max hs (Dependency.max_spec mr q lengths h) (Dependency.max_spec mr _ lengths hv)
  · rw [Dependency.entropy_spec mr q lengths h, Dependency.entropy_spec mr _ lengths hv]
    congr 1
    exact List.map_congr_left fun b _ => entropy_shift _ _ _ (hs b)
  · obtain ⟨μ, h1, h2⟩ := Dependency.marginals_spec mr q lengths h
    obtain ⟨μ', h1', h2'⟩ := Dependency.marginals_spec mr _ lengths hv
    refine ⟨μ, μ', h1, h1', fun b hb i j => ?_⟩
    rw [h2 b hb]
    refine (h2' b hb i j).trans ?_
    unfold Dependency.arcProb
    rw [← prob_shift _ _ _ (hs b)]
    rfl
  · intro pick hp
    obtain ⟨μ, h1, h2⟩ := Dependency.argmax_spec mr _ lengths hv hp
    refine ⟨μ, h1, fun b hb => ?_⟩
    obtain ⟨t, h3, h4⟩ := h2 b hb
    exact ⟨t, best_shift (hs b) h3, h4⟩

theorem labScore_shift (q : DepTree.Arcs ℝ) (a : ℕ → ℕ → ℝ) (b : ℕ) {mr : Bool} {n L : ℕ} (t : LabelledTrees mr n L) :
    labScore (LabelledDependency.row (shiftArcs q a) b) t = labScore (LabelledDependency.row q b) t + ∑ k ∈ range n, a b k := by
  unfold labScore
  rw [Finset.sum_range, ← sum_add_distrib]
  refine sum_congr rfl fun k _ => ?_
  change q.get b _ _ _ + a b _ = q.get b _ _ _ + _
  rw [arcCell_snd]

open Classical in
/-- **C69.**  The same with labels: `a_j` is added to every arc into word `j`, whatever its label. -/
theorem labelled_shift (mr : Bool) (q : DepTree.Arcs ℝ) (lengths : Option (List ℕ)) (h : LabelledDependency.Valid mr q lengths) (a : ℕ → ℕ → ℝ) :
    Adds (DepTree.partition mr q lengths) (DepTree.partition mr (shiftArcs q a) lengths) q.d0 (fun b => ∑ k ∈ range (LabelledDependency.len q lengths b), a b k) ∧
    Adds (DepTree.max mr q lengths) (DepTree.max mr (shiftArcs q a) lengths) q.d0 (fun b => ∑ k ∈ range (LabelledDependency.len q lengths b), a b k) ∧
    DepTree.entropy mr (shiftArcs q a) lengths = DepTree.entropy mr q lengths ∧
    (∃ μ μ', DepTree.marginals mr q lengths = .ok μ ∧ DepTree.marginals mr (shiftArcs q a) lengths = .ok μ' ∧
      ∀ b < q.d0, ∀ i j l, μ' [b, i, j, l] = μ [b, i, j, l]) ∧
    ∀ pick, Autograd.IsArgmax Prod.fst pick → ∃ μ, DepTree.argmax mr (shiftArcs q a) lengths pick = .ok μ ∧
      ∀ b < q.d0, ∃ t : LabelledTrees mr (LabelledDependency.len q lengths b) q.d3,
        (∀ t' : LabelledTrees mr (LabelledDependency.len q lengths b) q.d3, labScore (LabelledDependency.row q b) t' ≤ labScore (LabelledDependency.row q b) t) ∧
        ∀ i j l, μ [b, i, j, l] = if HasLabArc t i j l then 1 else 0 := by
  have hs : ∀ b (t : LabelledTrees mr (LabelledDependency.len q lengths b) q.d3), labScore (LabelledDependency.row (shiftArcs q a) b) t =
      labScore (LabelledDependency.row q b) t + ∑ k ∈ range (LabelledDependency.len q lengths b), a b k := fun b t => labScore_shift q a b t
  have hv : LabelledDependency.Valid mr (shiftArcs q a) lengths := { h with }
  refine ⟨?_, ?_, ?_, ?_, ?_⟩
  · rw [LabelledDependency.partition_spec mr q lengths h, LabelledDependency.partition_spec mr _ lengths hv]
    refine adds_map fun b hb => ?_
    have := LabelledDependency.trees_nonempty h b hb
    exact @log_shift _ _ this _ _ _ (hs b)
  · exact adds_max hs (LabelledDependency.max_spec mr q lengths h) (LabelledDependency.max_spec mr _ lengths hv)
  · rw [LabelledDependency.entropy_spec mr q lengths h, LabelledDependency.entropy_spec mr _ lengths hv]
    congr 1
    exact List.map_congr_left fun b _ => entropy_shift _ _ _ (hs b)
  · obtain ⟨μ, h1, h2⟩ := LabelledDependency.marginals_spec mr q lengths h
    obtain ⟨μ', h1', h2'⟩ := LabelledDependency.marginals_spec mr _ lengths hv
    refine ⟨μ, μ', h1, h1', fun b hb i j l => ?_⟩
    rw [h2 b hb]
    refine (h2' b hb i j l).trans ?_
    unfold LabelledDependency.arcProb
    rw [← prob_shift _ _ _ (hs b)]
    rfl
  · intro pick hp
    obtain ⟨μ, h1, h2⟩ := LabelledDependency.argmax_spec mr _ lengths hv hp
    refine ⟨μ, h1, fun b hb => ?_⟩
    obtain ⟨t, h3, h4⟩ := h2 b hb
    exact ⟨t, best_shift (hs b) h3, h4⟩

/-! ### SemiMarkovCRF -/

/-- A segment of row `b` that covers the steps `n, ..., n + k - 1` gets `a b n + ... + a b (n + k - 1)` more. -/
def shiftSeg (p : T5 ℝ) (a : ℕ → ℕ → ℝ) : T5 ℝ := { p with get := fun b n k c c' => p.get b n k c c' + ∑ m ∈ range k, a b (n + m) }

theorem segEdges_shift {C : ℕ} (φ : ℕ → ℕ → ℕ → ℕ → ℝ) (a : ℕ → ℝ) : ∀ (l : List (ℕ × Fin C)) (n : ℕ) (c : Fin C),
    ((segEdges n c l).map fun s => φ s.1 s.2.1 s.2.2.1 s.2.2.2 + ∑ m ∈ range s.2.1, a (s.1 + m)).sum =
      ((segEdges n c l).map fun s => φ s.1 s.2.1 s.2.2.1 s.2.2.2).sum + ∑ m ∈ range (l.map Prod.fst).sum, a (n + m)
  | [], n, c => by simp [segEdges]
  | (k, c') :: l, n, c => by
    simp only [segEdges, List.map_cons, List.sum_cons, segEdges_shift φ a l, sum_range_add, add_assoc]
    ring

theorem segScore_shift (p : T5 ℝ) (lengths : Option (List ℕ)) (a : ℕ → ℕ → ℝ) (b : ℕ) (y : SemiMarkov.Seg p lengths b) :
    segScore (SemiMarkov.row (shiftSeg p a) b) y = segScore (SemiMarkov.row p b) y + ∑ m ∈ range (SemiMarkov.steps p lengths b), a b m := by
  have := segEdges_shift (SemiMarkov.row p b) (a b) y.2.1 0 y.1
  have e := y.2.2.2
  rw [zero_add] at e
  rw [e] at this
  simp only [zero_add] at this
  exact this

theorem shiftSeg_valid {p : T5 ℝ} {lengths : Option (List ℕ)} (h : SemiMarkov.Valid p lengths) (a : ℕ → ℕ → ℝ) :
    SemiMarkov.Valid (shiftSeg p a) lengths := { h with }

/-- **C69.**  `SemiMarkovCRF`: adding `a_m` for every step `m` that a segment covers adds `∑ a_m` to `partition` and leaves `marginals` unchanged, up to the error of
the stand-in `-1e5` for each of the two tables. -/
theorem semimarkov_shift (p : T5 ℝ) (lengths : Option (List ℕ)) (h : SemiMarkov.Valid p lengths) (a : ℕ → ℕ → ℝ) {B B' : ℝ}
    (hB : SemiMarkov.Bounded p lengths B) (hB' : SemiMarkov.Bounded (shiftSeg p a) lengths B') :
    AddsUpTo (Dist.partition SemiMarkov.algo p lengths) (Dist.partition SemiMarkov.algo (shiftSeg p a) lengths) p.d0
      (fun b => ∑ m ∈ range (SemiMarkov.steps p lengths b), a b m) (fun b => SemiMarkov.err p lengths B b + SemiMarkov.err p lengths B' b) ∧
    (∃ μ μ', Dist.marginals SemiMarkov.algo p lengths = .ok μ ∧ Dist.marginals SemiMarkov.algo (shiftSeg p a) lengths = .ok μ' ∧
      ∀ b < p.d0, ∀ n k (c c' : Fin p.d3), |μ' [b, n, k, (c : ℕ), (c' : ℕ)] - μ [b, n, k, (c : ℕ), (c' : ℕ)]| ≤
        SemiMarkov.err p lengths B b + SemiMarkov.err p lengths B' b) := by
  have hs := segScore_shift p lengths a
  have hv := shiftSeg_valid h a
  constructor
  · obtain ⟨vs, h1, h2, h3⟩ := SemiMarkov.partition_spec p lengths h hB
    obtain ⟨vs', h1', h2', h3'⟩ := SemiMarkov.partition_spec _ lengths hv hB'
    refine ⟨vs, vs', h1, h1', h2, h2', fun b hb hb' => ?_⟩
    have e1 := h3 b hb
    have e2 := h3' b hb'
    have := SemiMarkov.seg_nonempty h b
    have e3 : SemiMarkov.truth (shiftSeg p a) lengths b = SemiMarkov.truth p lengths b + ∑ m ∈ range (SemiMarkov.steps p lengths b), a b m :=
      @log_shift _ _ this _ _ _ (hs b)
    change SemiMarkov.truth (shiftSeg p a) lengths b ≤ _ ∧ _ ≤ _ + SemiMarkov.err p lengths B' b at e2
    rw [e3] at e2
    rw [abs_le]
    constructor <;> linarith [e1.1, e1.2, e2.1, e2.2]
  · obtain ⟨μ, h1, h2⟩ := SemiMarkov.marginals_spec p lengths h hB
    obtain ⟨μ', h1', h2'⟩ := SemiMarkov.marginals_spec _ lengths hv hB'
    refine ⟨μ, μ', h1, h1', fun b hb n k c c' => ?_⟩
    have e1 := h2 b hb n k c c'
    have e2 : |μ' [b, n, k, (c : ℕ), (c' : ℕ)] - SemiMarkov.segProb (K := p.d2) (SemiMarkov.row (shiftSeg p a) b) (SemiMarkov.steps p lengths b) n k c c'| ≤
      SemiMarkov.err p lengths B' b := h2' b hb n k c c'
    have e3 : SemiMarkov.segProb (K := p.d2) (SemiMarkov.row (shiftSeg p a) b) (SemiMarkov.steps p lengths b) n k c c' =
        SemiMarkov.segProb (K := p.d2) (SemiMarkov.row p b) (SemiMarkov.steps p lengths b) n k c c' := by
      unfold SemiMarkov.segProb
      rw [prob_shift _ _ _ (hs b)]
    rw [e3] at e2
    rw [abs_le] at *
    constructor <;> linarith [e1.1, e1.2, e2.1, e2.2]

/-- **C69.**  `max` of `SemiMarkovCRF`, exactly, for potentials that are small compared to the stand-in. -/
theorem semimarkov_shift_max (p : T5 ℝ) (lengths : Option (List ℕ)) (h : SemiMarkov.Valid p lengths) (a : ℕ → ℕ → ℝ) {B B' : ℝ}
    (hB : SemiMarkov.Bounded p lengths B) (hB' : SemiMarkov.Bounded (shiftSeg p a) lengths B') (hs : 2 * p.d1 * B < 100000) (hs' : 2 * p.d1 * B' < 100000) :
    Adds (Dist.max SemiMarkov.algo p lengths) (Dist.max SemiMarkov.algo (shiftSeg p a) lengths) p.d0
      (fun b => ∑ m ∈ range (SemiMarkov.steps p lengths b), a b m) :=
  adds_max (segScore_shift p lengths a) (SemiMarkov.max_spec p lengths h hB hs) (SemiMarkov.max_spec _ lengths (shiftSeg_valid h a) hB' hs')

/-- **C69.**  `entropy` of `SemiMarkovCRF`, up to the error for each of the two tables. -/
theorem semimarkov_shift_entropy (p : T5 ℝ) (lengths : Option (List ℕ)) (h : SemiMarkov.Valid p lengths) (a : ℕ → ℕ → ℝ) {B B' : ℝ}
    (hB : SemiMarkov.Bounded p lengths B) (hB' : SemiMarkov.Bounded (shiftSeg p a) lengths B') :
    AddsUpTo (Dist.entropy SemiMarkov.algo p lengths) (Dist.entropy SemiMarkov.algo (shiftSeg p a) lengths) p.d0 (fun _ => 0) (fun b =>
      SemiMarkov.err p lengths B b * (1 + SemiMarkov.steps p lengths b * B + SemiMarkov.binN p * (100000 + B)) +
      SemiMarkov.err p lengths B' b * (1 + SemiMarkov.steps p lengths b * B' + SemiMarkov.binN p * (100000 + B'))) := by
  obtain ⟨vs, h1, h2, h3⟩ := SemiMarkov.entropy_spec p lengths h hB
  obtain ⟨vs', h1', h2', h3'⟩ := SemiMarkov.entropy_spec _ lengths (shiftSeg_valid h a) hB'
  refine ⟨vs, vs', h1, h1', h2, h2', fun b hb hb' => ?_⟩
  have e1 := h3 b hb
  have e2 : |vs'[b] - Gibbs.entropy (segScore (SemiMarkov.row (shiftSeg p a) b) : SemiMarkov.Seg p lengths b → ℝ)| ≤
    SemiMarkov.err p lengths B' b * (1 + SemiMarkov.steps p lengths b * B' + SemiMarkov.binN p * (100000 + B')) := h3' b hb'
  rw [entropy_shift _ _ _ (segScore_shift p lengths a b)] at e2
  rw [add_zero]
  exact (abs_sub_le _ _ _).trans ((add_le_add e2 (abs_sub_comm _ _ |>.trans_le e1)).trans_eq (add_comm _ _))

/-- **C69.**  `argmax` of the shifted table is a best segmentation of the original table, for potentials that are small compared to the stand-in. -/
theorem semimarkov_shift_argmax (p : T5 ℝ) (lengths : Option (List ℕ)) (h : SemiMarkov.Valid p lengths) (a : ℕ → ℕ → ℝ) {B' : ℝ}
    (hB' : SemiMarkov.Bounded (shiftSeg p a) lengths B') (hs' : 2 * p.d1 * B' < 100000)
    {pick : List (Autograd.Grad (List ℕ)) → Autograd.Grad (List ℕ)} (hp : Autograd.IsArgmax Prod.fst pick) :
    ∃ μ, Dist.argmax SemiMarkov.algo (shiftSeg p a) lengths pick = .ok μ ∧ ∀ b < p.d0, ∃ y : SemiMarkov.Seg p lengths b,
      (∀ y' : SemiMarkov.Seg p lengths b, segScore (SemiMarkov.row p b) y' ≤ segScore (SemiMarkov.row p b) y) ∧
      ∀ n k (c c' : Fin p.d3), μ [b, n, k, (c : ℕ), (c' : ℕ)] = if (n, k, c, c') ∈ segEdges 0 y.1 y.2.1 then 1 else 0 := by
  obtain ⟨μ, h1, h2⟩ := SemiMarkov.argmax_spec _ lengths (shiftSeg_valid h a) hB' hs' hp
  refine ⟨μ, h1, fun b hb => ?_⟩
  obtain ⟨y, h3, h4⟩ := h2 b hb
  exact ⟨y, best_shift (segScore_shift p lengths a b) h3, h4⟩

/-! ### SentCFG -/

/-- In row `b`, `a b n` is added to every preterminal of word `n`, `c b` to every rule and `r b` to every root. -/
def shiftCfg (p : CKY.Scores ℝ) (a : ℕ → ℕ → ℝ) (c r : ℕ → ℝ) : CKY.Scores ℝ :=
  { p with term := fun b n t => p.term b n t + a b n, rule := fun b x y z => p.rule b x y z + c b, root := fun b x => p.root b x + r b }

theorem words_shift {NT T : ℕ} (φ : ℕ → ℕ → ℝ) (a : ℕ → ℝ) : ∀ (d : Deriv NT T) (i : ℕ),
    ((d.words i).map fun x => φ x.1 x.2 + a x.1).sum = ((d.words i).map fun x => φ x.1 x.2).sum + ∑ k ∈ range d.size, a (i + k)
  | .leaf x, i => by simp [Deriv.words, GTree.size]
  | .node x l r, i => by
    simp only [Deriv.words, GTree.size, List.map_append, List.sum_append, words_shift φ a l, words_shift φ a r, sum_range_add, add_assoc]
    ring

theorem rules_shift {NT T : ℕ} (φ : ℕ → ℕ → ℕ → ℝ) (c : ℝ) : ∀ d : Deriv NT T,
    (d.rules.map fun x => φ x.1 x.2.1 x.2.2 + c).sum = (d.rules.map fun x => φ x.1 x.2.1 x.2.2).sum + ((d.size : ℝ) - 1) * c
  | .leaf x => by simp [Deriv.rules, GTree.size]
  | .node x l r => by
    simp only [Deriv.rules, GTree.size, List.map_cons, List.sum_cons, List.map_append, List.sum_append, rules_shift φ c l, rules_shift φ c r]
    push_cast
    ring

/-- How much the score of every derivation of row `b` changes. -/
def cfgK (p : CKY.Scores ℝ) (lengths : Option (List ℕ)) (a : ℕ → ℕ → ℝ) (c r : ℕ → ℝ) (b : ℕ) : ℝ :=
  ∑ k ∈ range (SentCFG.len p lengths b), a b k + ((SentCFG.len p lengths b : ℝ) - 1) * c b + r b

theorem dscore_shift (p : CKY.Scores ℝ) (lengths : Option (List ℕ)) (a : ℕ → ℕ → ℝ) (c r : ℕ → ℝ) (b : ℕ) (d : SentCFG.Der p lengths b) :
    SentCFG.dscore (shiftCfg p a c r) b d = SentCFG.dscore p b d + cfgK p lengths a c r b := by
  have e1 := words_shift (p.term b) (a b) d.1 0
  have e2 := rules_shift (p.rule b) (c b) d.1
  rw [d.2.1] at e1 e2
  simp only [zero_add] at e1
  have e3 : SentCFG.dscore (shiftCfg p a c r) b d = (p.root b d.1.sym + r b) + ((d.1.rules.map fun x => p.rule b x.1 x.2.1 x.2.2 + c b).sum +
    ((d.1.words 0).map fun x => p.term b x.1 x.2 + a b x.1).sum) := rfl
  have e4 : SentCFG.dscore p b d = p.root b d.1.sym + ((d.1.rules.map fun x => p.rule b x.1 x.2.1 x.2.2).sum +
    ((d.1.words 0).map fun x => p.term b x.1 x.2).sum) := rfl
  rw [e3, e4, e1, e2, cfgK]
  ring

theorem shiftCfg_valid {p : CKY.Scores ℝ} {lengths : Option (List ℕ)} (h : SentCFG.Valid p lengths) (a : ℕ → ℕ → ℝ) (c r : ℕ → ℝ) :
    SentCFG.Valid (shiftCfg p a c r) lengths := { h with }

/-- **C69.**  `SentCFG`: adding `a_n` to the preterminals of word `n`, `c` to every rule and `r` to every root adds `∑ a_n + (N - 1) c + r` to `partition`
and leaves the expected counts of preterminals, rules and roots unchanged, up to the error of the stand-in `-1e5` for each of the two tables. -/
theorem cfg_shift (p : CKY.Scores ℝ) (lengths : Option (List ℕ)) (h : SentCFG.Valid p lengths) (hl : SentCFG.Long p lengths) (a : ℕ → ℕ → ℝ)
    (c r : ℕ → ℝ) {B B' : ℝ} (hB : SentCFG.Bounded p lengths B) (hB' : SentCFG.Bounded (shiftCfg p a c r) lengths B') :
    AddsUpTo (Dist.partition CKY.algo p lengths) (Dist.partition CKY.algo (shiftCfg p a c r) lengths) p.batch
      (cfgK p lengths a c r) (fun b => SentCFG.err p lengths B b + SentCFG.err p lengths B' b) ∧
    (∃ μ μ', CKY.marginals p lengths = .ok μ ∧ CKY.marginals (shiftCfg p a c r) lengths = .ok μ' ∧ ∀ b < p.batch,
      (∀ n t, |μ'.term b n t - μ.term b n t| ≤ (SentCFG.err p lengths B b + SentCFG.err p lengths B' b) * (3 * p.N)) ∧
      (∀ X y z, |μ'.rule b X y z - μ.rule b X y z| ≤ (SentCFG.err p lengths B b + SentCFG.err p lengths B' b) * (3 * p.N)) ∧
      (∀ X, |μ'.root b X - μ.root b X| ≤ (SentCFG.err p lengths B b + SentCFG.err p lengths B' b) * (3 * p.N))) := by
  have hs := dscore_shift p lengths a c r
  have hv := shiftCfg_valid h a c r
  constructor
  · obtain ⟨vs, h1, h2, h3⟩ := SentCFG.partition_spec p lengths h hl hB
    obtain ⟨vs', h1', h2', h3'⟩ := SentCFG.partition_spec _ lengths hv hl hB'
    refine ⟨vs, vs', h1, h1', h2, h2', fun b hb hb' => ?_⟩
    have e1 := h3 b hb
    have e2 := h3' b hb'
    have := SentCFG.der_nonempty h hl b (h2 ▸ hb)
    have e3 : SentCFG.truth (shiftCfg p a c r) lengths b = SentCFG.truth p lengths b + cfgK p lengths a c r b := @log_shift _ _ this _ _ _ (hs b)
    change SentCFG.truth (shiftCfg p a c r) lengths b ≤ _ ∧ _ ≤ _ + SentCFG.err p lengths B' b at e2
    rw [e3] at e2
    rw [abs_le]
    constructor <;> linarith [e1.1, e1.2, e2.1, e2.2]
  · obtain ⟨μ, h1, h2⟩ := SentCFG.marginals_spec p lengths h hl hB
    obtain ⟨μ', h1', h2'⟩ := SentCFG.marginals_spec _ lengths hv hl hB'
    have key : ∀ b f, SentCFG.expected (shiftCfg p a c r) lengths b f = SentCFG.expected p lengths b f := by
      intro b f
      unfold SentCFG.expected
      rw [← prob_shift _ _ _ (hs b)]
      rfl
    refine ⟨μ, μ', h1, h1', fun b hb => ?_⟩
    obtain ⟨a1, a2, a3, -⟩ := h2 b hb
    obtain ⟨b1, b2, b3, -⟩ := h2' b hb
    have comb : ∀ x x' e ε ε' : ℝ, |x - e| ≤ ε * (3 * p.N) → |x' - e| ≤ ε' * (3 * p.N) → |x' - x| ≤ (ε + ε') * (3 * p.N) := by
      intro x x' e ε ε' h1 h2
      rw [abs_le] at *
      constructor <;> linarith [h1.1, h1.2, h2.1, h2.2]
    refine ⟨fun n t => comb _ _ _ _ _ (a1 n t) ?_, fun X y z => comb _ _ _ _ _ (a2 X y z) ?_, fun X => comb _ _ _ _ _ (a3 X) ?_⟩
    · have := b1 n t; rw [key] at this; exact this
    · have := b2 X y z; rw [key] at this; exact this
    · have := b3 X; rw [key] at this; exact this

/-- **C69.**  `max` of `SentCFG`, exactly, for potentials that are small compared to the stand-in. -/
theorem cfg_shift_max (p : CKY.Scores ℝ) (lengths : Option (List ℕ)) (h : SentCFG.Valid p lengths) (hl : SentCFG.Long p lengths) (a : ℕ → ℕ → ℝ)
    (c r : ℕ → ℝ) {B B' : ℝ} (hB : SentCFG.Bounded p lengths B) (hB' : SentCFG.Bounded (shiftCfg p a c r) lengths B')
    (hs : 4 * p.N * B < 100000) (hs' : 4 * p.N * B' < 100000) :
    Adds (Dist.max CKY.algo p lengths) (Dist.max CKY.algo (shiftCfg p a c r) lengths) p.batch (cfgK p lengths a c r) :=
  adds_max (dscore_shift p lengths a c r) (SentCFG.max_spec p lengths h hl hB hs) (SentCFG.max_spec _ lengths (shiftCfg_valid h a c r) hl hB' hs')

/-- **C69.**  `entropy` of `SentCFG`, up to the error for each of the two tables. -/
theorem cfg_shift_entropy (p : CKY.Scores ℝ) (lengths : Option (List ℕ)) (h : SentCFG.Valid p lengths) (hl : SentCFG.Long p lengths) (a : ℕ → ℕ → ℝ)
    (c r : ℕ → ℝ) {B B' : ℝ} (hB : SentCFG.Bounded p lengths B) (hB' : SentCFG.Bounded (shiftCfg p a c r) lengths B') :
    AddsUpTo (Dist.entropy CKY.algo p lengths) (Dist.entropy CKY.algo (shiftCfg p a c r) lengths) p.batch (fun _ => 0) (fun b =>
      SentCFG.err p lengths B b * (1 + 2 * SentCFG.len p lengths b * B + 2 * SentCFG.len p lengths b * (100000 + B)) +
      SentCFG.err p lengths B' b * (1 + 2 * SentCFG.len p lengths b * B' + 2 * SentCFG.len p lengths b * (100000 + B'))) := by
  obtain ⟨vs, h1, h2, h3⟩ := SentCFG.entropy_spec p lengths h hl hB
  obtain ⟨vs', h1', h2', h3'⟩ := SentCFG.entropy_spec _ lengths (shiftCfg_valid h a c r) hl hB'
  refine ⟨vs, vs', h1, h1', h2, h2', fun b hb hb' => ?_⟩
  have e1 := h3 b hb
  have e2 : |vs'[b] - Gibbs.entropy (SentCFG.dscore p b : SentCFG.Der p lengths b → ℝ)| ≤
      SentCFG.err p lengths B' b * (1 + 2 * SentCFG.len p lengths b * B' + 2 * SentCFG.len p lengths b * (100000 + B')) := by
    rw [← entropy_shift _ _ _ (dscore_shift p lengths a c r b)]
    exact h3' b hb'
  rw [add_zero]
  exact (abs_sub_le _ _ _).trans ((add_le_add e2 (abs_sub_comm _ _ |>.trans_le e1)).trans_eq (add_comm _ _))

/-- **C69.**  `argmax` of the shifted scores consists of the parts of a best derivation under the original scores, for potentials that are small compared to
the stand-in. -/
theorem cfg_shift_argmax (p : CKY.Scores ℝ) (lengths : Option (List ℕ)) (h : SentCFG.Valid p lengths) (hl : SentCFG.Long p lengths) (a : ℕ → ℕ → ℝ)
    (c r : ℕ → ℝ) {B' : ℝ} (hB' : SentCFG.Bounded (shiftCfg p a c r) lengths B') (hs' : 4 * p.N * B' < 100000)
    {pick : List (Autograd.Grad (List ℕ)) → Autograd.Grad (List ℕ)} (hp : Autograd.IsArgmax Prod.fst pick) :
    ∃ μ, CKY.argmax (shiftCfg p a c r) lengths pick = .ok μ ∧ ∀ b < p.batch, ∃ d : SentCFG.Der p lengths b,
      (∀ d' : SentCFG.Der p lengths b, SentCFG.dscore p b d' ≤ SentCFG.dscore p b d) ∧ SentCFG.IsParts μ b d := by
  obtain ⟨μ, h1, h2⟩ := SentCFG.argmax_spec _ lengths (shiftCfg_valid h a c r) hl hB' hs' hp
  refine ⟨μ, h1, fun b hb => ?_⟩
  obtain ⟨d, h3, h4⟩ := h2 b hb
  exact ⟨d, best_shift (dscore_shift p lengths a c r b) h3, h4⟩

/-- Concrete cases: the tables of the other properties, shifted by different amounts. -/
example : TreeCRF.Valid TreeCRF.sample (some [3, 2]) ∧ Dependency.Valid false Dependency.sample (some [3, 2]) ∧
    treeK TreeCRF.sample (some [3, 2]) (fun _ i => i) (fun _ => 5) 0 = 13 ∧ treeK TreeCRF.sample (some [3, 2]) (fun _ i => i) (fun _ => 5) 1 = 6 := by
  refine ⟨TreeCRF.sample_valid, Dependency.sample_valid false, ?_, ?_⟩ <;> norm_num [treeK, TreeCRF.len, lenOf, sum_range_succ]

/-- The shifted tables are bounded when the original ones and the shifts are. -/
theorem shiftSeg_bounded {p : T5 ℝ} {lengths : Option (List ℕ)} {B A : ℝ} (h : SemiMarkov.Bounded p lengths B) {a : ℕ → ℕ → ℝ} (hA : 0 ≤ A)
    (ha : ∀ b m, |a b m| ≤ A) : SemiMarkov.Bounded (shiftSeg p a) lengths (B + p.d2 * A) where
  nonneg := by have := h.nonneg; positivity
  bound b hb n k c c' hn h1 hk hc hc' := by
    refine (abs_add_le _ _).trans (add_le_add (h.bound b hb n k c c' hn h1 hk hc hc') ((abs_sum_le_sum_abs _ _).trans ?_))
    refine (sum_le_card_nsmul _ _ A fun m _ => ha b _).trans ?_
    rw [card_range, nsmul_eq_mul]
    exact mul_le_mul_of_nonneg_right (by exact_mod_cast hk.le) hA

theorem shiftCfg_bounded {p : CKY.Scores ℝ} {lengths : Option (List ℕ)} {B A : ℝ} (h : SentCFG.Bounded p lengths B) {a : ℕ → ℕ → ℝ} {c r : ℕ → ℝ}
    (hA : 0 ≤ A) (ha : ∀ b m, |a b m| ≤ A) (hc : ∀ b, |c b| ≤ A) (hr : ∀ b, |r b| ≤ A) : SentCFG.Bounded (shiftCfg p a c r) lengths (B + A) where
  nonneg := by have := h.nonneg; positivity
  term b hb n hn t ht := (abs_add_le _ _).trans (add_le_add (h.term b hb n hn t ht) (ha _ _))
  rule b hb X hX y hy z hz := (abs_add_le _ _).trans (add_le_add (h.rule b hb X hX y hy z hz) (hc _))
  root b hb X hX := (abs_add_le _ _).trans (add_le_add (h.root b hb X hX) (hr _))

example : SemiMarkov.Valid (shiftSeg SemiMarkov.sample fun _ m => m) (some [4, 3]) ∧ SentCFG.Valid (shiftCfg SentCFG.sample (fun _ n => n) (fun _ => 1) (fun _ => 2)) (some [3, 2]) :=
  ⟨shiftSeg_valid SemiMarkov.sample_valid _, shiftCfg_valid SentCFG.sample_valid _ _ _⟩

end Props.Shift
