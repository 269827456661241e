import Verif.Props.Gradient

/-! Property theorems C62: every row of `partition` is a convex function of the potentials (`LinearChainCRF` and `NonProjectiveDependencyCRF` are in
`Props.GradientChain` and `Props.GradientNonProj`). -/

open Finset Spec Generic

noncomputable section
namespace Props.Convex

/-! ### `TreeCRF` -/

/-- The potentials on the line from `p` to `q`. -/
def line4 (p q : T4 ℝ) (t : ℝ) : T4 ℝ := ⟨p.d0, p.d1, p.d2, p.d3, fun b i j a => (1 - t) * p.get b i j a + t * q.get b i j a⟩

/-- **C62, `TreeCRF`.** -/
theorem tree_convex (p q : T4 ℝ) (lengths : Option (List ℕ)) (h : TreeCRF.Valid p lengths) (b : ℕ) (hb : b < p.d0) :
    ConvexRow (fun t => Dist.partition CKYCRF.algo (line4 p q t) lengths) b := by
  have D : ∀ t, BatchDP CKYCRF.algo (line4 p q t) lengths p.d0 (CKYCRFProofs.at4 (line4 p q t)) (CKYCRFProofs.Entry p.d1 p.d3 lengths)
      (ι := fun b => Trees p.d3 (lenOf p.d1 lengths b)) (π := fun _ => Empty) (fun b => CKYCRFProofs.treeParts b) (fun _ _ => 0) (fun _ y => y.elim) :=
    fun t => CKYCRFProofs.batchDP (line4 p q t) lengths ⟨h.square, h.words, h.labels, h.lens⟩
  refine BatchDP.partition_convex D (d := fun e => CKYCRFProofs.at4 q e - CKYCRFProofs.at4 p e) ?_ b hb
  rintro t b1 - e -
  simp only [CKYCRFProofs.at4, line4]
  ring

example : ConvexRow (fun t => Dist.partition CKYCRF.algo (line4 TreeCRF.sample ⟨2, 3, 3, 2, fun _ i j a => i * j * a⟩ t) (some [3, 2])) 1 :=
  tree_convex _ _ _ TreeCRF.sample_valid 1 (by decide)

/-! ### `SemiMarkovCRF` -/

/-- The potentials on the line from `p` to `q`. -/
def line5 (p q : T5 ℝ) (t : ℝ) : T5 ℝ := ⟨p.d0, p.d1, p.d2, p.d3, p.d4, fun b n k c c' => (1 - t) * p.get b n k c c' + t * q.get b n k c c'⟩

/-- **C62, `SemiMarkovCRF`.** -/
theorem semimarkov_convex (p q : T5 ℝ) (lengths : Option (List ℕ)) (h : SemiMarkov.Valid p lengths) (b : ℕ) (hb : b < p.d0) :
    ConvexRow (fun t => Dist.partition _root_.SemiMarkov.algo (line5 p q t) lengths) b := by
  have hK := SemiMarkov.hK h
  have D : ∀ t, BatchDP _root_.SemiMarkov.algo (line5 p q t) lengths p.d0 (SemiMarkovProofs.at5 (line5 p q t))
      (SemiMarkovProofs.Entry p lengths) (ι := fun b => Segmentation p.d2 p.d3 (SemiMarkovProofs.steps p lengths b)) (π := SemiMarkovProofs.Ph p lengths hK)
      (fun b => SemiMarkovProofs.segParts b) (fun _ y => 2 ^ Nat.clog 2 p.d1 - y.2.1.length) (fun _ => AtomChain.Phantom.atoms) :=
    fun t => SemiMarkovProofs.batchDP (line5 p q t) lengths ⟨h.rows, h.square, h.classes, h.positions, h.segs, h.lens⟩ hK
  refine BatchDP.partition_convex D (d := fun e => SemiMarkovProofs.at5 q e - SemiMarkovProofs.at5 p e) ?_ b hb
  rintro t b1 - e -
  simp only [SemiMarkovProofs.at5, line5]
  ring

example : ConvexRow (fun t => Dist.partition _root_.SemiMarkov.algo (line5 SemiMarkov.sample ⟨2, 3, 3, 2, 2, fun _ n k c c' => n * k * c * c'⟩ t) (some [4, 3])) 1 :=
  semimarkov_convex _ _ _ SemiMarkov.sample_valid 1 (by decide)

/-! ### `DependencyCRF` -/

/-- The potentials on the line from `p` to `q`. -/
def lineArc (p q : DepTree.Arcs ℝ) (t : ℝ) : DepTree.Arcs ℝ :=
  ⟨p.rank, p.d0, p.d1, p.d2, p.d3, fun b i j l => (1 - t) * p.get b i j l + t * q.get b i j l⟩

theorem arc_convex (mr : Bool) (p q : DepTree.Arcs ℝ) (lengths : Option (List ℕ)) (h : DepTreeProofs.Valid mr p lengths) (b : ℕ) (hb : b < p.d0) :
    ConvexRow (fun t => DepTree.partition mr (lineArc p q t) lengths) b := by
  have hv : ∀ t, DepTree.convert DepTree.negBig (lineArc p q t) = .ok (DepTreeProofs.conv DepTree.negBig (lineArc p q t)) :=
    fun t => DepTreeProofs.convert_ok _ h.rank h.square
  have D : ∀ t, BatchDP (DepTree.algo mr) (DepTreeProofs.conv DepTree.negBig (lineArc p q t)) lengths p.d0
      (DepTreeProofs.atQ DepTree.negBig (lineArc p q t)) (fun b => DepTreeProofs.Entry (decide p.labeled) p.labels (lenOf p.d1 lengths b) b)
      (ι := fun b => LabelledTrees mr (lenOf p.d1 lengths b) p.labels) (π := fun _ => Empty) (fun b => DepTreeProofs.labParts (decide p.labeled) b)
      (fun b _ => DepTreeProofs.onesOf mr (lenOf p.d1 lengths b)) (fun _ y => y.elim) :=
    fun t => DepTreeProofs.batchDP mr DepTree.negBig (lineArc p q t) lengths ⟨h.rank, h.square, h.labels, h.batch, h.words, h.lens⟩
  have h1 := BatchDP.partition_convex D (d := fun e => DepTreeProofs.atQ DepTree.negBig q e - DepTreeProofs.atQ DepTree.negBig p e) ?_ b hb
  · obtain ⟨F, h2, h3⟩ := h1
    refine ⟨F, fun t => ?_, h3⟩
    rw [← h2 t]
    beta_reduce
    rw [DepTree.partition, hv t]
    rfl
  · rintro t b1 - e -
    simp only [DepTreeProofs.atQ, lineArc]
    split_ifs <;> ring

/-- **C62, `DependencyCRF`.** -/
theorem dependency_convex (mr : Bool) (p q : DepTree.Arcs ℝ) (lengths : Option (List ℕ)) (h : Dependency.Valid mr p lengths) (b : ℕ) (hb : b < p.d0) :
    ConvexRow (fun t => DepTree.partition mr (lineArc p q t) lengths) b := arc_convex mr p q lengths h.toValid b hb

example (mr : Bool) : ConvexRow (fun t => DepTree.partition mr (lineArc Dependency.sample ⟨3, 2, 3, 3, 0, fun _ i j _ => i * j⟩ t) (some [3, 2])) 1 :=
  dependency_convex mr _ _ _ (Dependency.sample_valid mr) 1 (by decide)

/-- **C62, `DependencyCRF` with labels.** -/
theorem labelled_convex (mr : Bool) (p q : DepTree.Arcs ℝ) (lengths : Option (List ℕ)) (h : LabelledDependency.Valid mr p lengths) (b : ℕ) (hb : b < p.d0) :
    ConvexRow (fun t => DepTree.partition mr (lineArc p q t) lengths) b := arc_convex mr p q lengths h.toValid b hb

example (mr : Bool) : ConvexRow (fun t => DepTree.partition mr (lineArc LabelledDependency.sample ⟨4, 2, 3, 3, 2, fun _ i j l => i * j * l⟩ t) (some [3, 2])) 1 :=
  labelled_convex mr _ _ _ (LabelledDependency.sample_valid mr) 1 (by decide)

/-! ### `SentCFG` -/

/-- The scores on the line from `p` to `q`. -/
def lineCfg (p q : CKY.Scores ℝ) (t : ℝ) : CKY.Scores ℝ :=
  { p with
    term := fun b n s => (1 - t) * p.term b n s + t * q.term b n s
    rule := fun b X y z => (1 - t) * p.rule b X y z + t * q.rule b X y z
    root := fun b X => (1 - t) * p.root b X + t * q.root b X }

/-- **C62, `SentCFG`**: `partition` is convex in the terminal, rule and root scores together. -/
theorem cfg_convex (p q : CKY.Scores ℝ) (lengths : Option (List ℕ)) (h : SentCFG.Valid p lengths) (b : ℕ) (hb : b < p.batch) :
    ConvexRow (fun t => Dist.partition CKY.algo (lineCfg p q t) lengths) b := by
  have D : ∀ t, BatchDP CKY.algo (lineCfg p q t) lengths p.batch (CKYProofs.atS (lineCfg p q t)) (CKYProofs.Entry p.N p.NT p.T p.mark.isSome lengths)
      (ι := fun b => Derivs p.NT p.T (lenOf p.N lengths b)) (π := fun b => CKYProofs.Ph p.NT p.T (lenOf p.N lengths b))
      (fun b => CKYProofs.derivParts p.mark.isSome b) (fun _ _ => 0) (fun b => CKYProofs.phAtoms p.mark.isSome b) :=
    fun t => CKYProofs.batchDP (lineCfg p q t) lengths ⟨h.symbols, h.nonterminals, h.preterminals, h.rows, h.words, h.lens⟩
  refine BatchDP.partition_convex D (d := fun e => CKYProofs.atS q e - CKYProofs.atS p e) ?_ b hb
  rintro t b1 - e (⟨n, s, rfl, -⟩ | ⟨X, y, z, rfl, -⟩ | ⟨X, rfl, -⟩ | ⟨h0, -⟩)
  · simp only [CKYProofs.atS, lineCfg]; ring
  · simp only [CKYProofs.atS, lineCfg]; ring
  · simp only [CKYProofs.atS, lineCfg]; ring
  · rw [h.plain] at h0; simp at h0

example : ConvexRow (fun t => Dist.partition CKY.algo (lineCfg SentCFG.sample ⟨2, 3, 1, 2, 3, fun _ n t => n * t, fun _ x y z => x * y * z, fun _ x => x, none⟩ t) (some [3, 2])) 1 :=
  cfg_convex _ _ _ SentCFG.sample_valid 1 (by decide)

end Props.Convex
