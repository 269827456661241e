import Verif.Proofs.MaxTangent
import Verif.Props.LinearChainBest
import Verif.Props.Raise
import Verif.Props.TreeEval

/-! Property theorems C142: the structured perceptron.  `max` lies above its tangents, whose slopes are `argmax`. -/

open Finset Spec Generic

noncomputable section
namespace Props.MaxTangent
open Props.Likelihood Props.Raise

/-- **C142, `TreeCRF`.** `max` of any potentials `g` of the same shape lies above the tangent at the given ones; the slopes are `argmax`, however it breaks ties. -/
theorem tree_max_tangent (p : T4 ℝ) (lengths : Option (List ℕ)) (h : TreeCRF.Valid p lengths)
    (pick : List (Autograd.Grad (List ℕ)) → Autograd.Grad (List ℕ)) (hp : Autograd.IsArgmax Prod.fst pick) : ∃ μ, Dist.argmax CKYCRF.algo p lengths pick = .ok μ ∧
    ∀ b < p.d0, ∀ g : ℕ → ℕ → ℕ → ℕ → ℝ, ∃ z z', rowValue (Dist.max CKYCRF.algo p lengths) b = some z ∧
      rowValue (Dist.max CKYCRF.algo { p with get := g } lengths) b = some z' ∧
      z + ∑ i ∈ range p.d1, ∑ j ∈ range p.d2, ∑ a ∈ range p.d3, μ [b, i, j, a] * (g b i j a - p.get b i j a) ≤ z' := by
  obtain ⟨μ, hμ, -⟩ := (CKYCRFProofs.batchDP p lengths h).argmax_eq hp
  refine ⟨μ, hμ, fun b hb g => ?_⟩
  have D' := CKYCRFProofs.batchDP { p with get := g } lengths ⟨h.square, h.words, h.labels, h.lens⟩
  obtain ⟨z, z', h1, h2, h3⟩ := (CKYCRFProofs.batchDP p lengths h).max_tangent D' hp hμ b hb (range p.d1 ×ˢ range p.d2 ×ˢ range p.d3) (fun x => [b, x.1, x.2.1, x.2.2])
    (fun x _ y _ hxy => by simpa [Prod.ext_iff] using hxy)
    (by
      rintro e ⟨i, j, a, rfl, hij, hj, ha⟩
      have := (CKYCRFProofs.len_in h.words h.lens b hb).2
      have hs := h.square
      exact ⟨(i, j, a), mem3.2 ⟨by dsimp only; omega, by dsimp only; omega, ha⟩, rfl⟩)
    (fun _ _ => rfl) (fun _ _ y => y.elim)
  refine ⟨z, z', h1, h2, ?_⟩
  rw [← sum3 p.d1 p.d2 p.d3 fun i j a => μ [b, i, j, a] * (g b i j a - p.get b i j a)]
  exact h3

/-- **C142, `SemiMarkovCRF`.** `max` of any potentials `g` of the same shape lies above the tangent at the given ones; the slopes are `argmax`, however it breaks ties. -/
theorem semimarkov_max_tangent (p : T5 ℝ) (lengths : Option (List ℕ)) (h : SemiMarkov.Valid p lengths)
    (pick : List (Autograd.Grad (List ℕ)) → Autograd.Grad (List ℕ)) (hp : Autograd.IsArgmax Prod.fst pick) : ∃ μ, Dist.argmax _root_.SemiMarkov.algo p lengths pick = .ok μ ∧
    ∀ b < p.d0, ∀ g : ℕ → ℕ → ℕ → ℕ → ℕ → ℝ, ∃ z z', rowValue (Dist.max _root_.SemiMarkov.algo p lengths) b = some z ∧
      rowValue (Dist.max _root_.SemiMarkov.algo { p with get := g } lengths) b = some z' ∧
      z + ∑ n ∈ range (SemiMarkov.steps p lengths b), ∑ k ∈ range p.d2, ∑ i ∈ range p.d3, ∑ j ∈ range p.d4,
        μ [b, n, k, i, j] * (g b n k i j - p.get b n k i j) ≤ z' := by
  have hK := SemiMarkov.hK h
  obtain ⟨μ, hμ, -⟩ := (SemiMarkovProofs.batchDP p lengths h hK).argmax_eq hp
  refine ⟨μ, hμ, fun b hb g => ?_⟩
  have D' : BatchDP _root_.SemiMarkov.algo { p with get := g } lengths p.d0 (SemiMarkovProofs.at5 { p with get := g })
      (SemiMarkovProofs.Entry p lengths) (ι := fun b => Segmentation p.d2 p.d3 (SemiMarkovProofs.steps p lengths b)) (π := SemiMarkovProofs.Ph p lengths hK)
      (fun b => SemiMarkovProofs.segParts b) (fun _ y => 2 ^ Nat.clog 2 p.d1 - y.2.1.length) (fun _ => AtomChain.Phantom.atoms) :=
    SemiMarkovProofs.batchDP { p with get := g } lengths ⟨h.rows, h.square, h.classes, h.positions, h.segs, h.lens⟩ hK
  obtain ⟨z, z', h1, h2, h3⟩ := (SemiMarkovProofs.batchDP p lengths h hK).max_tangent D' hp hμ b hb
    (range (SemiMarkov.steps p lengths b) ×ˢ range p.d2 ×ˢ range p.d3 ×ˢ range p.d4) (fun x => [b, x.1, x.2.1, x.2.2.1, x.2.2.2])
    (fun x _ y _ hxy => by simpa [Prod.ext_iff] using hxy)
    (by
      rintro e ⟨n, k, c, c', rfl, hn, -, hk⟩
      exact ⟨(n, k, c, c'), mem4.2 ⟨hn, hk, c.2, h.square ▸ c'.2⟩, rfl⟩)
    (fun _ _ => rfl) (fun x hx y hy => by
      unfold AtomChain.Phantom.atoms AtomChain.Path.atoms at hy
      obtain ⟨m, -, h1⟩ := Multiset.mem_map.1 hy
      exact Gradient.not_masked _ _ _ _ _ _ _ _ _ _ _ _ (mem4.1 hx).1 (h1 ▸ y.1.atom_mem m))
  refine ⟨z, z', h1, h2, ?_⟩
  rw [← sum4 _ p.d2 p.d3 p.d4 fun n k i j => μ [b, n, k, i, j] * (g b n k i j - p.get b n k i j)]
  exact h3

theorem arc_max_tangent (mr : Bool) (q : DepTree.Arcs ℝ) (lengths : Option (List ℕ)) (h : DepTreeProofs.Valid mr q lengths)
    (pick : List (Autograd.Grad (List ℕ)) → Autograd.Grad (List ℕ)) (hp : Autograd.IsArgmax Prod.fst pick) :
    ∃ μ, DepTree.argmax mr q lengths pick = .ok μ ∧ ∀ b < q.d0, ∀ g : ℕ → ℕ → ℕ → ℕ → ℝ, ∃ z z', rowValue (DepTree.max mr q lengths) b = some z ∧
      rowValue (DepTree.max mr { q with get := g } lengths) b = some z' ∧
      z + ∑ i ∈ range q.d1, ∑ j ∈ range q.d2, ∑ l ∈ range q.labels, μ (DepTreeProofs.cellTag (decide q.labeled) b i j l) * (g b i j l - q.get b i j l) ≤ z' := by
  have hv : ∀ q' : DepTree.Arcs ℝ, q'.rank = q.rank → q'.d1 = q.d1 → q'.d2 = q.d2 → DepTree.convert DepTree.negBig q' = .ok (DepTreeProofs.conv DepTree.negBig q') :=
    fun q' h1 h2 h3 => DepTreeProofs.convert_ok _ (by rw [h1]; exact h.rank) (by rw [h2, h3]; exact h.square)
  obtain ⟨μ, hμ, -⟩ := (DepTreeProofs.batchDP mr DepTree.negBig q lengths h).argmax_eq hp
  refine ⟨μ, by rw [DepTree.argmax, hv q rfl rfl rfl]; exact hμ, fun b hb g => ?_⟩
  have hl : ∀ l < q.labels, q.labeled ∨ l = 0 := by
    intro l hl
    rcases h.rank with h3 | h4
    · rw [DepTreeProofs.labels_one h3] at hl; right; omega
    · exact Or.inl h4
  have D' : BatchDP (DepTree.algo mr) (DepTreeProofs.conv DepTree.negBig { q with get := g }) lengths q.d0
      (DepTreeProofs.atQ DepTree.negBig { q with get := g }) (fun b => DepTreeProofs.Entry (decide q.labeled) q.labels (lenOf q.d1 lengths b) b)
      (ι := fun b => LabelledTrees mr (lenOf q.d1 lengths b) q.labels) (π := fun _ => Empty) (fun b => DepTreeProofs.labParts (decide q.labeled) b)
      (fun b _ => DepTreeProofs.onesOf mr (lenOf q.d1 lengths b)) (fun _ y => y.elim) :=
    DepTreeProofs.batchDP mr DepTree.negBig { q with get := g } lengths ⟨h.rank, h.square, h.labels, h.batch, h.words, h.lens⟩
  obtain ⟨z, z', h1, h2, h3⟩ := (DepTreeProofs.batchDP mr DepTree.negBig q lengths h).max_tangent D' hp hμ b hb
    (range q.d1 ×ˢ range q.d2 ×ˢ range q.labels) (fun x => DepTreeProofs.cellTag (decide q.labeled) b x.1 x.2.1 x.2.2)
    (fun x hx y hy hxy => by
      obtain ⟨-, e1, e2, e3⟩ := DepTreeProofs.cellTag_inj hxy
      refine Prod.ext e1 (Prod.ext e2 ?_)
      rcases hl _ (mem3.1 hx).2.2 with hq | hx0
      · exact e3 (decide_eq_true hq)
      · rcases hl _ (mem3.1 hy).2.2 with hq | hy0
        · exact e3 (decide_eq_true hq)
        · exact hx0.trans hy0.symm)
    (by
      rintro e ⟨h', k, l, rfl, hh, hk, -, hl'⟩
      have e1 := DepTreeProofs.arcCell_lt hh hk
      have e2 : lenOf q.d1 lengths b ≤ q.d1 := (DepTreeProofs.len_le h hb).1
      have e3 := h.square
      exact ⟨((arcCell h' k).1, (arcCell h' k).2, l), mem3.2 ⟨by dsimp only; omega, by dsimp only; omega, hl'⟩, rfl⟩)
    (fun x _ => by simp [DepTreeProofs.cellTag]) (fun _ _ y => y.elim)
  refine ⟨z, z', by rw [DepTree.max, hv q rfl rfl rfl]; exact h1, by rw [DepTree.max, hv { q with get := g } rfl rfl rfl]; exact h2, ?_⟩
  rw [← sum3 q.d1 q.d2 q.labels fun i j l => μ (DepTreeProofs.cellTag (decide q.labeled) b i j l) * (g b i j l - q.get b i j l)]
  refine le_trans (le_of_eq ?_) h3
  congr 1
  refine sum_congr rfl fun x hx => ?_
  have e4 := hl _ (mem3.1 hx).2.2
  rw [DepTreeProofs.atQ_cell _ q _ _ _ _ e4]
  have := DepTreeProofs.atQ_cell DepTree.negBig { q with get := g } b x.1 x.2.1 x.2.2 e4
  exact congrArg (fun y => _ * (y - _)) this.symm

/-- **C142, `DependencyCRF`.** `max` of any potentials `g` of the same shape lies above the tangent at the given ones; the slopes are `argmax`, however it breaks ties. -/
theorem dependency_max_tangent (mr : Bool) (q : DepTree.Arcs ℝ) (lengths : Option (List ℕ)) (h : Dependency.Valid mr q lengths)
    (pick : List (Autograd.Grad (List ℕ)) → Autograd.Grad (List ℕ)) (hp : Autograd.IsArgmax Prod.fst pick) :
    ∃ μ, DepTree.argmax mr q lengths pick = .ok μ ∧ ∀ b < q.d0, ∀ g : ℕ → ℕ → ℕ → ℕ → ℝ, ∃ z z', rowValue (DepTree.max mr q lengths) b = some z ∧
      rowValue (DepTree.max mr { q with get := g } lengths) b = some z' ∧
      z + ∑ i ∈ range q.d1, ∑ j ∈ range q.d2, μ [b, i, j] * (g b i j 0 - q.get b i j 0) ≤ z' := by
  obtain ⟨μ, h1, h2⟩ := arc_max_tangent mr q lengths h.toValid pick hp
  refine ⟨μ, h1, fun b hb g => ?_⟩
  obtain ⟨z, z', e1, e2, e3⟩ := h2 b hb g
  refine ⟨z, z', e1, e2, ?_⟩
  simpa [DepTreeProofs.labels_one h.rank, DepTreeProofs.cellTag, DepTreeProofs.not_labeled h.rank] using e3

/-- **C142, `DependencyCRF` with labels.** `max` of any potentials `g` of the same shape lies above the tangent at the given ones; the slopes are `argmax`, however it breaks ties. -/
theorem labelled_max_tangent (mr : Bool) (q : DepTree.Arcs ℝ) (lengths : Option (List ℕ)) (h : LabelledDependency.Valid mr q lengths)
    (pick : List (Autograd.Grad (List ℕ)) → Autograd.Grad (List ℕ)) (hp : Autograd.IsArgmax Prod.fst pick) :
    ∃ μ, DepTree.argmax mr q lengths pick = .ok μ ∧ ∀ b < q.d0, ∀ g : ℕ → ℕ → ℕ → ℕ → ℝ, ∃ z z', rowValue (DepTree.max mr q lengths) b = some z ∧
      rowValue (DepTree.max mr { q with get := g } lengths) b = some z' ∧
      z + ∑ i ∈ range q.d1, ∑ j ∈ range q.d2, ∑ l ∈ range q.labels, μ [b, i, j, l] * (g b i j l - q.get b i j l) ≤ z' := by
  obtain ⟨μ, h1, h2⟩ := arc_max_tangent mr q lengths h.toValid pick hp
  refine ⟨μ, h1, fun b hb g => ?_⟩
  obtain ⟨z, z', e1, e2, e3⟩ := h2 b hb g
  refine ⟨z, z', e1, e2, ?_⟩
  simpa [DepTreeProofs.cellTag, DepTreeProofs.is_labeled h.rank] using e3

/-- **C142, `TreeCRF`.** A part of the structure that `argmax` returns stays in it when its potential is raised. -/
theorem tree_max_raise (p : T4 ℝ) (lengths : Option (List ℕ)) (h : TreeCRF.Valid p lengths)
    (pick : List (Autograd.Grad (List ℕ)) → Autograd.Grad (List ℕ)) (hp : Autograd.IsArgmax Prod.fst pick) (b i j a : ℕ) (hb : b < p.d0) (hi : i < p.d1) (hj : j < p.d2) (ha : a < p.d3)
    (δ : ℝ) (hδ : 0 < δ) : ∃ μ ν z z', Dist.argmax CKYCRF.algo p lengths pick = .ok μ ∧ Dist.argmax CKYCRF.algo { p with get := raised p.get b i j a δ } lengths pick = .ok ν ∧
      rowValue (Dist.max CKYCRF.algo p lengths) b = some z ∧ rowValue (Dist.max CKYCRF.algo { p with get := raised p.get b i j a δ } lengths) b = some z' ∧
      Rises δ z z' (μ [b, i, j, a]) (ν [b, i, j, a]) := by
  obtain ⟨μ, hμ, tp⟩ := tree_max_tangent p lengths h pick hp
  obtain ⟨ν, hν, tg⟩ := tree_max_tangent ({ p with get := raised p.get b i j a δ } : T4 ℝ) lengths ⟨h.square, h.words, h.labels, h.lens⟩ pick hp
  obtain ⟨z, z', e1, e2, e3⟩ := tp b hb (raised p.get b i j a δ)
  obtain ⟨y', y, f1, f2, f3⟩ := tg b hb p.get
  obtain rfl : z' = y' := Option.some.inj (e2.symm.trans f1)
  obtain rfl : z = y := Option.some.inj (e1.symm.trans f2)
  refine ⟨μ, ν, z, z', hμ, hν, e1, e2, rises hδ ?_ ?_⟩
  · rw [sum_point3 hi hj ha (fun i j a => μ [b, i, j, a]) (fun i' j' a' => raised p.get b i j a δ b i' j' a' - p.get b i' j' a')
      fun i' j' a' hn => by rw [raised, if_neg fun hc => hn hc.2, sub_self]] at e3
    simpa [raised] using e3
  · rw [sum_point3 hi hj ha (fun i j a => ν [b, i, j, a]) (fun i' j' a' => p.get b i' j' a' - raised p.get b i j a δ b i' j' a')
      fun i' j' a' hn => by rw [raised, if_neg fun hc => hn hc.2, sub_self]] at f3
    simpa [raised] using f3

/-- **C142, `SemiMarkovCRF`.** A part of the structure that `argmax` returns stays in it when its potential is raised. -/
theorem semimarkov_max_raise (p : T5 ℝ) (lengths : Option (List ℕ)) (h : SemiMarkov.Valid p lengths)
    (pick : List (Autograd.Grad (List ℕ)) → Autograd.Grad (List ℕ)) (hp : Autograd.IsArgmax Prod.fst pick) (b n k i j : ℕ) (hb : b < p.d0) (hn : n < SemiMarkov.steps p lengths b)
    (hk : k < p.d2) (hi : i < p.d3) (hj : j < p.d4) (δ : ℝ) (hδ : 0 < δ) :
    ∃ μ ν z z', Dist.argmax _root_.SemiMarkov.algo p lengths pick = .ok μ ∧ Dist.argmax _root_.SemiMarkov.algo { p with get := raised5 p.get b n k i j δ } lengths pick = .ok ν ∧
      rowValue (Dist.max _root_.SemiMarkov.algo p lengths) b = some z ∧
      rowValue (Dist.max _root_.SemiMarkov.algo { p with get := raised5 p.get b n k i j δ } lengths) b = some z' ∧
      Rises δ z z' (μ [b, n, k, i, j]) (ν [b, n, k, i, j]) := by
  obtain ⟨μ, hμ, tp⟩ := semimarkov_max_tangent p lengths h pick hp
  obtain ⟨ν, hν, tg⟩ := semimarkov_max_tangent ({ p with get := raised5 p.get b n k i j δ } : T5 ℝ) lengths ⟨h.rows, h.square, h.classes, h.positions, h.segs, h.lens⟩ pick hp
  obtain ⟨z, z', e1, e2, e3⟩ := tp b hb (raised5 p.get b n k i j δ)
  obtain ⟨y', y, f1, f2, f3⟩ := tg b hb p.get
  obtain rfl : z' = y' := Option.some.inj (e2.symm.trans f1)
  obtain rfl : z = y := Option.some.inj (e1.symm.trans f2)
  refine ⟨μ, ν, z, z', hμ, hν, e1, e2, rises hδ ?_ ?_⟩
  · rw [sum_point4 hn hk hi hj (fun n k i j => μ [b, n, k, i, j]) (fun n' k' i' j' => raised5 p.get b n k i j δ b n' k' i' j' - p.get b n' k' i' j')
      fun n' k' i' j' hc => by rw [raised5, if_neg fun hc' => hc hc'.2, sub_self]] at e3
    simpa [raised5] using e3
  · have f3 : z' + ∑ n' ∈ range (SemiMarkov.steps p lengths b), ∑ k' ∈ range p.d2, ∑ i' ∈ range p.d3, ∑ j' ∈ range p.d4,
      ν [b, n', k', i', j'] * (p.get b n' k' i' j' - raised5 p.get b n k i j δ b n' k' i' j') ≤ z := f3
    rw [sum_point4 hn hk hi hj (fun n k i j => ν [b, n, k, i, j]) (fun n' k' i' j' => p.get b n' k' i' j' - raised5 p.get b n k i j δ b n' k' i' j')
      fun n' k' i' j' hc => by rw [raised5, if_neg fun hc' => hc hc'.2, sub_self]] at f3
    simpa [raised5] using f3

/-- **C142, `DependencyCRF`.** A part of the structure that `argmax` returns stays in it when its potential is raised. -/
theorem dependency_max_raise (mr : Bool) (q : DepTree.Arcs ℝ) (lengths : Option (List ℕ)) (h : Dependency.Valid mr q lengths)
    (pick : List (Autograd.Grad (List ℕ)) → Autograd.Grad (List ℕ)) (hp : Autograd.IsArgmax Prod.fst pick) (b i j : ℕ) (hb : b < q.d0) (hi : i < q.d1) (hj : j < q.d2)
    (δ : ℝ) (hδ : 0 < δ) : ∃ μ ν z z', DepTree.argmax mr q lengths pick = .ok μ ∧ DepTree.argmax mr { q with get := raised q.get b i j 0 δ } lengths pick = .ok ν ∧
      rowValue (DepTree.max mr q lengths) b = some z ∧ rowValue (DepTree.max mr { q with get := raised q.get b i j 0 δ } lengths) b = some z' ∧
      Rises δ z z' (μ [b, i, j]) (ν [b, i, j]) := by
  obtain ⟨μ, hμ, tp⟩ := dependency_max_tangent mr q lengths h pick hp
  obtain ⟨ν, hν, tg⟩ := dependency_max_tangent mr ({ q with get := raised q.get b i j 0 δ } : DepTree.Arcs ℝ) lengths { h with } pick hp
  obtain ⟨z, z', e1, e2, e3⟩ := tp b hb (raised q.get b i j 0 δ)
  obtain ⟨y', y, f1, f2, f3⟩ := tg b hb q.get
  obtain rfl : z' = y' := Option.some.inj (e2.symm.trans f1)
  obtain rfl : z = y := Option.some.inj (e1.symm.trans f2)
  refine ⟨μ, ν, z, z', hμ, hν, e1, e2, rises hδ ?_ ?_⟩
  · have s := sum_point3 hi hj one_pos (fun i j _ => μ [b, i, j]) (fun i' j' k' => if k' = 0 then raised q.get b i j 0 δ b i' j' 0 - q.get b i' j' 0 else 0)
      fun i' j' k' hc => by
        split_ifs with hk
        · rw [raised, if_neg fun hc' => hc ⟨hc'.2.1, hc'.2.2.1, hk⟩, sub_self]
        · rfl
    simp only [sum_range_one, if_true] at s
    rw [s] at e3
    simpa [raised] using e3
  · have s := sum_point3 hi hj one_pos (fun i j _ => ν [b, i, j]) (fun i' j' k' => if k' = 0 then q.get b i' j' 0 - raised q.get b i j 0 δ b i' j' 0 else 0)
      fun i' j' k' hc => by
        split_ifs with hk
        · rw [raised, if_neg fun hc' => hc ⟨hc'.2.1, hc'.2.2.1, hk⟩, sub_self]
        · rfl
    simp only [sum_range_one, if_true] at s
    have f3 : z' + ∑ i' ∈ range q.d1, ∑ j' ∈ range q.d2, ν [b, i', j'] * (q.get b i' j' 0 - raised q.get b i j 0 δ b i' j' 0) ≤ z := f3
    rw [s] at f3
    simpa [raised] using f3

/-- **C142, `DependencyCRF` with labels.** A part of the structure that `argmax` returns stays in it when its potential is raised. -/
theorem labelled_max_raise (mr : Bool) (q : DepTree.Arcs ℝ) (lengths : Option (List ℕ)) (h : LabelledDependency.Valid mr q lengths)
    (pick : List (Autograd.Grad (List ℕ)) → Autograd.Grad (List ℕ)) (hp : Autograd.IsArgmax Prod.fst pick) (b i j l : ℕ) (hb : b < q.d0) (hi : i < q.d1)
    (hj : j < q.d2) (hl : l < q.labels) (δ : ℝ) (hδ : 0 < δ) :
    ∃ μ ν z z', DepTree.argmax mr q lengths pick = .ok μ ∧ DepTree.argmax mr { q with get := raised q.get b i j l δ } lengths pick = .ok ν ∧
      rowValue (DepTree.max mr q lengths) b = some z ∧ rowValue (DepTree.max mr { q with get := raised q.get b i j l δ } lengths) b = some z' ∧
      Rises δ z z' (μ [b, i, j, l]) (ν [b, i, j, l]) := by
  obtain ⟨μ, hμ, tp⟩ := labelled_max_tangent mr q lengths h pick hp
  obtain ⟨ν, hν, tg⟩ := labelled_max_tangent mr ({ q with get := raised q.get b i j l δ } : DepTree.Arcs ℝ) lengths { h with } pick hp
  obtain ⟨z, z', e1, e2, e3⟩ := tp b hb (raised q.get b i j l δ)
  obtain ⟨y', y, f1, f2, f3⟩ := tg b hb q.get
  obtain rfl : z' = y' := Option.some.inj (e2.symm.trans f1)
  obtain rfl : z = y := Option.some.inj (e1.symm.trans f2)
  refine ⟨μ, ν, z, z', hμ, hν, e1, e2, rises hδ ?_ ?_⟩
  · rw [sum_point3 hi hj hl (fun i j a => μ [b, i, j, a]) (fun i' j' a' => raised q.get b i j l δ b i' j' a' - q.get b i' j' a')
      fun i' j' a' hn => by rw [raised, if_neg fun hc => hn hc.2, sub_self]] at e3
    simpa [raised] using e3
  · have f3 : z' + ∑ i' ∈ range q.d1, ∑ j' ∈ range q.d2, ∑ l' ∈ range q.labels, ν [b, i', j', l'] * (q.get b i' j' l' - raised q.get b i j l δ b i' j' l') ≤ z := f3
    rw [sum_point3 hi hj hl (fun i j a => ν [b, i, j, a]) (fun i' j' a' => q.get b i' j' a' - raised q.get b i j l δ b i' j' a')
      fun i' j' a' hn => by rw [raised, if_neg fun hc => hn hc.2, sub_self]] at f3
    simpa [raised] using f3

/-! ### `LinearChainCRF` -/

open GradientChain in
theorem seq_change {C : ℕ} (L : ℕ) (φ ψ : ℕ → Fin C → Fin C → ℝ) (y : Tags L C) :
    seqScore ψ y = seqScore φ y + ∑ n ∈ range L, ∑ i, ∑ j, (if UsesEdge y n i j then 1 else 0) * (ψ n i j - φ n i j) := by
  have e : ∀ χ : ℕ → Fin C → Fin C → ℝ, standScore L χ (y, fun _ => true) = seqScore χ y := fun χ => by
    simp [standScore, seqScore]
  have h := stand_change L φ ψ (y, fun _ => true)
  rw [e, e] at h
  rw [← sub_eq_iff_eq_add', h]
  refine sum_congr rfl fun n hn => sum_congr rfl fun i _ => sum_congr rfl fun j _ => ?_
  have hn' := mem_range.1 hn
  rw [mul_comm]
  congr 1
  unfold standUses
  rw [sum_eq_single (⟨n, hn'⟩ : Fin L) (fun m _ hm => if_neg fun hc => hm (Fin.ext hc.1)) (by simp)]
  have : (((⟨n, hn'⟩ : Fin L) : ℕ) = n ∧ true = true ∧ y (Fin.succ ⟨n, hn'⟩) = i ∧ y (Fin.castSucc ⟨n, hn'⟩) = j) ↔ UsesEdge y n i j := by
    constructor
    · rintro ⟨-, -, h1, h2⟩
      exact ⟨hn', h1, h2⟩
    · rintro ⟨h0, h1, h2⟩
      exact ⟨rfl, rfl, h1, h2⟩
  by_cases hc : UsesEdge y n i j
  · rw [if_pos (this.2 hc), if_pos hc]
  · rw [if_neg fun hd => hc (this.1 hd), if_neg hc]

/-- **C142, `LinearChainCRF`**, for potentials above the stand-in -1e5; the sum is over the edges of the row. -/
theorem chain_max_tangent (p : T4 ℝ) (lengths : Option (List ℕ)) (h : LinearChain.Valid p lengths)
    (pick : List (Autograd.Grad (List ℕ)) → Autograd.Grad (List ℕ)) (hp : Autograd.IsArgmax Prod.fst pick)
    (hlow : ∀ b < p.d0, ∀ n < LinearChain.numEdges p lengths b, ∀ i j : Fin p.d2, -100000 < LinearChain.row p b n i j) :
    ∃ μ, Dist.argmax _root_.LinearChain.algo p lengths pick = .ok μ ∧
    ∀ b < p.d0, ∀ g : ℕ → ℕ → ℕ → ℕ → ℝ, LinearChain.LowerBound ({ p with get := g } : T4 ℝ) lengths (-100000) →
      ∃ z z', rowValue (Dist.max _root_.LinearChain.algo p lengths) b = some z ∧ rowValue (Dist.max _root_.LinearChain.algo { p with get := g } lengths) b = some z' ∧
      z + ∑ n ∈ range (LinearChain.numEdges p lengths b), ∑ i ∈ range p.d2, ∑ j ∈ range p.d3, μ [b, n, i, j] * (g b n i j - p.get b n i j) ≤ z' := by
  obtain ⟨μ, vs, h1, h2, h3, h4⟩ := LinearChain.argmax_spec p lengths h hlow pick hp
  refine ⟨μ, h1, fun b hb g hg => ?_⟩
  obtain ⟨ws, w1, w2, w3⟩ := LinearChain.max_spec ({ p with get := g } : T4 ℝ) lengths ⟨h.square, h.edges, h.classes, h.lens⟩ hg
  have hv : b < vs.length := h3 ▸ hb
  have hw : b < ws.length := w2.symm ▸ hb
  obtain ⟨y, y1, y2⟩ := h4 b hv
  refine ⟨vs[b], ws[b], by rw [h2]; exact List.getElem?_eq_getElem hv, by rw [w1]; exact List.getElem?_eq_getElem hw, ?_⟩
  refine le_trans (le_of_eq ?_) ((w3 b hw).2 y)
  refine Eq.trans ?_ (seq_change (LinearChain.numEdges p lengths b) (LinearChain.row p b) (LinearChain.row ({ p with get := g } : T4 ℝ) b) y).symm
  rw [y1, ← h.square]
  refine congrArg _ (sum_congr rfl fun n hn => ?_)
  have hn' : n < p.d1 := by
    have e1 := mem_range.1 hn
    have e2 := LinearChainProofs.lenOf_le h.lens b
    unfold LinearChain.numEdges at e1
    omega
  rw [← Fin.sum_univ_eq_sum_range (fun i => ∑ j ∈ range p.d2, μ [b, n, i, j] * (g b n i j - p.get b n i j))]
  refine sum_congr rfl fun i _ => ?_
  rw [← Fin.sum_univ_eq_sum_range (fun j => μ [b, n, i, j] * (g b n i j - p.get b n i j))]
  exact sum_congr rfl fun j _ => by rw [y2 n hn' i j]; rfl

/-- **C142, `LinearChainCRF`.** An edge of the sequence that `argmax` returns stays in it when its potential is raised. -/
theorem chain_max_raise (p : T4 ℝ) (lengths : Option (List ℕ)) (h : LinearChain.Valid p lengths)
    (pick : List (Autograd.Grad (List ℕ)) → Autograd.Grad (List ℕ)) (hp : Autograd.IsArgmax Prod.fst pick)
    (hlow : ∀ b < p.d0, ∀ n < LinearChain.numEdges p lengths b, ∀ i j : Fin p.d2, -100000 < LinearChain.row p b n i j)
    (b n i j : ℕ) (hb : b < p.d0) (hn : n < LinearChain.numEdges p lengths b) (hi : i < p.d2) (hj : j < p.d3) (δ : ℝ) (hδ : 0 < δ) :
    ∃ μ ν z z', Dist.argmax _root_.LinearChain.algo p lengths pick = .ok μ ∧
      Dist.argmax _root_.LinearChain.algo { p with get := raised p.get b n i j δ } lengths pick = .ok ν ∧
      rowValue (Dist.max _root_.LinearChain.algo p lengths) b = some z ∧
      rowValue (Dist.max _root_.LinearChain.algo { p with get := raised p.get b n i j δ } lengths) b = some z' ∧
      Rises δ z z' (μ [b, n, i, j]) (ν [b, n, i, j]) := by
  have hup : ∀ b' n' i' j', p.get b' n' i' j' ≤ raised p.get b n i j δ b' n' i' j' := fun b' n' i' j' => by
    unfold raised
    split_ifs <;> linarith
  have hlow' : ∀ b' < p.d0, ∀ n' < LinearChain.numEdges p lengths b', ∀ i' j' : Fin p.d2, -100000 < raised p.get b n i j δ b' n' i' j' :=
    fun b' hb' n' hn' i' j' => (hlow b' hb' n' hn' i' j').trans_le (hup _ _ _ _)
  obtain ⟨μ, hμ, tp⟩ := chain_max_tangent p lengths h pick hp hlow
  obtain ⟨ν, hν, tg⟩ := chain_max_tangent ({ p with get := raised p.get b n i j δ } : T4 ℝ) lengths ⟨h.square, h.edges, h.classes, h.lens⟩ pick hp hlow'
  obtain ⟨z, z', e1, e2, e3⟩ := tp b hb (raised p.get b n i j δ) fun b' hb' n' hn' i' j' => (hlow' b' hb' n' hn' i' j').le
  obtain ⟨y', y, f1, f2, f3⟩ := tg b hb p.get fun b' hb' n' hn' i' j' => (hlow b' hb' n' hn' i' j').le
  obtain rfl : z' = y' := Option.some.inj (e2.symm.trans f1)
  obtain rfl : z = y := Option.some.inj (e1.symm.trans f2)
  refine ⟨μ, ν, z, z', hμ, hν, e1, e2, rises hδ ?_ ?_⟩
  · rw [sum_point3 hn hi hj (fun n i j => μ [b, n, i, j]) (fun n' i' j' => raised p.get b n i j δ b n' i' j' - p.get b n' i' j')
      fun n' i' j' hc => by rw [raised, if_neg fun hc' => hc hc'.2, sub_self]] at e3
    simpa [raised] using e3
  · have f3 : z' + ∑ n' ∈ range (LinearChain.numEdges p lengths b), ∑ i' ∈ range p.d2, ∑ j' ∈ range p.d3,
      ν [b, n', i', j'] * (p.get b n' i' j' - raised p.get b n i j δ b n' i' j') ≤ z := f3
    rw [sum_point3 hn hi hj (fun n i j => ν [b, n, i, j]) (fun n' i' j' => p.get b n' i' j' - raised p.get b n i j δ b n' i' j')
      fun n' i' j' hc => by rw [raised, if_neg fun hc' => hc hc'.2, sub_self]] at f3
    simpa [raised] using f3

/-! ## Concrete cases -/

example : ∃ pick : List (Autograd.Grad (List ℕ)) → Autograd.Grad (List ℕ), Autograd.IsArgmax Prod.fst pick := TreeEval.exists_pick

variable (pick : List (Autograd.Grad (List ℕ)) → Autograd.Grad (List ℕ)) (hp : Autograd.IsArgmax Prod.fst pick)

example := tree_max_tangent TreeCRF.sample (some [3, 2]) TreeCRF.sample_valid pick hp

example := tree_max_raise TreeCRF.sample (some [3, 2]) TreeCRF.sample_valid pick hp 1 0 1 0 (by decide) (by decide) (by decide) (by decide) 2 two_pos

example := semimarkov_max_raise SemiMarkov.sample (some [4, 3]) SemiMarkov.sample_valid pick hp 1 0 1 1 0 (by decide) (by decide) (by decide) (by decide) (by decide) 2 two_pos

example (mr : Bool) := dependency_max_raise mr Dependency.sample (some [3, 2]) (Dependency.sample_valid mr) pick hp 1 0 1 (by decide) (by decide) (by decide) 2 two_pos

example (mr : Bool) := labelled_max_raise mr LabelledDependency.sample (some [3, 2]) (LabelledDependency.sample_valid mr) pick hp 1 0 1 0 (by decide) (by decide) (by decide)
  (by decide) 2 two_pos

theorem sample_low : ∀ b < LinearChain.sample.d0, ∀ n < LinearChain.numEdges LinearChain.sample (some [3, 2]) b, ∀ i j : Fin LinearChain.sample.d2,
    -100000 < LinearChain.row LinearChain.sample b n i j := by
  intro b _ n _ i j
  have e : LinearChain.row LinearChain.sample b n i j = (b : ℝ) + n + 2 * (i : ℕ) - (j : ℕ) := rfl
  have hj : ((j : ℕ) : ℝ) < 2 := by exact_mod_cast (show (j : ℕ) < 2 from j.2)
  have d1 := Nat.cast_nonneg (α := ℝ) b
  have d2 := Nat.cast_nonneg (α := ℝ) n
  have d3 := Nat.cast_nonneg (α := ℝ) (i : ℕ)
  rw [e]
  linarith

example := chain_max_raise LinearChain.sample (some [3, 2]) LinearChain.sample_valid pick hp sample_low 1 0 1 0 (by decide) (by decide) (by decide) (by decide) 2 two_pos

end Props.MaxTangent
