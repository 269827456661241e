import Verif.Proofs.Determined
import Verif.Props.Likelihood
import Verif.Props.LinearChainEvents

/-! Property theorems C136: the marginals determine the distribution.  Two tables of potentials of the same shape give every structure of a row the same `log_prob` if
(and, for the trees, only if) their `marginals` agree on the row. -/

open Finset Spec Generic

noncomputable section
namespace Props.Determined
open Props.Likelihood

/-- Halfway between two tables of potentials. -/
def mid (f g : ℕ → ℕ → ℕ → ℕ → ℝ) (b i j a : ℕ) : ℝ := (f b i j a + g b i j a) / 2

theorem rowValue_log {n b : ℕ} (hb : b < n) {f : ℕ → ℝ} {r : Except PyErr (List ℝ)} (h : r = .ok ((List.range n).map f)) {z : ℝ} (hz : rowValue r b = some z) : z = f b := by
  rw [h, rowValue_ok _ _ _ hb] at hz
  exact (Option.some.inj hz).symm

theorem prob_of_log {ι : Type} [Fintype ι] [Nonempty ι] {s t : ι → ℝ} (h : ∀ y, Real.log (Gibbs.prob s y) = Real.log (Gibbs.prob t y)) : Gibbs.prob s = Gibbs.prob t :=
  funext fun y => Real.log_injOn_pos (Set.mem_Ioi.2 (Gibbs.prob_pos s y)) (Set.mem_Ioi.2 (Gibbs.prob_pos t y)) (h y)

/-- **C136, `TreeCRF`.** The potentials `p` and `g` give every tree of row `b` the same `log_prob` if and only if their `marginals` agree on the row. -/
theorem tree_determined (p : T4 ℝ) (lengths : Option (List ℕ)) (h : TreeCRF.Valid p lengths) (g : ℕ → ℕ → ℕ → ℕ → ℝ) :
    ∃ μ ν, Dist.marginals CKYCRF.algo p lengths = .ok μ ∧ Dist.marginals CKYCRF.algo { p with get := g } lengths = .ok ν ∧ ∀ b < p.d0,
      ((∀ i < p.d1, ∀ j < p.d2, ∀ a < p.d3, μ [b, i, j, a] = ν [b, i, j, a]) ↔
        ∀ t : Trees p.d3 (TreeCRF.len p lengths b),
          CKYCRF.logProb p lengths b (TreeCRF.event t) = CKYCRF.logProb { p with get := g } lengths b (TreeCRF.event t)) := by
  have h' : ∀ g : ℕ → ℕ → ℕ → ℕ → ℝ, TreeCRF.Valid ({ p with get := g } : T4 ℝ) lengths := fun g => ⟨h.square, h.words, h.labels, h.lens⟩
  obtain ⟨μ, hμ, tp⟩ := tree_tangent p lengths h
  obtain ⟨ν, hν, tg⟩ := tree_tangent _ lengths (h' g)
  obtain ⟨μ', hμ', sp⟩ := TreeCRF.marginals_spec p lengths h
  obtain ⟨ν', hν', sg⟩ := TreeCRF.marginals_spec _ lengths (h' g)
  obtain rfl : μ = μ' := Except.ok.inj (hμ.symm.trans hμ')
  obtain rfl : ν = ν' := Except.ok.inj (hν.symm.trans hν')
  refine ⟨μ, ν, hμ, hν, fun b hb => ?_⟩
  have : Nonempty (Trees p.d3 (TreeCRF.len p lengths b)) := CKYCRFProofs.nonempty_trees h.labels (CKYCRFProofs.len_in h.words h.lens b hb).1
  constructor
  · intro he t
    obtain ⟨z, zr, e1, e2, e3⟩ := tp b hb (mid p.get g)
    obtain ⟨z', zr', e4, e5, e6⟩ := tg b hb (mid p.get g)
    obtain rfl : zr = zr' := Option.some.inj (e2.symm.trans e5)
    refine (TreeCRF.logProb_spec p lengths h b hb t).trans (Eq.trans (congrArg _ ?_) (TreeCRF.logProb_spec _ lengths (h' g) b hb t).symm)
    have a1 := rowValue_log hb (TreeCRF.partition_spec p lengths h) e1
    have a2 := rowValue_log hb (TreeCRF.partition_spec ({ p with get := mid p.get g } : T4 ℝ) lengths (h' (mid p.get g))) e2
    have a3 := rowValue_log hb (TreeCRF.partition_spec ({ p with get := g } : T4 ℝ) lengths (h' g)) e4
    have hd : ∑ i ∈ range p.d1, ∑ j ∈ range p.d2, ∑ a ∈ range p.d3, μ [b, i, j, a] * (mid p.get g b i j a - p.get b i j a) =
        (∑ i ∈ range p.d1, ∑ j ∈ range p.d2, ∑ a ∈ range p.d3, μ [b, i, j, a] * (g b i j a - p.get b i j a)) / 2 := by
      simp only [sum_div]
      exact sum_congr rfl fun i _ => sum_congr rfl fun j _ => sum_congr rfl fun a _ => by simp only [mid]; ring
    have hd' : ∑ i ∈ range p.d1, ∑ j ∈ range p.d2, ∑ a ∈ range p.d3, ν [b, i, j, a] * (mid p.get g b i j a - g b i j a) =
        -((∑ i ∈ range p.d1, ∑ j ∈ range p.d2, ∑ a ∈ range p.d3, μ [b, i, j, a] * (g b i j a - p.get b i j a)) / 2) := by
      simp only [sum_div, ← sum_neg_distrib]
      refine sum_congr rfl fun i hi => sum_congr rfl fun j hj => sum_congr rfl fun a ha => ?_
      rw [he i (mem_range.1 hi) j (mem_range.1 hj) a (mem_range.1 ha)]
      simp only [mid]
      ring
    refine (Gibbs.log_prob _ t).trans (Eq.trans ?_ (Gibbs.log_prob _ t).symm)
    refine (Gibbs.of_mid (treeScore (TreeCRF.row p b)) (treeScore (TreeCRF.row ({ p with get := g } : T4 ℝ) b))
      (treeScore (TreeCRF.row ({ p with get := mid p.get g } : T4 ℝ) b)) (fun y => ?_)
      (∑ i ∈ range p.d1, ∑ j ∈ range p.d2, ∑ a ∈ range p.d3, μ [b, i, j, a] * (g b i j a - p.get b i j a)) ?_ ?_ t)
    · simp only [treeScore, ← List.sum_map_add, div_eq_mul_inv, ← List.sum_map_mul_right]
      rfl
    · exact (le_of_eq (by rw [← hd, a1]; rfl)).trans (e3.trans_eq a2)
    · refine (le_of_eq ?_).trans (e6.trans_eq a2)
      rw [sub_eq_add_neg]
      exact congrArg₂ (· + ·) a3.symm hd'.symm
  · intro ht i hi j hj a ha
    have hP : Gibbs.prob (treeScore (TreeCRF.row p b) : Trees p.d3 (TreeCRF.len p lengths b) → ℝ) = Gibbs.prob (treeScore (TreeCRF.row ({ p with get := g } : T4 ℝ) b)) :=
      prob_of_log fun t => Except.ok.inj (((TreeCRF.logProb_spec p lengths h b hb t).symm.trans (ht t)).trans (TreeCRF.logProb_spec _ lengths (h' g) b hb t))
    refine (sp b hb i j ⟨a, ha⟩).trans (Eq.trans ?_ (sg b hb i j ⟨a, ha⟩).symm)
    unfold TreeCRF.spanProb
    rw [hP]
    rfl


/-- **C136, `DependencyCRF`.** The arc scores `q` and `g` give every tree of row `b` the same `log_prob` if and only if their `marginals` agree on the row. -/
theorem dependency_determined (mr : Bool) (q : DepTree.Arcs ℝ) (lengths : Option (List ℕ)) (h : Dependency.Valid mr q lengths) (g : ℕ → ℕ → ℕ → ℕ → ℝ) :
    ∃ μ ν, DepTree.marginals mr q lengths = .ok μ ∧ DepTree.marginals mr { q with get := g } lengths = .ok ν ∧ ∀ b < q.d0,
      ((∀ i < q.d1, ∀ j < q.d2, μ [b, i, j] = ν [b, i, j]) ↔
        ∀ t : ProjTrees mr (Dependency.len q lengths b),
          DepTree.logProb mr q lengths b (Dependency.event t) = DepTree.logProb mr { q with get := g } lengths b (Dependency.event t)) := by
  have h' : ∀ g : ℕ → ℕ → ℕ → ℕ → ℝ, Dependency.Valid mr ({ q with get := g } : DepTree.Arcs ℝ) lengths := fun g => { h with }
  obtain ⟨μ, hμ, tp⟩ := dependency_tangent mr q lengths h
  obtain ⟨ν, hν, tg⟩ := dependency_tangent mr _ lengths (h' g)
  obtain ⟨μ', hμ', sp⟩ := Dependency.marginals_spec mr q lengths h
  obtain ⟨ν', hν', sg⟩ := Dependency.marginals_spec mr _ lengths (h' g)
  obtain rfl : μ = μ' := Except.ok.inj (hμ.symm.trans hμ')
  obtain rfl : ν = ν' := Except.ok.inj (hν.symm.trans hν')
  refine ⟨μ, ν, hμ, hν, fun b hb => ?_⟩
  have : Nonempty (ProjTrees mr (Dependency.len q lengths b)) := Dependency.trees_nonempty h b hb
  constructor
  · intro he t
    obtain ⟨z, zr, e1, e2, e3⟩ := tp b hb (mid q.get g)
    obtain ⟨z', zr', e4, e5, e6⟩ := tg b hb (mid q.get g)
    obtain rfl : zr = zr' := Option.some.inj (e2.symm.trans e5)
    refine (Dependency.logProb_spec mr q lengths h b hb t).trans (Eq.trans (congrArg _ ?_) (Dependency.logProb_spec mr _ lengths (h' g) b hb t).symm)
    have a1 := rowValue_log hb (Dependency.partition_spec mr q lengths h) e1
    have a2 := rowValue_log hb (Dependency.partition_spec mr ({ q with get := mid q.get g } : DepTree.Arcs ℝ) lengths (h' (mid q.get g))) e2
    have a3 := rowValue_log hb (Dependency.partition_spec mr ({ q with get := g } : DepTree.Arcs ℝ) lengths (h' g)) e4
    have hd : ∑ i ∈ range q.d1, ∑ j ∈ range q.d2, μ [b, i, j] * (mid q.get g b i j 0 - q.get b i j 0) =
        (∑ i ∈ range q.d1, ∑ j ∈ range q.d2, μ [b, i, j] * (g b i j 0 - q.get b i j 0)) / 2 := by
      simp only [sum_div]
      exact sum_congr rfl fun i _ => sum_congr rfl fun j _ => by simp only [mid]; ring
    have hd' : ∑ i ∈ range q.d1, ∑ j ∈ range q.d2, ν [b, i, j] * (mid q.get g b i j 0 - g b i j 0) =
        -((∑ i ∈ range q.d1, ∑ j ∈ range q.d2, μ [b, i, j] * (g b i j 0 - q.get b i j 0)) / 2) := by
      simp only [sum_div, ← sum_neg_distrib]
      refine sum_congr rfl fun i hi => sum_congr rfl fun j hj => ?_
      rw [he i (mem_range.1 hi) j (mem_range.1 hj)]
      simp only [mid]
      ring
    refine (Gibbs.log_prob _ t).trans (Eq.trans ?_ (Gibbs.log_prob _ t).symm)
    refine (Gibbs.of_mid (fun t : ProjTrees mr (Dependency.len q lengths b) => depScore (Dependency.row q b) t.1) (fun t : ProjTrees mr (Dependency.len q lengths b) => depScore (Dependency.row ({ q with get := g } : DepTree.Arcs ℝ) b) t.1)
      (fun t : ProjTrees mr (Dependency.len q lengths b) => depScore (Dependency.row ({ q with get := mid q.get g } : DepTree.Arcs ℝ) b) t.1) (fun y => ?_)
      (∑ i ∈ range q.d1, ∑ j ∈ range q.d2, μ [b, i, j] * (g b i j 0 - q.get b i j 0)) ?_ ?_ t)
    · simp only [depScore, ← sum_add_distrib, div_eq_mul_inv, sum_mul]
      rfl
    · exact (le_of_eq (by rw [← hd, a1]; rfl)).trans (e3.trans_eq a2)
    · refine (le_of_eq ?_).trans (e6.trans_eq a2)
      rw [sub_eq_add_neg]
      exact congrArg₂ (· + ·) a3.symm hd'.symm
  · intro ht i hi j hj
    have hP : Gibbs.prob ( (fun t => depScore (Dependency.row q b) t.1) : ProjTrees mr (Dependency.len q lengths b) → ℝ) = Gibbs.prob (fun t : ProjTrees mr (Dependency.len q lengths b) => depScore (Dependency.row ({ q with get := g } : DepTree.Arcs ℝ) b) t.1) :=
      prob_of_log fun t => Except.ok.inj (((Dependency.logProb_spec mr q lengths h b hb t).symm.trans (ht t)).trans (Dependency.logProb_spec mr _ lengths (h' g) b hb t))
    refine (sp b hb i j).trans (Eq.trans ?_ (sg b hb i j).symm)
    unfold Dependency.arcProb
    rw [hP]
    rfl


/-- **C136, `DependencyCRF` with labels.** The arc scores `q` and `g` give every labelled tree of row `b` the same `log_prob` if and only if their `marginals` agree on the row. -/
theorem labelled_determined (mr : Bool) (q : DepTree.Arcs ℝ) (lengths : Option (List ℕ)) (h : LabelledDependency.Valid mr q lengths) (g : ℕ → ℕ → ℕ → ℕ → ℝ) :
    ∃ μ ν, DepTree.marginals mr q lengths = .ok μ ∧ DepTree.marginals mr { q with get := g } lengths = .ok ν ∧ ∀ b < q.d0,
      ((∀ i < q.d1, ∀ j < q.d2, ∀ a < q.labels, μ [b, i, j, a] = ν [b, i, j, a]) ↔
        ∀ t : LabelledTrees mr (LabelledDependency.len q lengths b) q.d3,
          DepTree.logProb mr q lengths b (LabelledDependency.event t) = DepTree.logProb mr { q with get := g } lengths b (LabelledDependency.event t)) := by
  have h' : ∀ g : ℕ → ℕ → ℕ → ℕ → ℝ, LabelledDependency.Valid mr ({ q with get := g } : DepTree.Arcs ℝ) lengths := fun g => { h with }
  obtain ⟨μ, hμ, tp⟩ := labelled_tangent mr q lengths h
  obtain ⟨ν, hν, tg⟩ := labelled_tangent mr _ lengths (h' g)
  obtain ⟨μ', hμ', sp⟩ := LabelledDependency.marginals_spec mr q lengths h
  obtain ⟨ν', hν', sg⟩ := LabelledDependency.marginals_spec mr _ lengths (h' g)
  obtain rfl : μ = μ' := Except.ok.inj (hμ.symm.trans hμ')
  obtain rfl : ν = ν' := Except.ok.inj (hν.symm.trans hν')
  refine ⟨μ, ν, hμ, hν, fun b hb => ?_⟩
  have : Nonempty (LabelledTrees mr (LabelledDependency.len q lengths b) q.d3) := LabelledDependency.trees_nonempty h b hb
  constructor
  · intro he t
    obtain ⟨z, zr, e1, e2, e3⟩ := tp b hb (mid q.get g)
    obtain ⟨z', zr', e4, e5, e6⟩ := tg b hb (mid q.get g)
    obtain rfl : zr = zr' := Option.some.inj (e2.symm.trans e5)
    refine (LabelledDependency.logProb_spec mr q lengths h b hb t).trans (Eq.trans (congrArg _ ?_) (LabelledDependency.logProb_spec mr _ lengths (h' g) b hb t).symm)
    have a1 := rowValue_log hb (LabelledDependency.partition_spec mr q lengths h) e1
    have a2 := rowValue_log hb (LabelledDependency.partition_spec mr ({ q with get := mid q.get g } : DepTree.Arcs ℝ) lengths (h' (mid q.get g))) e2
    have a3 := rowValue_log hb (LabelledDependency.partition_spec mr ({ q with get := g } : DepTree.Arcs ℝ) lengths (h' g)) e4
    have hd : ∑ i ∈ range q.d1, ∑ j ∈ range q.d2, ∑ a ∈ range q.labels, μ [b, i, j, a] * (mid q.get g b i j a - q.get b i j a) =
        (∑ i ∈ range q.d1, ∑ j ∈ range q.d2, ∑ a ∈ range q.labels, μ [b, i, j, a] * (g b i j a - q.get b i j a)) / 2 := by
      simp only [sum_div]
      exact sum_congr rfl fun i _ => sum_congr rfl fun j _ => sum_congr rfl fun a _ => by simp only [mid]; ring
    have hd' : ∑ i ∈ range q.d1, ∑ j ∈ range q.d2, ∑ a ∈ range q.labels, ν [b, i, j, a] * (mid q.get g b i j a - g b i j a) =
        -((∑ i ∈ range q.d1, ∑ j ∈ range q.d2, ∑ a ∈ range q.labels, μ [b, i, j, a] * (g b i j a - q.get b i j a)) / 2) := by
      simp only [sum_div, ← sum_neg_distrib]
      refine sum_congr rfl fun i hi => sum_congr rfl fun j hj => sum_congr rfl fun a ha => ?_
      rw [he i (mem_range.1 hi) j (mem_range.1 hj) a (mem_range.1 ha)]
      simp only [mid]
      ring
    refine (Gibbs.log_prob _ t).trans (Eq.trans ?_ (Gibbs.log_prob _ t).symm)
    refine (Gibbs.of_mid (labScore (LabelledDependency.row q b)) (labScore (LabelledDependency.row ({ q with get := g } : DepTree.Arcs ℝ) b))
      (labScore (LabelledDependency.row ({ q with get := mid q.get g } : DepTree.Arcs ℝ) b)) (fun y => ?_)
      (∑ i ∈ range q.d1, ∑ j ∈ range q.d2, ∑ a ∈ range q.labels, μ [b, i, j, a] * (g b i j a - q.get b i j a)) ?_ ?_ t)
    · simp only [labScore, ← sum_add_distrib, div_eq_mul_inv, sum_mul]
      rfl
    · exact (le_of_eq (by rw [← hd, a1]; rfl)).trans (e3.trans_eq a2)
    · refine (le_of_eq ?_).trans (e6.trans_eq a2)
      rw [sub_eq_add_neg]
      exact congrArg₂ (· + ·) a3.symm hd'.symm
  · intro ht i hi j hj a ha
    have hP : Gibbs.prob (labScore (LabelledDependency.row q b) : LabelledTrees mr (LabelledDependency.len q lengths b) q.d3 → ℝ) = Gibbs.prob (labScore (LabelledDependency.row ({ q with get := g } : DepTree.Arcs ℝ) b)) :=
      prob_of_log fun t => Except.ok.inj (((LabelledDependency.logProb_spec mr q lengths h b hb t).symm.trans (ht t)).trans (LabelledDependency.logProb_spec mr _ lengths (h' g) b hb t))
    refine (sp b hb i j a).trans (Eq.trans ?_ (sg b hb i j a).symm)
    unfold LabelledDependency.arcProb
    rw [hP]
    rfl


open GradientChain _root_.Props.LinearChain in
/-- **C136, `LinearChainCRF`.** If `marginals` of the potentials `p` and `g` agree at the edges of row `b`, the two give the event of row `b` of any batch `s` of tag
sequences the same `log_prob`: exactly, stand-ins included. -/
theorem chain_determined (p : T4 ℝ) (lengths : Option (List ℕ)) (h : Valid p lengths) (hpos : ∀ l, lengths = some l → ∀ x ∈ l, 1 ≤ x) (g : ℕ → ℕ → ℕ → ℕ → ℝ)
    (s : T2 ℕ) (hs0 : s.d0 = p.d0) (hs1 : s.d1 = p.d1 + 1) (hC : Classes s p.d2) :
    ∃ μ ν e, Dist.marginals _root_.LinearChain.algo p lengths = .ok μ ∧ Dist.marginals _root_.LinearChain.algo { p with get := g } lengths = .ok ν ∧
      _root_.LinearChain.toParts s p.d2 lengths = .ok e ∧ ∀ b < p.d0,
        (∀ n < numEdges p lengths b, ∀ i < p.d2, ∀ j < p.d3, μ [b, n, i, j] = ν [b, n, i, j]) →
          ∃ v, _root_.LinearChain.logProb p lengths b (fun n i j => e.get b n i j) = .ok v ∧
            _root_.LinearChain.logProb { p with get := g } lengths b (fun n i j => e.get b n i j) = .ok v := by
  have : Nonempty (Fin p.d2) := ⟨⟨0, h.classes⟩⟩
  have h' : Valid ({ p with get := g } : T4 ℝ) lengths := ⟨h.square, h.edges, h.classes, h.lens⟩
  obtain ⟨μ, hμ, sp⟩ := chain_slope p lengths h
  obtain ⟨ν, hν, sg⟩ := chain_slope _ lengths h'
  obtain ⟨vs, e, k1, k2, k3, k4⟩ := logProb_event p lengths h hpos s hs0 hs1 hC
  obtain ⟨ws, e', l1, l2, l3, l4⟩ := logProb_event _ lengths h' hpos s hs0 hs1 hC
  obtain rfl : e = e' := Except.ok.inj (k3.symm.trans l3)
  refine ⟨μ, ν, e, hμ, hν, k3, fun b hb he => ?_⟩
  have hy : ∃ y : Tags (numEdges p lengths b) p.d2, IsRow s b y := by
    refine ⟨fun n => ⟨s.get b n, hC b (by omega) n ?_⟩, fun n => rfl⟩
    have := n.2
    have := LinearChainProofs.lenOf_le h.lens b
    simp only [numEdges] at *
    omega
  obtain ⟨y, hy⟩ := hy
  have hbv : b < vs.length := by omega
  have hbw : b < ws.length := lt_of_lt_of_eq hb l2.symm
  have q1 := partition_stand p lengths h b hb
  have q2 := partition_stand _ lengths h' b hb
  rw [k1] at q1
  rw [l1] at q2
  have q1 : vs[b]? = _ := q1
  have q2 : ws[b]? = _ := q2
  rw [List.getElem?_eq_getElem hbv] at q1
  rw [List.getElem?_eq_getElem hbw] at q2
  have q1 := Option.some.inj q1
  have q2 := Option.some.inj q2
  have key := Gibbs.of_both (standScore (numEdges p lengths b) (row p b)) (standScore (numEdges p lengths b) (row ({ p with get := g } : T4 ℝ) b)) (by
    refine (congrArg₂ (· + ·) (sp b hb g).symm (sg b hb p.get).symm).trans ?_
    dsimp only
    change _ + (∑ n ∈ range (numEdges p lengths b), _) = 0
    rw [← sum_add_distrib]
    refine sum_eq_zero fun n hn => ?_
    rw [← sum_add_distrib]
    refine sum_eq_zero fun i hi => ?_
    rw [← sum_add_distrib]
    refine sum_eq_zero fun j hj => ?_
    rw [he n (mem_range.1 hn) i (mem_range.1 hi) j (mem_range.1 hj)]
    ring) (y, fun _ => true)
  rw [standScore_true, standScore_true] at key
  refine ⟨_, k4 b hbv y hy, (l4 b hbw y hy).trans (congrArg _ ?_)⟩
  rw [q1, q2]
  change seqScore _ y - (_ + Real.log (Gibbs.Z (standScore (numEdges p lengths b) (row ({ p with get := g } : T4 ℝ) b)))) = _
  change _ - ((((2 ^ Nat.clog 2 p.d1 - numEdges p lengths b : ℕ) : ℝ) * Real.log (1 + (2 * p.d2 - 1 : ℕ) * Real.exp (-100000))) + _) = _
  linarith

/-- **C136, `SemiMarkovCRF`.** If `marginals` of the potentials `p` and `g` agree at the steps of row `b`, the two give the event of every segmentation of the row the same
`log_prob`: exactly, stand-ins included. -/
theorem semimarkov_determined (p : T5 ℝ) (lengths : Option (List ℕ)) (h : SemiMarkov.Valid p lengths) (g : ℕ → ℕ → ℕ → ℕ → ℕ → ℝ) :
    ∃ μ ν, Dist.marginals _root_.SemiMarkov.algo p lengths = .ok μ ∧ Dist.marginals _root_.SemiMarkov.algo { p with get := g } lengths = .ok ν ∧ ∀ b < p.d0,
      (∀ n < SemiMarkov.steps p lengths b, ∀ k < p.d2, ∀ i < p.d3, ∀ j < p.d4, μ [b, n, k, i, j] = ν [b, n, k, i, j]) →
        ∀ y : Segmentation p.d2 p.d3 (SemiMarkov.steps p lengths b), ∃ v, _root_.SemiMarkov.logProb p lengths b (SemiMarkov.event y) = .ok v ∧
          _root_.SemiMarkov.logProb { p with get := g } lengths b (SemiMarkov.event y) = .ok v := by
  have hK := SemiMarkov.hK h
  have h' : SemiMarkov.Valid ({ p with get := g } : T5 ℝ) lengths := ⟨h.rows, h.square, h.classes, h.positions, h.segs, h.lens⟩
  have D' : BatchDP _root_.SemiMarkov.algo { p with get := g } lengths p.d0 (SemiMarkovProofs.at5 { p with get := g })
      (SemiMarkovProofs.Entry p lengths) (ι := fun b => Segmentation p.d2 p.d3 (SemiMarkovProofs.steps p lengths b)) (π := SemiMarkovProofs.Ph p lengths hK)
      (fun b => SemiMarkovProofs.segParts b) (fun _ y => 2 ^ Nat.clog 2 p.d1 - y.2.1.length) (fun _ => AtomChain.Phantom.atoms) :=
    SemiMarkovProofs.batchDP { p with get := g } lengths h' hK
  obtain ⟨μ, hμ, -⟩ := (SemiMarkovProofs.batchDP p lengths h hK).marginals_eq
  obtain ⟨ν, hν, -⟩ := D'.marginals_eq
  refine ⟨μ, ν, hμ, hν, fun b hb he y => ?_⟩
  obtain ⟨z, z', h1, h2, h3⟩ := (SemiMarkovProofs.batchDP p lengths h hK).determined D' hμ hν b hb
    (range (SemiMarkov.steps p lengths b) ×ˢ range p.d2 ×ˢ range p.d3 ×ˢ range p.d4) (fun x => [b, x.1, x.2.1, x.2.2.1, x.2.2.2])
    (fun x _ y _ hxy => by simpa [Prod.ext_iff] using hxy)
    (by
      rintro e ⟨n, k, c, c', rfl, hn, -, hk⟩
      exact ⟨(n, k, c, c'), mem4.2 ⟨hn, hk, c.2, h.square ▸ c'.2⟩, rfl⟩)
    (fun _ _ => rfl) (fun x hx y hy => by
      unfold AtomChain.Phantom.atoms AtomChain.Path.atoms at hy
      obtain ⟨m, -, h1⟩ := Multiset.mem_map.1 hy
      exact Gradient.not_masked _ _ _ _ _ _ _ _ _ _ _ _ (mem4.1 hx).1 (h1 ▸ y.1.atom_mem m))
    (fun x hx => he _ (mem4.1 hx).1 _ (mem4.1 hx).2.1 _ (mem4.1 hx).2.2.1 _ (mem4.1 hx).2.2.2)
  obtain ⟨vs, a1, a2⟩ := of_rowValue h1
  obtain ⟨ws, b1, b2⟩ := of_rowValue h2
  refine ⟨_, SemiMarkov.logProb_spec p lengths h b y a1, (SemiMarkov.logProb_spec _ lengths h' b y b1).trans (congrArg _ ?_)⟩
  have e := h3 y
  rw [SemiMarkov.realScore_eq, SemiMarkov.realScore_eq] at e
  rw [a2, b2]
  exact e.symm

/-! ## Concrete cases -/

/-- Adding 1 to the score of every arc changes the potentials, not the distribution: every tree of a row has as many arcs as the row has words. -/
example (mr : Bool) : ∃ μ ν, DepTree.marginals mr Dependency.sample (some [3, 2]) = .ok μ ∧
    DepTree.marginals mr { Dependency.sample with get := fun b i j l => Dependency.sample.get b i j l + 1 } (some [3, 2]) = .ok ν ∧
    ∀ b < 2, ∀ i < 3, ∀ j < 3, μ [b, i, j] = ν [b, i, j] := by
  obtain ⟨μ, ν, h1, h2, h3⟩ := dependency_determined mr Dependency.sample (some [3, 2]) (Dependency.sample_valid mr) fun b i j l => Dependency.sample.get b i j l + 1
  have hv : Dependency.Valid mr ({ Dependency.sample with get := fun b i j l => Dependency.sample.get b i j l + 1 } : DepTree.Arcs ℝ) (some [3, 2]) := { Dependency.sample_valid mr with }
  refine ⟨μ, ν, h1, h2, fun b hb => (h3 b hb).2 fun t => ?_⟩
  refine (Dependency.logProb_spec mr _ _ (Dependency.sample_valid mr) b hb t).trans (Eq.trans (congrArg _ ?_) (Dependency.logProb_spec mr _ _ hv b hb t).symm)
  have hs : ∀ t : ProjTrees mr (Dependency.len Dependency.sample (some [3, 2]) b),
      depScore (Dependency.row ({ Dependency.sample with get := fun b i j l => Dependency.sample.get b i j l + 1 } : DepTree.Arcs ℝ) b) t.1 =
        depScore (Dependency.row Dependency.sample b) t.1 + Dependency.len Dependency.sample (some [3, 2]) b := fun t => by
    simp [depScore, Dependency.row, sum_add_distrib]
  change Real.log (Gibbs.prob _ t) = Real.log (Gibbs.prob (fun t : ProjTrees mr (Dependency.len Dependency.sample (some [3, 2]) b) =>
    depScore (Dependency.row ({ Dependency.sample with get := fun b i j l => Dependency.sample.get b i j l + 1 } : DepTree.Arcs ℝ) b) t.1) t)
  simp only [hs, Gibbs.prob, Gibbs.Z, Real.exp_add, ← sum_mul]
  rw [mul_div_mul_right _ _ (Real.exp_pos _).ne']

example (mr : Bool) (g : ℕ → ℕ → ℕ → ℕ → ℝ) := labelled_determined mr LabelledDependency.sample (some [3, 2]) (LabelledDependency.sample_valid mr) g

example (g : ℕ → ℕ → ℕ → ℕ → ℝ) := tree_determined TreeCRF.sample (some [3, 2]) TreeCRF.sample_valid g

example (g : ℕ → ℕ → ℕ → ℕ → ℝ) := chain_determined LinearChain.sample (some [3, 2]) LinearChain.sample_valid (by simp) g ⟨2, 3, fun b n => (b + n) % 2⟩ rfl rfl
  fun b _ n _ => Nat.mod_lt _ (by decide)

example (g : ℕ → ℕ → ℕ → ℕ → ℕ → ℝ) := semimarkov_determined SemiMarkov.sample (some [4, 3]) SemiMarkov.sample_valid g

end Props.Determined
