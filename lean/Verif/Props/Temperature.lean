import Verif.Proofs.Temperature
import Verif.Props.TreeCRF
import Verif.Props.Dependency
import Verif.Props.LabelledDependency
import Verif.Props.SemiMarkov
import Verif.Props.SentCFG
import Verif.Props.LinearChainBest
import Verif.Props.LinearChainMarginals
import Mathlib.Data.List.GetD
import Mathlib.Tactic.FinCases

/-! C92: multiplying the potentials by an inverse temperature `β` interpolates between `partition` and `max`, and between `marginals` and
`argmax`. -/

noncomputable section
namespace Props.Temperature
open Finset Spec Generic

theorem getD_rows {n b : ℕ} (h : b < n) (f : ℕ → ℝ) : ((List.range n).map f).getD b 0 = f b := by
  rw [List.getD_eq_getElem _ _ (by simpa using h), List.getElem_map, List.getElem_range]

theorem list_scale {X : Type} (β : ℝ) (l : List X) (φ : X → ℝ) : (l.map fun x => β * φ x).sum = β * (l.map φ).sum := List.sum_map_mul_left l φ β

theorem ite_prob {ι : Type} [Fintype ι] {s s' : ι → ℝ} (e : s = s') (B : ι → Prop) (y : ι) (i1 i2 : Decidable (B y)) :
    @ite _ (B y) i1 (Gibbs.prob s y) 0 = @ite _ (B y) i2 (Gibbs.prob s' y) 0 := by
  subst e
  congr

/-- `y0` is better than every other structure by at least `g`. -/
def Leads {ι : Type} (s : ι → ℝ) (y0 : ι) (g : ℝ) : Prop := ∀ y, y ≠ y0 → s y + g ≤ s y0

theorem Leads.best {ι : Type} {s : ι → ℝ} {y0 : ι} {g : ℝ} (h : Leads s y0 g) (hg : 0 ≤ g) (y : ι) : s y ≤ s y0 := by
  by_cases e : y = y0
  · rw [e]
  · linarith [h y e]

theorem Leads.unique {ι : Type} {s : ι → ℝ} {y0 : ι} {g : ℝ} (h : Leads s y0 g) (hg : 0 < g) {y : ι} (hy : ∀ y', s y' ≤ s y) : y = y0 := by
  by_contra e
  linarith [h y e, hy y0]

/-! ### `TreeCRF` -/

/-- All potentials multiplied by `β`. -/
def scale4 (β : ℝ) (p : T4 ℝ) : T4 ℝ := { p with get := fun b i j a => β * p.get b i j a }

/-- The score of a tree. -/
def treeS (p : T4 ℝ) (lengths : Option (List ℕ)) (b : ℕ) (t : Trees p.d3 (TreeCRF.len p lengths b)) : ℝ := treeScore (TreeCRF.row p b) t

theorem tree_scaled (β : ℝ) (p : T4 ℝ) (b : ℕ) {L : ℕ} (t : Trees p.d3 L) : treeScore (TreeCRF.row (scale4 β p) b) t = β * treeScore (TreeCRF.row p b) t :=
  list_scale β (t.1.spans 0) fun s => TreeCRF.row p b s.1 s.2.1 s.2.2

/-- **C92, `TreeCRF`.** `partition` of `β` times the potentials is between `β * max` and `β * max + log (number of trees)`. -/
theorem tree_partition_max (p : T4 ℝ) (lengths : Option (List ℕ)) (h : TreeCRF.Valid p lengths) {β : ℝ} (hβ : 0 ≤ β) :
    ∃ us ms, Dist.partition CKYCRF.algo (scale4 β p) lengths = .ok us ∧ Dist.max CKYCRF.algo p lengths = .ok ms ∧ ∀ b < p.d0,
      β * ms.getD b 0 ≤ us.getD b 0 ∧ us.getD b 0 ≤ β * ms.getD b 0 + Real.log (Fintype.card (Trees p.d3 (TreeCRF.len p lengths b))) := by
  have h' : TreeCRF.Valid (scale4 β p) lengths := by
    obtain ⟨a1, a2, a3, a4⟩ := h
    exact ⟨a1, a2, a3, a4⟩
  obtain ⟨ms, h1, h2, h3⟩ := TreeCRF.max_spec p lengths h
  refine ⟨_, ms, TreeCRF.partition_spec _ lengths h', h1, fun b hb => ?_⟩
  obtain ⟨⟨t, e⟩, h4⟩ := h3 b (by omega)
  have hb' : b < (scale4 β p).d0 := hb
  rw [getD_rows hb', List.getD_eq_getElem _ _ (by omega : b < ms.length), e]
  have k := Gibbs.log_Z_scaled (treeS p lengths b) hβ (y0 := t) fun t' => (h4 t').trans_eq e
  have e2 : (Gibbs.Z fun t' => β * treeS p lengths b t') = ∑ t : Trees p.d3 (TreeCRF.len p lengths b), Real.exp (treeScore (TreeCRF.row (scale4 β p) b) t) :=
    sum_congr rfl fun t' _ => by rw [tree_scaled]; rfl
  rw [e2] at k
  exact k

open Classical in
/-- **C92, `TreeCRF`.** `marginals` of `β` times the potentials are within `(number of trees - 1) * exp (-β g)` of `argmax`. -/
theorem tree_marginals_argmax (p : T4 ℝ) (lengths : Option (List ℕ)) (h : TreeCRF.Valid p lengths) {β : ℝ} (hβ : 0 ≤ β)
    {pick : List (Autograd.Grad (List ℕ)) → Autograd.Grad (List ℕ)} (hp : Autograd.IsArgmax Prod.fst pick) :
    ∃ μ a, Dist.marginals CKYCRF.algo (scale4 β p) lengths = .ok μ ∧ Dist.argmax CKYCRF.algo p lengths pick = .ok a ∧
      ∀ b < p.d0, ∀ g > 0, (∃ t, Leads (treeS p lengths b) t g) → ∀ i j (c : Fin p.d3),
        |μ [b, i, j, c] - a [b, i, j, c]| ≤ (Fintype.card (Trees p.d3 (TreeCRF.len p lengths b)) - 1) * Real.exp (-(β * g)) := by
  have h' : TreeCRF.Valid (scale4 β p) lengths := by
    obtain ⟨a1, a2, a3, a4⟩ := h
    exact ⟨a1, a2, a3, a4⟩
  obtain ⟨μ, h1, h2⟩ := TreeCRF.marginals_spec (scale4 β p) lengths h'
  obtain ⟨a, h3, h4⟩ := TreeCRF.argmax_spec p lengths h hp
  refine ⟨μ, a, h1, h3, fun b hb g hg ⟨t, ht⟩ i j c => ?_⟩
  obtain ⟨t', h5, h6⟩ := h4 b hb
  obtain rfl := ht.unique hg (y := t') h5
  rw [h2 b hb i j c, h6 i j c]
  refine Eq.trans_le ?_ (Gibbs.cold_prob (treeS p lengths b) hβ ht fun t => (i, j, c) ∈ t.1.spans 0)
  have e : (treeScore (TreeCRF.row (scale4 β p) b) : Trees p.d3 (TreeCRF.len p lengths b) → ℝ) = fun t => β * treeS p lengths b t := by
    funext t; exact tree_scaled β p b t
  exact congrArg abs (congrArg₂ HSub.hSub (sum_congr rfl fun t _ => ite_prob e (fun t => (i, j, c) ∈ t.1.spans 0) t _ _) (by congr))

/-! ### `DependencyCRF` -/

/-- All potentials multiplied by `β`. -/
def scaleArc (β : ℝ) (q : DepTree.Arcs ℝ) : DepTree.Arcs ℝ := { q with get := fun b i j l => β * q.get b i j l }

/-- The score of a projective tree. -/
def depS (mr : Bool) (q : DepTree.Arcs ℝ) (lengths : Option (List ℕ)) (b : ℕ) (t : ProjTrees mr (Dependency.len q lengths b)) : ℝ := depScore (Dependency.row q b) t.1

theorem dep_scaled (mr : Bool) (β : ℝ) (q : DepTree.Arcs ℝ) (b : ℕ) {n : ℕ} (t : ProjTrees mr n) :
    depScore (Dependency.row (scaleArc β q) b) t.1 = β * depScore (Dependency.row q b) t.1 :=
  (mul_sum univ (fun k : Fin n => Dependency.row q b (arcCell (t.1 k) k).1 (arcCell (t.1 k) k).2) β).symm

/-- **C92, `DependencyCRF`.** -/
theorem dependency_partition_max (mr : Bool) (q : DepTree.Arcs ℝ) (lengths : Option (List ℕ)) (h : Dependency.Valid mr q lengths) {β : ℝ} (hβ : 0 ≤ β) :
    ∃ us ms, DepTree.partition mr (scaleArc β q) lengths = .ok us ∧ DepTree.max mr q lengths = .ok ms ∧ ∀ b < q.d0,
      β * ms.getD b 0 ≤ us.getD b 0 ∧ us.getD b 0 ≤ β * ms.getD b 0 + Real.log (Fintype.card (ProjTrees mr (Dependency.len q lengths b))) := by
  have h' : Dependency.Valid mr (scaleArc β q) lengths := ⟨h.rank, h.square, h.batch, h.words, h.lens⟩
  obtain ⟨ms, h1, h2, h3⟩ := Dependency.max_spec mr q lengths h
  refine ⟨_, ms, Dependency.partition_spec mr _ lengths h', h1, fun b hb => ?_⟩
  obtain ⟨⟨t, e⟩, h4⟩ := h3 b (by omega)
  have hb' : b < (scaleArc β q).d0 := hb
  rw [getD_rows hb', List.getD_eq_getElem _ _ (by omega : b < ms.length), e]
  have k := Gibbs.log_Z_scaled (depS mr q lengths b) hβ (y0 := t) fun t' => (h4 t').trans_eq e
  have e2 : (Gibbs.Z fun t' => β * depS mr q lengths b t') =
      ∑ t : ProjTrees mr (Dependency.len q lengths b), Real.exp (depScore (Dependency.row (scaleArc β q) b) t.1) :=
    sum_congr rfl fun t' _ => by rw [dep_scaled]; rfl
  rw [e2] at k
  exact k

open Classical in
/-- **C92, `DependencyCRF`.** -/
theorem dependency_marginals_argmax (mr : Bool) (q : DepTree.Arcs ℝ) (lengths : Option (List ℕ)) (h : Dependency.Valid mr q lengths) {β : ℝ} (hβ : 0 ≤ β)
    {pick : List (Autograd.Grad (List ℕ)) → Autograd.Grad (List ℕ)} (hp : Autograd.IsArgmax Prod.fst pick) :
    ∃ μ a, DepTree.marginals mr (scaleArc β q) lengths = .ok μ ∧ DepTree.argmax mr q lengths pick = .ok a ∧
      ∀ b < q.d0, ∀ g > 0, (∃ t, Leads (depS mr q lengths b) t g) → ∀ i j,
        |μ [b, i, j] - a [b, i, j]| ≤ (Fintype.card (ProjTrees mr (Dependency.len q lengths b)) - 1) * Real.exp (-(β * g)) := by
  have h' : Dependency.Valid mr (scaleArc β q) lengths := ⟨h.rank, h.square, h.batch, h.words, h.lens⟩
  obtain ⟨μ, h1, h2⟩ := Dependency.marginals_spec mr (scaleArc β q) lengths h'
  obtain ⟨a, h3, h4⟩ := Dependency.argmax_spec mr q lengths h hp
  refine ⟨μ, a, h1, h3, fun b hb g hg ⟨t, ht⟩ i j => ?_⟩
  obtain ⟨t', h5, h6⟩ := h4 b hb
  obtain rfl := ht.unique hg (y := t') h5
  rw [h2 b hb i j, h6 i j]
  refine Eq.trans_le ?_ (Gibbs.cold_prob (depS mr q lengths b) hβ ht fun t => HasArc t.1 i j)
  have e : (fun t : ProjTrees mr (Dependency.len q lengths b) => depScore (Dependency.row (scaleArc β q) b) t.1) = fun t => β * depS mr q lengths b t := by
    funext t; exact dep_scaled mr β q b t
  exact congrArg abs (congrArg₂ HSub.hSub (sum_congr rfl fun t _ => ite_prob e (fun t => HasArc t.1 i j) t _ _) (by congr))

/-! ### `DependencyCRF` with labels -/

/-- The score of a labelled tree. -/
def labS (mr : Bool) (q : DepTree.Arcs ℝ) (lengths : Option (List ℕ)) (b : ℕ) (t : LabelledTrees mr (LabelledDependency.len q lengths b) q.d3) : ℝ :=
  labScore (LabelledDependency.row q b) t

theorem lab_scaled (mr : Bool) (β : ℝ) (q : DepTree.Arcs ℝ) (b : ℕ) {n L : ℕ} (t : LabelledTrees mr n L) :
    labScore (LabelledDependency.row (scaleArc β q) b) t = β * labScore (LabelledDependency.row q b) t :=
  (mul_sum univ (fun k : Fin n => LabelledDependency.row q b (arcCell (t.1.1 k) k).1 (arcCell (t.1.1 k) k).2 (t.2 k)) β).symm

/-- **C92, `DependencyCRF` with labels.** -/
theorem labelled_partition_max (mr : Bool) (q : DepTree.Arcs ℝ) (lengths : Option (List ℕ)) (h : LabelledDependency.Valid mr q lengths) {β : ℝ} (hβ : 0 ≤ β) :
    ∃ us ms, DepTree.partition mr (scaleArc β q) lengths = .ok us ∧ DepTree.max mr q lengths = .ok ms ∧ ∀ b < q.d0,
      β * ms.getD b 0 ≤ us.getD b 0 ∧
      us.getD b 0 ≤ β * ms.getD b 0 + Real.log (Fintype.card (LabelledTrees mr (LabelledDependency.len q lengths b) q.d3)) := by
  have h' : LabelledDependency.Valid mr (scaleArc β q) lengths := ⟨h.rank, h.labels, h.square, h.batch, h.words, h.lens⟩
  obtain ⟨ms, h1, h2, h3⟩ := LabelledDependency.max_spec mr q lengths h
  refine ⟨_, ms, LabelledDependency.partition_spec mr _ lengths h', h1, fun b hb => ?_⟩
  obtain ⟨⟨t, e⟩, h4⟩ := h3 b (by omega)
  have hb' : b < (scaleArc β q).d0 := hb
  rw [getD_rows hb', List.getD_eq_getElem _ _ (by omega : b < ms.length), e]
  have k := Gibbs.log_Z_scaled (labS mr q lengths b) hβ (y0 := t) fun t' => (h4 t').trans_eq e
  have e2 : (Gibbs.Z fun t' => β * labS mr q lengths b t') =
      ∑ t : LabelledTrees mr (LabelledDependency.len q lengths b) q.d3, Real.exp (labScore (LabelledDependency.row (scaleArc β q) b) t) :=
    sum_congr rfl fun t' _ => by rw [lab_scaled]; rfl
  rw [e2] at k
  exact k

open Classical in
/-- **C92, `DependencyCRF` with labels.** -/
theorem labelled_marginals_argmax (mr : Bool) (q : DepTree.Arcs ℝ) (lengths : Option (List ℕ)) (h : LabelledDependency.Valid mr q lengths) {β : ℝ} (hβ : 0 ≤ β)
    {pick : List (Autograd.Grad (List ℕ)) → Autograd.Grad (List ℕ)} (hp : Autograd.IsArgmax Prod.fst pick) :
    ∃ μ a, DepTree.marginals mr (scaleArc β q) lengths = .ok μ ∧ DepTree.argmax mr q lengths pick = .ok a ∧
      ∀ b < q.d0, ∀ g > 0, (∃ t, Leads (labS mr q lengths b) t g) → ∀ i j l,
        |μ [b, i, j, l] - a [b, i, j, l]| ≤ (Fintype.card (LabelledTrees mr (LabelledDependency.len q lengths b) q.d3) - 1) * Real.exp (-(β * g)) := by
  have h' : LabelledDependency.Valid mr (scaleArc β q) lengths := ⟨h.rank, h.labels, h.square, h.batch, h.words, h.lens⟩
  obtain ⟨μ, h1, h2⟩ := LabelledDependency.marginals_spec mr (scaleArc β q) lengths h'
  obtain ⟨a, h3, h4⟩ := LabelledDependency.argmax_spec mr q lengths h hp
  refine ⟨μ, a, h1, h3, fun b hb g hg ⟨t, ht⟩ i j l => ?_⟩
  obtain ⟨t', h5, h6⟩ := h4 b hb
  obtain rfl := ht.unique hg (y := t') h5
  rw [h2 b hb i j l, h6 i j l]
  refine Eq.trans_le ?_ (Gibbs.cold_prob (labS mr q lengths b) hβ ht fun t => HasLabArc t i j l)
  have e : (labScore (LabelledDependency.row (scaleArc β q) b) : LabelledTrees mr (LabelledDependency.len q lengths b) q.d3 → ℝ) =
      fun t => β * labS mr q lengths b t := by
    funext t; exact lab_scaled mr β q b t
  exact congrArg abs (congrArg₂ HSub.hSub (sum_congr rfl fun t _ => ite_prob e (fun t => HasLabArc t i j l) t _ _) (by congr))

/-! ### `LinearChainCRF` -/

theorem chain_scaled (β : ℝ) (p : T4 ℝ) (b : ℕ) {m : ℕ} (y : Tags m p.d2) : seqScore (LinearChain.row (scale4 β p) b) y = β * seqScore (LinearChain.row p b) y :=
  (mul_sum univ (fun n : Fin m => LinearChain.row p b n (y n.succ) (y n.castSucc)) β).symm

open Classical in
/-- **C92, `LinearChainCRF`**, with the error of the stand-in `-1e5`. -/
theorem chain_cold (p : T4 ℝ) (lengths : Option (List ℕ)) (h : LinearChain.Valid p lengths) {m : ℝ} (hm : LinearChain.LowerBound p lengths m) (hm' : -100000 < m)
    {β : ℝ} (hβ : 0 ≤ β) {pick : List (Autograd.Grad (List ℕ)) → Autograd.Grad (List ℕ)} (hp : Autograd.IsArgmax Prod.fst pick) :
    ∃ us ms μ a, Dist.partition LinearChain.algo (scale4 β p) lengths = .ok us ∧ Dist.max LinearChain.algo p lengths = .ok ms ∧
      Dist.marginals LinearChain.algo (scale4 β p) lengths = .ok μ ∧ Dist.argmax LinearChain.algo p lengths pick = .ok a ∧ ∀ b < p.d0,
      β * ms.getD b 0 ≤ us.getD b 0 ∧
      us.getD b 0 ≤ β * ms.getD b 0 + Real.log (Fintype.card (Tags (LinearChain.numEdges p lengths b) p.d2)) + LinearChain.err p lengths (-100000) (β * m) b ∧
      ∀ g > 0, (∃ y, Leads (seqScore (LinearChain.row p b) : Tags (LinearChain.numEdges p lengths b) p.d2 → ℝ) y g) → ∀ n < p.d1, ∀ i j : Fin p.d2,
        |μ [b, n, i, j] - a [b, n, i, j]| ≤ (Fintype.card (Tags (LinearChain.numEdges p lengths b) p.d2) - 1) * Real.exp (-(β * g)) +
          LinearChain.err p lengths (-100000) (β * m) b := by
  have h' : LinearChain.Valid (scale4 β p) lengths := ⟨h.square, h.edges, h.classes, h.lens⟩
  have hm2 : LinearChain.LowerBound (scale4 β p) lengths (β * m) := fun b hb n hn i j => mul_le_mul_of_nonneg_left (hm b hb n hn i j) hβ
  obtain ⟨us, u1, u2, u3⟩ := LinearChain.partition_bounds (scale4 β p) lengths h' (β * m) hm2
  obtain ⟨μ, h1, h2⟩ := LinearChain.marginals_spec (scale4 β p) lengths h' (β * m) hm2
  obtain ⟨a, ms, h3, h4, h5, h6⟩ := LinearChain.argmax_spec p lengths h (fun b hb n hn i j => hm'.trans_le (hm b hb n hn i j)) pick hp
  obtain ⟨ms', h7, h8, h9⟩ := LinearChain.max_spec p lengths h fun b hb n hn i j => hm'.le.trans (hm b hb n hn i j)
  obtain rfl : ms = ms' := by rw [h4] at h7; exact Except.ok.inj h7
  refine ⟨us, ms, μ, a, u1, h4, h1, h3, fun b hb => ?_⟩
  obtain ⟨y, hy, hy2⟩ := h6 b (by omega)
  have hbest : ∀ y' : Tags (LinearChain.numEdges p lengths b) p.d2, seqScore (LinearChain.row p b) y' ≤ seqScore (LinearChain.row p b) y :=
    fun y' => ((h9 b (by omega)).2 y').trans_eq hy.symm
  have e : (seqScore (LinearChain.row (scale4 β p) b) : Tags (LinearChain.numEdges p lengths b) p.d2 → ℝ) = fun y => β * seqScore (LinearChain.row p b) y :=
    funext fun y => chain_scaled β p b y
  have k := Gibbs.log_Z_scaled _ hβ hbest
  rw [← e] at k
  have u2 : us.length = p.d0 := u2
  have a1 : Real.log (Gibbs.Z (seqScore (LinearChain.row (scale4 β p) b) : Tags (LinearChain.numEdges p lengths b) p.d2 → ℝ)) ≤ us[b] ∧
    us[b] ≤ Real.log (Gibbs.Z (seqScore (LinearChain.row (scale4 β p) b) : Tags (LinearChain.numEdges p lengths b) p.d2 → ℝ)) +
      LinearChain.err p lengths (-100000) (β * m) b := u3 b (by omega)
  rw [List.getD_eq_getElem _ _ (by omega : b < us.length), List.getD_eq_getElem _ _ (by omega : b < ms.length), ← hy]
  refine ⟨k.1.trans a1.1, by linarith [k.2, a1.2], ?_⟩
  rintro g hg ⟨y1, hl⟩ n hn i j
  obtain rfl := hl.unique hg hbest
  rw [hy2 n hn i j]
  have k2 := Gibbs.cold_prob _ hβ hl fun y => UsesEdge y n i j
  rw [← e] at k2
  have k3 := (h2 b hb n hn i j).2.2
  have e2 : edgeProb (LinearChain.numEdges (scale4 β p) lengths b) (LinearChain.row (scale4 β p) b) n i j =
    ∑ y : Tags (LinearChain.numEdges p lengths b) p.d2, if UsesEdge y n i j then Gibbs.prob (seqScore (LinearChain.row (scale4 β p) b)) y else 0 :=
    sum_congr rfl fun y _ => ite_prob rfl (fun y : Tags (LinearChain.numEdges p lengths b) p.d2 => UsesEdge y n i j) y _ _
  have k3 := (congrArg (fun x => |μ [b, n, i, j] - x|) e2).symm.trans_le k3
  refine le_of_le_of_eq ?_ (add_comm _ _)
  refine (abs_sub_le _ _ _).trans (add_le_add k3 (le_of_eq_of_le ?_ k2))
  exact congrArg abs (congrArg₂ HSub.hSub (sum_congr rfl fun y _ => ite_prob rfl (fun y : Tags (LinearChain.numEdges p lengths b) p.d2 => UsesEdge y n i j) y _ _) (by congr))

/-! ### `SemiMarkovCRF` -/

/-- All potentials multiplied by `β`. -/
def scale5 (β : ℝ) (p : T5 ℝ) : T5 ℝ := { p with get := fun b n k i j => β * p.get b n k i j }

theorem seg_scaled (β : ℝ) (p : T5 ℝ) (b : ℕ) {K C L : ℕ} (y : Segmentation K C L) :
    segScore (SemiMarkov.row (scale5 β p) b) y = β * segScore (SemiMarkov.row p b) y :=
  list_scale β (segEdges 0 y.1 y.2.1) fun s => SemiMarkov.row p b s.1 s.2.1 s.2.2.1 s.2.2.2

open Classical in
/-- **C92, `SemiMarkovCRF`**, with the error of the stand-in `-1e5`. -/
theorem semi_cold (p : T5 ℝ) (lengths : Option (List ℕ)) (h : SemiMarkov.Valid p lengths) {B : ℝ} (hB : SemiMarkov.Bounded p lengths B)
    (hsmall : 2 * p.d1 * B < 100000) {β : ℝ} (hβ : 0 ≤ β) {pick : List (Autograd.Grad (List ℕ)) → Autograd.Grad (List ℕ)} (hp : Autograd.IsArgmax Prod.fst pick) :
    ∃ us ms μ a, Dist.partition SemiMarkov.algo (scale5 β p) lengths = .ok us ∧ Dist.max SemiMarkov.algo p lengths = .ok ms ∧
      Dist.marginals SemiMarkov.algo (scale5 β p) lengths = .ok μ ∧ Dist.argmax SemiMarkov.algo p lengths pick = .ok a ∧ ∀ b < p.d0,
      β * ms.getD b 0 ≤ us.getD b 0 ∧
      us.getD b 0 ≤ β * ms.getD b 0 + Real.log (Fintype.card (SemiMarkov.Seg p lengths b)) + SemiMarkov.err p lengths (β * B) b ∧
      ∀ g > 0, (∃ y, Leads (segScore (SemiMarkov.row p b) : SemiMarkov.Seg p lengths b → ℝ) y g) → ∀ n k, ∀ i j : Fin p.d3,
        |μ [b, n, k, i, j] - a [b, n, k, i, j]| ≤ (Fintype.card (SemiMarkov.Seg p lengths b) - 1) * Real.exp (-(β * g)) + SemiMarkov.err p lengths (β * B) b := by
  have h' : SemiMarkov.Valid (scale5 β p) lengths := by
    obtain ⟨a1, a2, a3, a4, a5, a6⟩ := h
    exact ⟨a1, a2, a3, a4, a5, a6⟩
  have hB' : SemiMarkov.Bounded (scale5 β p) lengths (β * B) := ⟨mul_nonneg hβ hB.nonneg, fun b hb n k i j h1 h2 h3 h4 h5 => by
    have := hB.bound b hb n k i j h1 h2 h3 h4 h5
    simp only [scale5]
    rw [abs_mul, abs_of_nonneg hβ]
    exact mul_le_mul_of_nonneg_left this hβ⟩
  obtain ⟨us, u1, u2, u3⟩ := SemiMarkov.partition_spec (scale5 β p) lengths h' hB'
  obtain ⟨μ, h1, h2⟩ := SemiMarkov.marginals_spec (scale5 β p) lengths h' hB'
  obtain ⟨a, h3, h6⟩ := SemiMarkov.argmax_spec p lengths h hB hsmall hp
  obtain ⟨ms, h7, h8, h9⟩ := SemiMarkov.max_spec p lengths h hB hsmall
  refine ⟨us, ms, μ, a, u1, h7, h1, h3, fun b hb => ?_⟩
  obtain ⟨y, hbest, hy2⟩ := h6 b hb
  obtain ⟨⟨y', hy'⟩, hm⟩ := h9 b (by omega)
  have hy : segScore (SemiMarkov.row p b) y = ms[b] := le_antisymm (hm y) (hy'.le.trans (hbest y'))
  have e : (segScore (SemiMarkov.row (scale5 β p) b) : SemiMarkov.Seg p lengths b → ℝ) = fun y => β * segScore (SemiMarkov.row p b) y :=
    funext fun y => seg_scaled β p b y
  have k := Gibbs.log_Z_scaled _ hβ hbest
  rw [← e] at k
  have u2 : us.length = p.d0 := u2
  have a1 : Real.log (Gibbs.Z (segScore (SemiMarkov.row (scale5 β p) b) : SemiMarkov.Seg p lengths b → ℝ)) ≤ us[b] ∧
    us[b] ≤ Real.log (Gibbs.Z (segScore (SemiMarkov.row (scale5 β p) b) : SemiMarkov.Seg p lengths b → ℝ)) +
      SemiMarkov.err p lengths (β * B) b := u3 b (by omega)
  rw [List.getD_eq_getElem _ _ (by omega : b < us.length), List.getD_eq_getElem _ _ (by omega : b < ms.length), ← hy]
  refine ⟨k.1.trans a1.1, by linarith [k.2, a1.2], ?_⟩
  rintro g hg ⟨y1, hl⟩ n k i j
  obtain rfl := hl.unique hg hbest
  rw [hy2 n k i j]
  have k2 := Gibbs.cold_prob _ hβ hl fun y => (n, k, i, j) ∈ segEdges 0 y.1 y.2.1
  rw [← e] at k2
  have k3 := h2 b hb n k i j
  have e2 : SemiMarkov.segProb (K := (scale5 β p).d2) (SemiMarkov.row (scale5 β p) b) (SemiMarkov.steps (scale5 β p) lengths b) n k i j =
    ∑ y : SemiMarkov.Seg p lengths b, if (n, k, i, j) ∈ segEdges 0 y.1 y.2.1 then Gibbs.prob (segScore (SemiMarkov.row (scale5 β p) b)) y else 0 :=
    sum_congr rfl fun y _ => ite_prob rfl (fun y : SemiMarkov.Seg p lengths b => (n, k, i, j) ∈ segEdges 0 y.1 y.2.1) y _ _
  have k3 := (congrArg (fun x => |μ [b, n, k, i, j] - x|) e2).symm.trans_le k3
  refine le_of_le_of_eq ?_ (add_comm _ _)
  refine (abs_sub_le _ _ _).trans (add_le_add k3 (le_of_eq_of_le ?_ k2))
  exact congrArg abs (congrArg₂ HSub.hSub (sum_congr rfl fun y _ => ite_prob rfl (fun y : SemiMarkov.Seg p lengths b => (n, k, i, j) ∈ segEdges 0 y.1 y.2.1) y _ _) (by congr))

/-! ### `SentCFG` -/

/-- All scores multiplied by `β`. -/
def scaleCfg (β : ℝ) (p : CKY.Scores ℝ) : CKY.Scores ℝ :=
  { p with term := fun b n t => β * p.term b n t, rule := fun b x y z => β * p.rule b x y z, root := fun b x => β * p.root b x }

theorem deriv_scaled (β : ℝ) (p : CKY.Scores ℝ) (b : ℕ) {L : ℕ} (d : Derivs p.NT p.T L) : SentCFG.dscore (scaleCfg β p) b d = β * SentCFG.dscore p b d := by
  have e1 := list_scale β d.1.rules fun x => p.rule b x.1 x.2.1 x.2.2
  have e2 := list_scale β (d.1.words 0) fun x => p.term b x.1 x.2
  have e3 : SentCFG.dscore (scaleCfg β p) b d = β * p.root b d.1.sym + ((d.1.rules.map fun x => β * p.rule b x.1 x.2.1 x.2.2).sum +
    ((d.1.words 0).map fun x => β * p.term b x.1 x.2).sum) := rfl
  rw [e3, e1, e2, SentCFG.dscore, derivScore]
  ring

/-- **C92, `SentCFG`**, with the error of the stand-in `-1e5`. -/
theorem grammar_cold (p : CKY.Scores ℝ) (lengths : Option (List ℕ)) (h : SentCFG.Valid p lengths) (hl : SentCFG.Long p lengths) {B : ℝ}
    (hB : SentCFG.Bounded p lengths B) (hsmall : 4 * p.N * B < 100000) {β : ℝ} (hβ : 0 ≤ β) {pick : List (Autograd.Grad (List ℕ)) → Autograd.Grad (List ℕ)}
    (hp : Autograd.IsArgmax Prod.fst pick) :
    ∃ us ms μ a, Dist.partition CKY.algo (scaleCfg β p) lengths = .ok us ∧ Dist.max CKY.algo p lengths = .ok ms ∧
      CKY.marginals (scaleCfg β p) lengths = .ok μ ∧ CKY.argmax p lengths pick = .ok a ∧ ∀ b < p.batch,
      β * ms.getD b 0 ≤ us.getD b 0 ∧
      us.getD b 0 ≤ β * ms.getD b 0 + Real.log (Fintype.card (SentCFG.Der p lengths b)) + SentCFG.err p lengths (β * B) b ∧
      ∀ g > 0, (∃ d : SentCFG.Der p lengths b, Leads (SentCFG.dscore p b) d g) →
        let ε := 3 * p.N * ((Fintype.card (SentCFG.Der p lengths b) - 1) * Real.exp (-(β * g))) + SentCFG.err p lengths (β * B) b * (3 * p.N)
        (∀ n t, |μ.term b n t - a.term b n t| ≤ ε) ∧ (∀ X y z, |μ.rule b X y z - a.rule b X y z| ≤ ε) ∧
        (∀ X, |μ.root b X - a.root b X| ≤ ε) ∧ (∀ w i X, |μ.spans b w i X - a.spans b w i X| ≤ ε) := by
  have h' : SentCFG.Valid (scaleCfg β p) lengths := ⟨h.symbols, h.nonterminals, h.preterminals, h.rows, h.words, h.lens, h.plain⟩
  have hl' : SentCFG.Long (scaleCfg β p) lengths := hl
  have aux : ∀ {x : ℝ}, |x| ≤ B → |β * x| ≤ β * B := by
    intro x hx
    rw [abs_mul, abs_of_nonneg hβ]
    exact mul_le_mul_of_nonneg_left hx hβ
  have hB' : SentCFG.Bounded (scaleCfg β p) lengths (β * B) := ⟨mul_nonneg hβ hB.nonneg, fun b hb n hn t ht => aux (hB.term b hb n hn t ht),
    fun b hb x hx y hy z hz => aux (hB.rule b hb x hx y hy z hz), fun b hb x hx => aux (hB.root b hb x hx)⟩
  obtain ⟨us, u1, u2, u3⟩ := SentCFG.partition_spec (scaleCfg β p) lengths h' hl' hB'
  obtain ⟨μ, h1, h2⟩ := SentCFG.marginals_spec (scaleCfg β p) lengths h' hl' hB'
  obtain ⟨a, h3, h6⟩ := SentCFG.argmax_spec p lengths h hl hB hsmall hp
  obtain ⟨ms, h7, h8, h9⟩ := SentCFG.max_spec p lengths h hl hB hsmall
  refine ⟨us, ms, μ, a, u1, h7, h1, h3, fun b hb => ?_⟩
  obtain ⟨y, hbest, hy2⟩ := h6 b hb
  obtain ⟨⟨y', hy'⟩, hm⟩ := h9 b (by omega)
  have hy : SentCFG.dscore p b y = ms[b] := le_antisymm (hm y) (hy'.le.trans (hbest y'))
  have e : (fun d : SentCFG.Der p lengths b => SentCFG.dscore (scaleCfg β p) b d) = fun y => β * SentCFG.dscore p b y := funext fun y => deriv_scaled β p b y
  have k := Gibbs.log_Z_scaled _ hβ hbest
  rw [← e] at k
  have u2 : us.length = p.batch := u2
  have a1 : Real.log (Gibbs.Z (fun d : SentCFG.Der p lengths b => SentCFG.dscore (scaleCfg β p) b d)) ≤ us[b] ∧
    us[b] ≤ Real.log (Gibbs.Z (fun d : SentCFG.Der p lengths b => SentCFG.dscore (scaleCfg β p) b d)) +
      SentCFG.err p lengths (β * B) b := u3 b (by omega)
  rw [List.getD_eq_getElem _ _ (by omega : b < us.length), List.getD_eq_getElem _ _ (by omega : b < ms.length), ← hy]
  refine ⟨k.1.trans a1.1, by linarith [k.2, a1.2], ?_⟩
  rintro g hg ⟨y1, hlead⟩
  obtain rfl := hlead.unique hg hbest
  have key : ∀ (x : ℝ) (f : Deriv p.NT p.T → ℕ), (∀ d : SentCFG.Der p lengths b, f d.1 ≤ 3 * p.N) →
      |x - SentCFG.expected (scaleCfg β p) lengths b f| ≤ SentCFG.err (scaleCfg β p) lengths (β * B) b * (3 * p.N) →
      |x - (f y.1 : ℝ)| ≤ 3 * p.N * ((Fintype.card (SentCFG.Der p lengths b) - 1) * Real.exp (-(β * g))) + SentCFG.err p lengths (β * B) b * (3 * p.N) := by
    intro x f hf hx
    have k2 := Gibbs.cold_expect _ hβ hlead (fun d : SentCFG.Der p lengths b => (f d.1 : ℝ)) (M := 3 * p.N)
      (fun d => ⟨Nat.cast_nonneg _, by exact_mod_cast hf d⟩)
    rw [← e] at k2
    refine le_of_le_of_eq ?_ (add_comm _ _)
    exact (abs_sub_le _ _ _).trans (add_le_add hx k2)
  have hlen : ∀ d : SentCFG.Der p lengths b, d.1.size ≤ p.N := fun d => by
    have e : d.1.size = SentCFG.len p lengths b := d.2.1
    rw [e]
    exact SentCFG.len_le h b hb
  refine ⟨fun n t => ?_, fun X y' z => ?_, fun X => ?_, fun w i X => ?_⟩
  · rw [hy2.term]
    refine key _ (fun d => (d.words 0).count (n, t)) (fun d => ?_) ((h2 b hb).1 n t)
    have := (List.count_le_length (a := (n, t)) (l := d.1.words 0))
    rw [SentCFG.words_length] at this
    have := hlen d; omega
  · rw [hy2.rule]
    refine key _ (fun d => d.rules.count (X, y', z)) (fun d => ?_) ((h2 b hb).2.1 X y' z)
    have := (List.count_le_length (a := (X, y', z)) (l := d.1.rules))
    rw [SentCFG.rules_length] at this
    have := hlen d; omega
  · rw [hy2.root]
    have := key _ (fun d => if d.sym = X then 1 else 0) (fun d => ?_) ((h2 b hb).2.2.1 X)
    · push_cast at this
      exact this
    · have := h.words
      split_ifs <;> omega
  · rw [hy2.spans]
    refine key _ (fun d => (d.spans 0).count (i, i + w + 1, X)) (fun d => ?_) ((h2 b hb).2.2.2 w i X)
    have := (List.count_le_length (a := (i, i + w + 1, X)) (l := d.1.spans 0))
    rw [SentCFG.spans_length] at this
    have := hlen d; omega

/-! A structure that leads by a positive margin exists whenever the best structure is unique. -/

theorem leads_of_unique {ι : Type} [Fintype ι] {s : ι → ℝ} {y0 : ι} (h : ∀ y, y ≠ y0 → s y < s y0) : ∃ g > 0, Leads s y0 g := by
  classical
  by_cases hne : (univ.erase y0 : Finset ι).Nonempty
  · obtain ⟨y1, h1, h2⟩ := exists_max_image (univ.erase y0) s hne
    refine ⟨s y0 - s y1, by linarith [h y1 (ne_of_mem_erase h1)], fun y hy => ?_⟩
    linarith [h2 y (mem_erase.2 ⟨hy, mem_univ y⟩)]
  · exact ⟨1, one_pos, fun y hy => absurd ⟨y, mem_erase.2 ⟨hy, mem_univ y⟩⟩ hne⟩

/-- The hypotheses are met: a one-edge chain in which tag 1 followed by tag 1 scores 1 and everything else 0. -/
example : ∃ y, Leads (seqScore (LinearChain.row (⟨1, 1, 2, 2, fun _ _ i j => if i = 1 ∧ j = 1 then 1 else 0⟩ : T4 ℝ) 0) : Tags 1 2 → ℝ) y 1 := by
  refine ⟨fun _ => 1, fun y hy => ?_⟩
  have h1 : ¬ (((y 1 : Fin 2) : ℕ) = 1 ∧ ((y 0 : Fin 2) : ℕ) = 1) := by
    rintro ⟨a, b⟩
    refine hy (funext fun n => ?_)
    fin_cases n
    · exact Fin.ext b
    · exact Fin.ext a
  have e : seqScore (LinearChain.row (⟨1, 1, 2, 2, fun _ _ i j => if i = 1 ∧ j = 1 then 1 else 0⟩ : T4 ℝ) 0) y = 0 := by
    simp only [seqScore, Fin.sum_univ_one, LinearChain.row]
    exact if_neg h1
  rw [e]
  simp [seqScore, LinearChain.row]

end Props.Temperature
