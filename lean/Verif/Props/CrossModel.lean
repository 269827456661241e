import Verif.Props.Dependency
import Verif.Props.LabelledDependency
import Verif.Props.NonProj
import Verif.Spec.Results
import Verif.Props.SemiMarkov
import Verif.Props.LinearChainValue
import Mathlib.Algebra.BigOperators.Ring.Finset
import Mathlib.Algebra.BigOperators.Fin
import Mathlib.Algebra.BigOperators.Field

/-! Property theorems that relate the distributions of the library to each other (C85): labelled and unlabelled dependency trees, trees with one and
with several roots, projective and non-projective trees, semi-Markov models without long segments and linear chains. -/

open Finset Spec

noncomputable section
namespace Props.CrossModel

/-! ### Labelled and unlabelled dependency trees -/

section labels
open DepTree

variable {γ : Type}

/-- The unlabelled table whose entry combines the entries of all labels with `f`. -/
def combine (f : List γ → γ) (q : Arcs γ) : Arcs γ := ⟨3, q.d0, q.d1, q.d2, 0, fun b i j _ => f ((List.range q.d3).map fun l => q.get b i j l)⟩

/-- `potentials.logsumexp(-1)`. -/
def lseLabels (q : Arcs ℝ) : Arcs ℝ := combine (fun l => Real.log (l.map Real.exp).sum) q

/-- `potentials.sum(-1)`, for weights. -/
def sumLabels {R : Type} [CommSemiring R] (q : Arcs R) : Arcs R := combine List.sum q

/-- `potentials.max(-1)`. -/
def maxLabels (q : Arcs ℝ) : Arcs ℝ := combine Semirings.listMax q

theorem combine_valid {mr : Bool} {q : Arcs γ} {lengths : Option (List ℕ)} (f : List γ → γ) (h : LabelledDependency.Valid mr q lengths) :
    Dependency.Valid mr (combine f q) lengths := ⟨rfl, h.square, h.batch, h.words, h.lens⟩

/-- The sum over the labels of all arcs of a product is the product of the sums. -/
theorem sum_labProd {R : Type} [CommSemiring R] {mr : Bool} {n L : ℕ} (φ : ℕ → ℕ → ℕ → R) (t : ProjTrees mr n) :
    ∑ l : Fin n → Fin L, labProd φ ((t, l) : LabelledTrees mr n L) =
      depProd (fun i j => ((List.range L).map fun l => φ i j l).sum) t.1 := by
  simp only [labProd, depProd]
  rw [← Fintype.piFinset_univ, ← Finset.prod_univ_sum (fun _ => univ) fun (k : Fin n) (l : Fin L) => φ (arcCell (t.1 k) k).1 (arcCell (t.1 k) k).2 l]
  refine prod_congr rfl fun k _ => ?_
  rw [Fin.sum_univ_def, ← List.map_coe_finRange_eq_range, List.map_map]
  rfl

/-- **C85.** Weights: summing over labels first changes nothing, in every commutative semiring. -/
theorem labels_sum {R : Type} [CommSemiring R] (mr : Bool) (neg : R) (q : Arcs R) (lengths : Option (List ℕ)) (h : LabelledDependency.Valid mr q lengths) :
    sum mr (Semirings.std R) neg q lengths = sum mr (Semirings.std R) neg (sumLabels q) lengths := by
  rw [LabelledDependency.sum_any_semiring mr neg q lengths h, sumLabels, Dependency.sum_any_semiring mr neg _ lengths (combine_valid _ h)]
  congr 1
  refine List.map_congr_left fun b _ => ?_
  rw [Fintype.sum_prod_type]
  exact sum_congr rfl fun t _ => sum_labProd _ t

theorem exp_labScore {mr : Bool} {n L : ℕ} (φ : ℕ → ℕ → ℕ → ℝ) (t : LabelledTrees mr n L) :
    Real.exp (labScore φ t) = labProd (fun i j l => Real.exp (φ i j l)) t := by rw [labScore, Real.exp_sum]; rfl

theorem exp_depScore {n : ℕ} (φ : ℕ → ℕ → ℝ) (t : Heads n) : Real.exp (depScore φ t) = depProd (fun i j => Real.exp (φ i j)) t := by
  rw [depScore, Real.exp_sum]; rfl

theorem sum_exp_pos {L : ℕ} (hL : 1 ≤ L) (f : ℕ → ℝ) : 0 < ((List.range L).map fun l => Real.exp (f l)).sum := by
  refine List.sum_pos _ (fun x hx => ?_) (by simp; omega)
  obtain ⟨l, -, rfl⟩ := List.mem_map.1 hx
  exact Real.exp_pos _

theorem sum_exp_labScore {mr : Bool} {q : Arcs ℝ} {lengths : Option (List ℕ)} (h : LabelledDependency.Valid mr q lengths) (b : ℕ) {n : ℕ} (t : ProjTrees mr n) :
    ∑ l : Fin n → Fin q.d3, Real.exp (labScore (LabelledDependency.row q b) ((t, l) : LabelledTrees mr n q.d3)) =
      Real.exp (depScore (Dependency.row (lseLabels q) b) t.1) := by
  simp only [exp_labScore]
  rw [sum_labProd, exp_depScore]
  refine prod_congr rfl fun k _ => ?_
  simp only [Dependency.row, lseLabels, combine, LabelledDependency.row, List.map_map]
  exact (Real.exp_log (sum_exp_pos h.labels fun l => q.get b (arcCell (t.1 k) k).1 (arcCell (t.1 k) k).2 l)).symm

/-- **C85.** The log-partition of labelled trees is that of unlabelled trees over the log-sum-exp of the labels. -/
theorem labels_partition (mr : Bool) (q : Arcs ℝ) (lengths : Option (List ℕ)) (h : LabelledDependency.Valid mr q lengths) :
    partition mr q lengths = partition mr (lseLabels q) lengths := by
  rw [LabelledDependency.partition_spec mr q lengths h, lseLabels, Dependency.partition_spec mr _ lengths (combine_valid _ h)]
  congr 1
  refine List.map_congr_left fun b _ => congrArg _ ?_
  rw [Fintype.sum_prod_type]
  exact sum_congr rfl fun t _ => sum_exp_labScore h b t

theorem listMax_range {L : ℕ} (hL : 1 ≤ L) (f : ℕ → ℝ) :
    (∃ l : Fin L, Semirings.listMax ((List.range L).map f) = f l) ∧ ∀ l : Fin L, f l ≤ Semirings.listMax ((List.range L).map f) := by
  have := Bag.listMax_spec ((List.range L).map f) (by simp; omega)
  refine ⟨?_, fun l => this.2 _ (List.mem_map.2 ⟨l, List.mem_range.2 l.2, rfl⟩)⟩
  obtain ⟨l, hl, e⟩ := List.mem_map.1 this.1
  exact ⟨⟨l, List.mem_range.1 hl⟩, e.symm⟩

/-- **C85.** The best labelled tree has the score of the best unlabelled tree over the best label of every arc. -/
theorem labels_max (mr : Bool) (q : Arcs ℝ) (lengths : Option (List ℕ)) (h : LabelledDependency.Valid mr q lengths) :
    DepTree.max mr q lengths = DepTree.max mr (maxLabels q) lengths := by
  obtain ⟨vs, e1, l1, s1⟩ := LabelledDependency.max_spec mr q lengths h
  obtain ⟨ws, e2, l2, s2⟩ := Dependency.max_spec mr _ lengths (combine_valid Semirings.listMax h)
  rw [e1, maxLabels, e2]
  congr 1
  refine List.ext_getElem (l1.trans l2.symm) fun b hb hb' => ?_
  obtain ⟨⟨t, ht⟩, ub⟩ := s1 b hb
  obtain ⟨⟨t', ht'⟩, ub'⟩ := s2 b hb'
  refine le_antisymm ?_ ?_
  · rw [ht]
    refine le_trans ?_ (ub' t.1)
    exact sum_le_sum fun k _ => (listMax_range h.labels fun l => q.get b _ _ l).2 (t.2 k)
  · rw [ht']
    choose l hl using fun k : Fin (Dependency.len (combine Semirings.listMax q) lengths b) =>
      (listMax_range h.labels fun l => q.get b (arcCell (t'.1 k) k).1 (arcCell (t'.1 k) k).2 l).1
    refine le_trans (le_of_eq ?_) (ub (t', l))
    exact sum_congr rfl fun k _ => hl k

theorem Z_labels {mr : Bool} {q : Arcs ℝ} {lengths : Option (List ℕ)} (h : LabelledDependency.Valid mr q lengths) (b n : ℕ) :
    Gibbs.Z (labScore (LabelledDependency.row q b) : LabelledTrees mr n q.d3 → ℝ) =
      Gibbs.Z fun t : ProjTrees mr n => depScore (Dependency.row (lseLabels q) b) t.1 := by
  rw [Gibbs.Z, Gibbs.Z, Fintype.sum_prod_type]
  exact sum_congr rfl fun t _ => sum_exp_labScore h b t

open Classical in
/-- A tree with an arc has it with exactly one label. -/
theorem sum_hasLabArc {mr : Bool} {n L : ℕ} (t : LabelledTrees mr n L) (i j : ℕ) (x : ℝ) :
    ∑ l ∈ range L, (if HasLabArc t i j l then x else 0) = if HasArc t.1.1 i j then x else 0 := by
  by_cases h : HasArc t.1.1 i j
  · obtain ⟨k, hk, ha⟩ := h
    rw [if_pos ⟨k, hk, ha⟩, sum_eq_single (t.2 k : ℕ), if_pos ⟨k, hk, ha, rfl⟩]
    · rintro l - hl
      refine if_neg ?_
      rintro ⟨k', hk', -, e⟩
      obtain rfl : k = k' := Fin.ext (hk.trans hk'.symm)
      exact hl e.symm
    · intro hl
      exact absurd (mem_range.2 (t.2 k).2) hl
  · rw [if_neg h]
    refine sum_eq_zero fun l _ => if_neg ?_
    rintro ⟨k, hk, ha, -⟩
    exact h ⟨k, hk, ha⟩

/-- **C85.** The marginals of the labels of an arc sum to the marginal of the arc under the unlabelled distribution. -/
theorem labels_marginals (mr : Bool) (q : Arcs ℝ) (lengths : Option (List ℕ)) (h : LabelledDependency.Valid mr q lengths) :
    ∃ μ μ', marginals mr q lengths = .ok μ ∧ marginals mr (lseLabels q) lengths = .ok μ' ∧
      ∀ b < q.d0, ∀ i j, ∑ l ∈ range q.d3, μ [b, i, j, l] = μ' [b, i, j] := by
  obtain ⟨μ, e1, s1⟩ := LabelledDependency.marginals_spec mr q lengths h
  obtain ⟨μ', e2, s2⟩ := Dependency.marginals_spec mr (lseLabels q) lengths (combine_valid _ h)
  refine ⟨μ, μ', e1, e2, fun b hb i j => ?_⟩
  rw [s2 b hb, sum_congr rfl fun l _ => s1 b hb i j l]
  simp only [LabelledDependency.arcProb, Dependency.arcProb, Finset.sum_fn]
  unfold LabelledDependency.arcProb
  rw [sum_comm, Fintype.sum_prod_type]
  refine sum_congr rfl fun t _ => ?_
  rw [sum_congr rfl fun l _ => sum_hasLabArc (t, l) i j _]
  classical
  show ∑ l, (if HasArc t.1 i j then _ else 0) = if HasArc t.1 i j then _ else 0
  split_ifs with hc
  · simp only [Gibbs.prob]
    rw [← sum_div, sum_exp_labScore h b t, Z_labels h]
    rfl
  · exact sum_const_zero

/-- The table of shape `batch × N × N` of a labelled table with a single label: `potentials.squeeze(-1)`. -/
def squeeze (q : Arcs γ) : Arcs γ := ⟨3, q.d0, q.d1, q.d2, 0, fun b i j _ => q.get b i j 0⟩

theorem combine_one {q : Arcs γ} (h1 : q.d3 = 1) (f : List γ → γ) (hf : ∀ x, f [x] = x) : combine f q = squeeze q := by
  simp only [combine, squeeze, h1]
  congr 1
  funext b i j _
  exact hf _

/-- **C85.** A single label is no label. -/
theorem one_label (mr : Bool) (q : Arcs ℝ) (lengths : Option (List ℕ)) (h : LabelledDependency.Valid mr q lengths) (h1 : q.d3 = 1) :
    partition mr q lengths = partition mr (squeeze q) lengths ∧ DepTree.max mr q lengths = DepTree.max mr (squeeze q) lengths := by
  rw [labels_partition mr q lengths h, labels_max mr q lengths h, lseLabels, maxLabels, combine_one h1 _ (by simp),
    combine_one h1 _ fun x => by simpa using (Bag.listMax_spec [x] (by simp)).1]
  exact ⟨rfl, rfl⟩

end labels

/-! ### One root, several roots, crossing arcs -/

section roots
open DepTree

theorem sum_le_of_inj {ι κ : Type} [Fintype ι] [Fintype κ] (f : ι → ℝ) (g : κ → ℝ) (e : ι → κ) (he : Function.Injective e) (hg : ∀ k, 0 ≤ g k)
    (h : ∀ i, f i ≤ g (e i)) : ∑ i, f i ≤ ∑ k, g k := by
  classical
  refine (sum_le_sum fun i _ => h i).trans ?_
  rw [← sum_image (f := g) (s := univ) (g := e) fun x _ y _ hxy => he hxy]
  exact sum_le_sum_of_subset_of_nonneg (subset_univ _) fun k _ _ => hg k

/-- A tree with one root is a tree. -/
def forget {n : ℕ} (t : ProjTrees false n) : ProjTrees true n := ⟨t.1, t.2.1, t.2.2.1, by simp⟩

theorem valid_multi {γ : Type} {q : Arcs γ} {lengths : Option (List ℕ)} (h : Dependency.Valid false q lengths) : Dependency.Valid true q lengths :=
  ⟨h.rank, h.square, h.batch, by simp, fun l hl => ⟨(h.lens l hl).1, fun x hx => ⟨((h.lens l hl).2 x hx).1, by simp⟩⟩⟩

/-- **C85.** Allowing several roots can only add to the log-partition and to the best score. -/
theorem single_root_le (q : Arcs ℝ) (lengths : Option (List ℕ)) (h : Dependency.Valid false q lengths) :
    RelE (· ≤ ·) (partition false q lengths) (partition true q lengths) ∧ RelE (· ≤ ·) (DepTree.max false q lengths) (DepTree.max true q lengths) := by
  constructor
  · rw [Dependency.partition_spec false q lengths h, Dependency.partition_spec true q lengths (valid_multi h)]
    refine List.forall₂_map_left_iff.2 (List.forall₂_map_right_iff.2 (List.forall₂_same.2 fun b hb => ?_))
    have hne := Dependency.trees_nonempty h b (List.mem_range.1 hb)
    refine Real.log_le_log (sum_pos (fun t _ => Real.exp_pos _) univ_nonempty) ?_
    exact sum_le_of_inj _ _ forget (fun x y hxy => Subtype.ext (congrArg (fun t : ProjTrees true _ => t.1) hxy)) (fun _ => Real.exp_nonneg _) fun _ => le_rfl
  · obtain ⟨vs, e1, l1, s1⟩ := Dependency.max_spec false q lengths h
    obtain ⟨ws, e2, l2, s2⟩ := Dependency.max_spec true q lengths (valid_multi h)
    rw [e1, e2]
    refine List.forall₂_iff_get.2 ⟨l1.trans l2.symm, fun b hb hb' => ?_⟩
    obtain ⟨⟨t, ht⟩, -⟩ := s1 b hb
    exact ht.le.trans ((s2 b hb').2 (forget t))

/-- The same scores as a table for `NonProjectiveDependencyCRF`. -/
def nonproj (q : Arcs ℝ) : NonProj.Table := ⟨q.d0, q.d1, fun b i j => q.get b i j 0⟩

/-- **C85.** The log-partition over all spanning trees is at least the one over projective trees. -/
theorem projective_le (mr : Bool) (q : Arcs ℝ) (h : Dependency.Valid mr q none) :
    RelE (fun x y => ∃ z, y = some z ∧ x ≤ z) (partition mr q none) (NonProj.partition mr (nonproj q) none) := by
  have hn : mr = true ∨ 1 ≤ (nonproj q).N := by
    cases mr
    · exact Or.inr (h.words rfl)
    · exact Or.inl rfl
  rw [Dependency.partition_spec mr q none h, NonProj.partition_spec mr _ hn]
  refine List.forall₂_map_left_iff.2 (List.forall₂_map_right_iff.2 (List.forall₂_same.2 fun b hb => ⟨_, rfl, ?_⟩))
  have hne := Dependency.trees_nonempty h b (List.mem_range.1 hb)
  refine Real.log_le_log (sum_pos (fun t _ => Real.exp_pos _) univ_nonempty) ?_
  refine sum_le_of_inj (fun t : ProjTrees mr q.d1 => _) (fun t : SpanTrees mr q.d1 => NonProj.weight _ _ t.1)
    (fun t => ⟨t.1, t.2.1, t.2.2.2⟩) (fun x y hxy => Subtype.ext (by simpa using hxy)) (fun t => ?_) fun t => ?_
  · refine prod_nonneg fun m _ => ?_
    split_ifs
    · exact Real.exp_nonneg _
    · have := Real.exp_nonneg ((nonproj q).get b ((t.1 m : ℕ) - 1) m)
      linarith
  · show Real.exp (depScore ((nonproj q).get b) t.1) ≤ _
    rw [← NonProj.weight_zero]
    refine prod_le_prod (fun m _ => ?_) fun m _ => ?_
    · split_ifs <;> simp [Real.exp_nonneg]
    · split_ifs <;> linarith

end roots

/-! ### Semi-Markov models whose segments have length 1 -/

section segments

variable {γ : Type}

/-- The chain of a semi-Markov table with `K = 2`: the score of step `n` is that of the segment of length 1 at `n`. -/
def chainOf (p : T5 γ) : T4 γ := ⟨p.d0, p.d1, p.d3, p.d4, fun b n c c' => p.get b n 1 c c'⟩

theorem chainOf_valid {p : T5 γ} {lengths : Option (List ℕ)} (h : SemiMarkov.Valid p lengths) : LinearChain.Valid (chainOf p) lengths :=
  ⟨h.square, h.positions, h.classes, h.lens⟩

/-- The segmentation of a tag sequence into steps. -/
def stepsOf {C L : ℕ} (y : Tags L C) : Segmentation 2 C L :=
  (y 0, ⟨List.ofFn fun n : Fin L => (1, y n.succ), by
    intro s hs
    obtain ⟨n, rfl⟩ := List.mem_ofFn.1 hs
    exact ⟨le_rfl, by norm_num⟩, by simp [List.map_ofFn, Function.comp_def, List.sum_ofFn]⟩)

theorem stepsOf_bijective {C L : ℕ} : Function.Bijective (stepsOf : Tags L C → Segmentation 2 C L) := by
  constructor
  · intro y y' h
    simp only [stepsOf, Prod.mk.injEq, Subtype.mk.injEq] at h
    have h2 := List.ofFn_injective h.2
    funext n
    refine Fin.cases h.1 (fun i => ?_) n
    simpa using congrFun h2 i
  · rintro ⟨c, l, h1, h2⟩
    have hone : ∀ s ∈ l, s.1 = 1 := fun s hs => by have := h1 s hs; omega
    have hlen : l.length = L := by
      have : l.map Prod.fst = List.replicate l.length 1 := List.eq_replicate_iff.2 ⟨by simp, fun x hx => by
        obtain ⟨s, hs, rfl⟩ := List.mem_map.1 hx
        exact hone s hs⟩
      rw [this] at h2
      simpa using h2
    refine ⟨Fin.cons c fun i => (l[(i : ℕ)]'(by omega)).2, ?_⟩
    simp only [stepsOf, Prod.mk.injEq, Fin.cons_zero, Subtype.mk.injEq, Fin.cons_succ, true_and]
    refine List.ext_getElem (by simp [hlen]) fun i hi hi' => ?_
    simp only [List.getElem_ofFn]
    exact Prod.ext (hone _ (List.getElem_mem _)).symm rfl

theorem segEdges_ofFn {C : ℕ} : ∀ {L : ℕ} (n : ℕ) (y : Tags L C),
    segEdges n (y 0) (List.ofFn fun i : Fin L => (1, y i.succ)) = List.ofFn fun i : Fin L => (n + i, 1, y i.succ, y i.castSucc)
  | 0, _, _ => by simp [segEdges]
  | L + 1, n, y => by
    rw [List.ofFn_succ, List.ofFn_succ, segEdges]
    have := segEdges_ofFn (n + 1) (fun i : Fin (L + 1) => y i.succ)
    simp only [Fin.succ_zero_eq_one] at this ⊢
    rw [this]
    congr 1
    refine congrArg List.ofFn (funext fun i => ?_)
    simp only [Fin.val_succ, Prod.mk.injEq, true_and]
    exact ⟨by omega, rfl⟩

theorem segScore_stepsOf {C L : ℕ} (φ : ℕ → ℕ → ℕ → ℕ → ℝ) (y : Tags L C) :
    segScore φ (stepsOf y) = seqScore (fun n (c c' : Fin C) => φ n 1 c c') y := by
  rw [segScore, stepsOf, segEdges_ofFn 0 y, List.map_ofFn, List.sum_ofFn]
  simp [seqScore]

theorem segWeight_stepsOf {R : Type} [CommSemiring R] {C L : ℕ} (φ : ℕ → ℕ → ℕ → ℕ → R) (y : Tags L C) :
    segWeight φ (stepsOf y) = seqProd (fun n (c c' : Fin C) => φ n 1 c c') y := by
  rw [segWeight, stepsOf, segEdges_ofFn 0 y, List.map_ofFn, List.prod_ofFn]
  simp [seqProd]

/-- **C85.** In every commutative semiring, a semi-Markov model whose segments have length 1 is a linear chain. -/
theorem unit_segments_sum {R : Type} [CommSemiring R] (p : T5 R) (lengths : Option (List ℕ)) (h : SemiMarkov.Valid p lengths) (hK : p.d2 = 2) :
    _root_.SemiMarkov.logpartition (Semirings.std R) p lengths = _root_.LinearChain.logpartition (Semirings.std R) (chainOf p) lengths := by
  obtain ⟨vs, e, l, s⟩ := LinearChain.sum_any_semiring (chainOf p) lengths (chainOf_valid h)
  rw [SemiMarkov.sum_any_semiring p lengths h, e]
  congr 1
  refine List.ext_getElem (by simp [l, chainOf]) fun b hb hb' => ?_
  rw [getElem_map_range, s b hb']
  obtain ⟨d0, d1, d2, d3, d4, g⟩ := p
  obtain rfl : d2 = 2 := hK
  exact (Fintype.sum_bijective stepsOf stepsOf_bijective _ _ fun y => (segWeight_stepsOf _ y).symm).symm

/-- **C85.** With the library's stand-in -1e5 for minus infinity: both log-partitions are above the true one by no more than their error bounds. -/
theorem unit_segments_partition (p : T5 ℝ) (lengths : Option (List ℕ)) (h : SemiMarkov.Valid p lengths) (hK : p.d2 = 2) {B : ℝ}
    (hB : SemiMarkov.Bounded p lengths B) :
    ∃ vs ws, Dist.partition _root_.SemiMarkov.algo p lengths = .ok vs ∧ Dist.partition _root_.LinearChain.algo (chainOf p) lengths = .ok ws ∧
      vs.length = p.d0 ∧ ws.length = p.d0 ∧ ∀ b (hb : b < vs.length) (hb' : b < ws.length),
        vs[b] - ws[b] ≤ SemiMarkov.err p lengths B b ∧
        ws[b] - vs[b] ≤ SemiMarkov.steps p lengths b * Real.exp (B - 100000) +
          ((2 ^ Nat.clog 2 p.d1 - SemiMarkov.steps p lengths b : ℕ) : ℝ) * ((2 * p.d3 - 1 : ℕ) * Real.exp (-100000)) := by
  obtain ⟨vs, e1, l1, s1⟩ := SemiMarkov.partition_spec p lengths h hB
  have hlow : LinearChain.LowerBound (chainOf p) lengths (-B) := fun b hb n hn i j =>
    (abs_le.1 (hB.bound b hb n 1 i j (by exact hn) le_rfl (by rw [hK]; norm_num) i.2 (by exact j.2))).1
  obtain ⟨ws, e2, l2, s2⟩ := LinearChain.partition_bounds (chainOf p) lengths (chainOf_valid h) (-B) hlow
  refine ⟨vs, ws, e1, e2, l1, l2, fun b hb hb' => ?_⟩
  have h1 := s1 b hb
  have h2 := s2 b hb'
  have e : SemiMarkov.truth p lengths b =
      Real.log (∑ y : Tags (LinearChain.numEdges (chainOf p) lengths b) (chainOf p).d2, Real.exp (seqScore (LinearChain.row (chainOf p) b) y)) := by
    refine congrArg Real.log ?_
    obtain ⟨d0, d1, d2, d3, d4, g⟩ := p
    obtain rfl : d2 = 2 := hK
    exact (Fintype.sum_bijective stepsOf stepsOf_bijective _ _ fun y => by rw [segScore_stepsOf]; rfl).symm
  dsimp only at h2
  rw [← e] at h2
  have e3 : (-100000 - -B : ℝ) = B - 100000 := by ring
  rw [e3] at h2
  refine ⟨by linarith [h1.2, h2.1], ?_⟩
  have h3 := h2.2
  change ws[b] ≤ _ + (SemiMarkov.steps p lengths b * Real.exp (B - 100000) +
          ((2 ^ Nat.clog 2 p.d1 - SemiMarkov.steps p lengths b : ℕ) : ℝ) * ((2 * p.d3 - 1 : ℕ) * Real.exp (-100000))) at h3
  linarith [h1.1]

/-- **C85.** The best scores are equal. -/
theorem unit_segments_max (p : T5 ℝ) (lengths : Option (List ℕ)) (h : SemiMarkov.Valid p lengths) (hK : p.d2 = 2) {B : ℝ}
    (hB : SemiMarkov.Bounded p lengths B) (hsmall : 2 * p.d1 * B < 100000) :
    Dist.max _root_.SemiMarkov.algo p lengths = Dist.max _root_.LinearChain.algo (chainOf p) lengths := by
  obtain ⟨vs, e1, l1, s1⟩ := SemiMarkov.max_spec p lengths h hB hsmall
  have hB' : B ≤ 100000 := by
    have h1 : (1 : ℝ) ≤ p.d1 := by exact_mod_cast h.positions
    have h2 := hB.nonneg
    nlinarith
  have hlow : LinearChain.LowerBound (chainOf p) lengths (-100000) := fun b hb n hn i j => by
    have := (abs_le.1 (hB.bound b hb n 1 i j (by exact hn) le_rfl (by rw [hK]; norm_num) i.2 (by exact j.2))).1
    exact le_trans (by linarith) this
  obtain ⟨ws, e2, l2, s2⟩ := LinearChain.max_spec (chainOf p) lengths (chainOf_valid h) hlow
  rw [e1, e2]
  congr 1
  refine List.ext_getElem (l1.trans l2.symm) fun b hb hb' => ?_
  have h1 := s1 b hb
  have h2 := s2 b hb'
  obtain ⟨d0, d1, d2, d3, d4, g⟩ := p
  obtain rfl : d2 = 2 := hK
  obtain ⟨⟨t, ht⟩, ub⟩ := h1
  obtain ⟨⟨y, hy⟩, ub'⟩ := h2
  refine le_antisymm ?_ ?_
  · obtain ⟨y', rfl⟩ := stepsOf_bijective.2 t
    rw [ht, segScore_stepsOf]
    exact ub' y'
  · rw [hy]
    exact le_trans (le_of_eq (segScore_stepsOf _ y).symm) (ub (stepsOf y))

/-- Two rows of 3 and 2 steps, two classes, segments of length 1. -/
def sample2 : T5 ℝ := ⟨2, 3, 2, 2, 2, fun b n k c c' => (b : ℝ) + n - 2 * k + c - c'⟩

example : SemiMarkov.Valid sample2 (some [4, 3]) ∧ sample2.d2 = 2 := ⟨⟨by decide, rfl, by decide, by decide, by decide, rfl, by decide, by decide⟩, rfl⟩

example (mr : Bool) : LabelledDependency.Valid mr LabelledDependency.sample (some [3, 2]) := LabelledDependency.sample_valid mr

example : Dependency.Valid false Dependency.sample (some [3, 2]) := Dependency.sample_valid false

end segments

end Props.CrossModel
