import Verif.Proofs.InfChain
import Verif.Props.CFGInfinity
import Verif.Props.SemiInfinity
import Verif.Props.DepInfinity
import Verif.Props.ChainInfinity
import Verif.Props.LinearChainBest

/-! C119: `max` and `argmax` with potentials `-inf`.

Forbidden parts have potential `-inf`.  Unlike `marginals` (C113, C117, C118), `argmax` has no NaN: if a structure without forbidden parts exists, `argmax` is the best such
structure and `max` its score, for every tie-breaking rule of `torch.max`.  (`LinearChainCRF`, `SemiMarkovCRF` and `SentCFG` need the allowed potentials to be small against the
stand-in `-1e5`.)  If none exists, `max` of trees is `-inf` and `argmax` nevertheless returns a tree. -/

open Finset Spec Generic InfArgmax
open Autograd (GradE IsArgmaxE)
open Props.Conditional (TagsAvoid tagsAvoid_iff forbid4 forbidArc TreeAvoids DepAvoids LabAvoids SegAvoids DerivAvoids Banned depAvoids_iff labAvoids_iff list_forbid sum_forbid)
open Props.SemiInfinity (forbid5)
open Props.CFGInfinity (forbidCfg)

noncomputable section
namespace Props.InfArgmax

/-- The entries of a call of `argmax` are numbers: `torch.max` breaks ties somehow. -/
abbrev Pick := List (GradE (List ℕ)) → GradE (List ℕ)

/-! ### `TreeCRF` -/

theorem tree_sum (p : T4 ℝ) (F : ℕ → ℕ → ℕ → ℕ → Prop) (b : ℕ) {n : ℕ} (t : Trees p.d3 n) :
    (TreeAvoids (F b) t → ((CKYCRFProofs.treeParts b t).map (CKYCRFProofs.at4 (forbid4 p F))).sum = (treeScore (TreeCRF.row p b) t : ℝ)) ∧
    (¬ TreeAvoids (F b) t → ((CKYCRFProofs.treeParts b t).map (CKYCRFProofs.at4 (forbid4 p F))).sum = ⊥) := by
  have := list_forbid (t.1.spans 0) (fun s => TreeCRF.row p b s.1 s.2.1 s.2.2) (fun s => (forbid4 p F).get b s.1 s.2.1 s.2.2) (fun s => F b s.1 s.2.1 s.2.2)
    (fun x hx => if_neg hx) (fun x hx => if_pos hx)
  rw [CKYCRFProofs.treeParts, Multiset.map_coe, Multiset.sum_coe, List.map_map]
  simp only [TreeAvoids, treeScore, Prod.forall] at this ⊢
  exact this

/-- **C119, `TreeCRF`.** -/
theorem tree_spec (p : T4 ℝ) (lengths : Option (List ℕ)) (h : TreeCRF.Valid p lengths) (F : ℕ → ℕ → ℕ → ℕ → Prop) {pick : Pick} (hp : IsArgmaxE Prod.fst pick) :
    ∃ μ vs, Dist.argmaxE CKYCRF.algo (forbid4 p F) lengths pick = .ok μ ∧ Dist.maxE CKYCRF.algo (forbid4 p F) lengths = .ok vs ∧ vs.length = p.d0 ∧
      ∀ b (hb : b < vs.length), ∃ t : Trees p.d3 (TreeCRF.len p lengths b),
        (∀ i j (a : Fin p.d3), μ [b, i, j, (a : ℕ)] = if (i, j, a) ∈ t.1.spans 0 then 1 else 0) ∧
        (TreeAvoids (F b) t → vs[b] = (treeScore (TreeCRF.row p b) t : ℝ)) ∧ (¬ TreeAvoids (F b) t → vs[b] = ⊥) ∧
        ∀ t' : Trees p.d3 (TreeCRF.len p lengths b), TreeAvoids (F b) t' → TreeAvoids (F b) t ∧ treeScore (TreeCRF.row p b) t' ≤ treeScore (TreeCRF.row p b) t := by
  obtain ⟨μ, vs, h1, h2, h3, h4⟩ := (CKYCRFProofs.batchDP (forbid4 p F) lengths ⟨h.square, h.words, h.labels, h.lens⟩).argmaxE_exact
    (Q := fun b t => TreeAvoids (F b) t) (s := fun b t => treeScore (TreeCRF.row p b) t) (fun b _ t => (tree_sum p F b t).1) (fun b _ t => (tree_sum p F b t).2) hp
  refine ⟨μ, vs, h1, h2, h3, fun b hb => ?_⟩
  obtain ⟨t, h5, h6⟩ := h4 b hb
  refine ⟨t, fun i j a => ?_, h6⟩
  refine (h5 _ rfl).trans ?_
  have := TreeCRF.count_parts (L := TreeCRF.len p lengths b) b t i j a
  refine (congrArg (Nat.cast (R := ℝ)) this).trans ?_
  push_cast; rfl

/-! ### `DependencyCRF` -/

theorem dep_sum (mr : Bool) (neg : EReal) (q : DepTree.Arcs ℝ) (F : ℕ → ℕ → ℕ → ℕ → Prop) (b : ℕ) {n : ℕ} (t : ProjTrees mr n) :
    (DepAvoids (F b) t → ((DepTreeProofs.depParts b t).map (DepTreeProofs.atQ neg (forbidArc q F))).sum = (depScore (Dependency.row q b) t.1 : ℝ)) ∧
    (¬ DepAvoids (F b) t → ((DepTreeProofs.depParts b t).map (DepTreeProofs.atQ neg (forbidArc q F))).sum = ⊥) := by
  have := sum_forbid (fun k : Fin n => Dependency.row q b (arcCell (t.1 k) k).1 (arcCell (t.1 k) k).2)
    (fun k : Fin n => (forbidArc q F).get b (arcCell (t.1 k) k).1 (arcCell (t.1 k) k).2 0)
    (fun k : Fin n => F b (arcCell (t.1 k) k).1 (arcCell (t.1 k) k).2 0) (fun x hx => if_neg hx) (fun x hx => if_pos hx)
  rw [DepTreeProofs.depParts, Multiset.map_map, depAvoids_iff]
  exact this

open Classical in
/-- **C119, `DependencyCRF` without labels.** -/
theorem dependency_spec (mr : Bool) (q : DepTree.Arcs ℝ) (lengths : Option (List ℕ)) (h : Dependency.Valid mr q lengths) (F : ℕ → ℕ → ℕ → ℕ → Prop) {pick : Pick}
    (hp : IsArgmaxE Prod.fst pick) :
    ∃ μ vs, DepTree.argmaxE mr (forbidArc q F) lengths pick = .ok μ ∧ DepTree.maxE mr (forbidArc q F) lengths = .ok vs ∧ vs.length = q.d0 ∧
      ∀ b (hb : b < vs.length), ∃ t : ProjTrees mr (Dependency.len q lengths b),
        (∀ i j, μ [b, i, j] = if HasArc t.1 i j then 1 else 0) ∧
        (DepAvoids (F b) t → vs[b] = (depScore (Dependency.row q b) t.1 : ℝ)) ∧ (¬ DepAvoids (F b) t → vs[b] = ⊥) ∧
        ∀ t' : ProjTrees mr (Dependency.len q lengths b), DepAvoids (F b) t' →
          DepAvoids (F b) t ∧ depScore (Dependency.row q b) t'.1 ≤ depScore (Dependency.row q b) t.1 := by
  have h' : Dependency.Valid mr (forbidArc q F) lengths := by
    obtain ⟨a1, a2, a3, a4, a5⟩ := h
    exact ⟨a1, a2, a3, a4, a5⟩
  rw [DepTree.argmaxE, DepTree.maxE, Dependency.conv_eq _ h']
  obtain ⟨μ, vs, h1, h2, h3, h4⟩ := (DepTreeProofs.batchDP3 mr ((DepTree.negBig : ℝ) : EReal) (forbidArc q F) lengths h'.toValid h'.rank).argmaxE_exact
    (Q := fun b t => DepAvoids (F b) t) (s := fun b t => depScore (Dependency.row q b) t.1) (fun b _ t => (dep_sum mr _ q F b t).1) (fun b _ t => (dep_sum mr _ q F b t).2) hp
  refine ⟨μ, vs, h1, h2, h3, fun b hb => ?_⟩
  obtain ⟨t, h5, h6⟩ := h4 b hb
  refine ⟨t, fun i j => ?_, h6⟩
  rw [h5 _ rfl, Dependency.count_parts]
  push_cast; rfl

theorem lab_sum (mr : Bool) (neg : EReal) (q : DepTree.Arcs ℝ) (F : ℕ → ℕ → ℕ → ℕ → Prop) (b : ℕ) {n L : ℕ} (t : LabelledTrees mr n L) :
    (LabAvoids (F b) t → ((DepTreeProofs.labParts true b t).map (DepTreeProofs.atQ neg (forbidArc q F))).sum = (labScore (LabelledDependency.row q b) t : ℝ)) ∧
    (¬ LabAvoids (F b) t → ((DepTreeProofs.labParts true b t).map (DepTreeProofs.atQ neg (forbidArc q F))).sum = ⊥) := by
  have := sum_forbid (fun k : Fin n => LabelledDependency.row q b (arcCell (t.1.1 k) k).1 (arcCell (t.1.1 k) k).2 (t.2 k))
    (fun k : Fin n => (forbidArc q F).get b (arcCell (t.1.1 k) k).1 (arcCell (t.1.1 k) k).2 (t.2 k))
    (fun k : Fin n => F b (arcCell (t.1.1 k) k).1 (arcCell (t.1.1 k) k).2 (t.2 k)) (fun x hx => if_neg hx) (fun x hx => if_pos hx)
  rw [DepTreeProofs.labParts, Multiset.map_map, labAvoids_iff]
  exact this

open Classical in
/-- **C119, `DependencyCRF` with labels.** -/
theorem labelled_spec (mr : Bool) (q : DepTree.Arcs ℝ) (lengths : Option (List ℕ)) (h : LabelledDependency.Valid mr q lengths) (F : ℕ → ℕ → ℕ → ℕ → Prop) {pick : Pick}
    (hp : IsArgmaxE Prod.fst pick) :
    ∃ μ vs, DepTree.argmaxE mr (forbidArc q F) lengths pick = .ok μ ∧ DepTree.maxE mr (forbidArc q F) lengths = .ok vs ∧ vs.length = q.d0 ∧
      ∀ b (hb : b < vs.length), ∃ t : LabelledTrees mr (LabelledDependency.len q lengths b) q.d3,
        (∀ i j l, μ [b, i, j, l] = if HasLabArc t i j l then 1 else 0) ∧
        (LabAvoids (F b) t → vs[b] = (labScore (LabelledDependency.row q b) t : ℝ)) ∧ (¬ LabAvoids (F b) t → vs[b] = ⊥) ∧
        ∀ t' : LabelledTrees mr (LabelledDependency.len q lengths b) q.d3, LabAvoids (F b) t' →
          LabAvoids (F b) t ∧ labScore (LabelledDependency.row q b) t' ≤ labScore (LabelledDependency.row q b) t := by
  have h' : LabelledDependency.Valid mr (forbidArc q F) lengths := by
    obtain ⟨a1, a2, a3, a4, a5, a6⟩ := h
    exact ⟨a1, a2, a3, a4, a5, a6⟩
  rw [DepTree.argmaxE, DepTree.maxE, LabelledDependency.conv_eq _ h']
  obtain ⟨μ, vs, h1, h2, h3, h4⟩ := (DepTreeProofs.batchDP4 mr ((DepTree.negBig : ℝ) : EReal) (forbidArc q F) lengths h'.toValid h'.rank).argmaxE_exact
    (Q := fun b t => LabAvoids (F b) t) (s := fun b t => labScore (LabelledDependency.row q b) t) (fun b _ t => (lab_sum mr _ q F b t).1) (fun b _ t => (lab_sum mr _ q F b t).2) hp
  refine ⟨μ, vs, h1, h2, h3, fun b hb => ?_⟩
  obtain ⟨t, h5, h6⟩ := h4 b hb
  refine ⟨t, fun i j l => ?_, h6⟩
  rw [h5 _ rfl, LabelledDependency.count_parts]
  push_cast; rfl

/-! ### `SemiMarkovCRF` -/

theorem seg_sum (p : T5 ℝ) (F : ℕ → ℕ → ℕ → ℕ → ℕ → Prop) (b : ℕ) {K C L : ℕ} (y : Segmentation K C L) :
    (SegAvoids (F b) y → ((SemiMarkovProofs.segParts b y).map (SemiMarkovProofs.at5 (forbid5 p F))).sum = (segScore (SemiMarkov.row p b) y : ℝ)) ∧
    (¬ SegAvoids (F b) y → ((SemiMarkovProofs.segParts b y).map (SemiMarkovProofs.at5 (forbid5 p F))).sum = ⊥) := by
  have := list_forbid (segEdges 0 y.1 y.2.1) (fun s => SemiMarkov.row p b s.1 s.2.1 s.2.2.1 s.2.2.2) (fun s => (forbid5 p F).get b s.1 s.2.1 s.2.2.1 s.2.2.2)
    (fun s => F b s.1 s.2.1 s.2.2.1 s.2.2.2) (fun x hx => if_neg hx) (fun x hx => if_pos hx)
  rw [SemiMarkovProofs.segParts, Multiset.map_coe, Multiset.sum_coe, List.map_map]
  exact this

/-- The score of a phantom is at most what it is without forbidden parts. -/
theorem ph_le_of (m : Multiset Atom) {v : List ℕ → EReal} {r : List ℕ → ℝ} (h : ∀ e, v e ≤ r e) :
    (m.map (Atom.scoreE v)).sum ≤ ((m.map (Atom.score Semirings.negInf r)).sum : ℝ) := by
  induction m using Multiset.induction_on with
  | empty => simp
  | cons a m ih =>
    simp only [Multiset.map_cons, Multiset.sum_cons]
    rw [EReal.coe_add]
    refine add_le_add ?_ ih
    cases a with
    | pot e => exact h e
    | masked e => exact le_rfl
    | zero => exact le_rfl
    | one => exact le_rfl

theorem hK' {p : T5 ℝ} {lengths : Option (List ℕ)} (h : SemiMarkov.Valid p lengths) : 0 < p.d2 - 1 := SemiMarkov.hK h

/-- **C119, `SemiMarkovCRF`.** -/
theorem semi_spec (p : T5 ℝ) (lengths : Option (List ℕ)) (h : SemiMarkov.Valid p lengths) {B : ℝ} (hB : SemiMarkov.Bounded p lengths B) (hsmall : 2 * p.d1 * B < 100000)
    (F : ℕ → ℕ → ℕ → ℕ → ℕ → Prop) {pick : Pick} (hp : IsArgmaxE Prod.fst pick) :
    ∃ μ vs, Dist.argmaxE SemiMarkov.algo (forbid5 p F) lengths pick = .ok μ ∧ Dist.maxE SemiMarkov.algo (forbid5 p F) lengths = .ok vs ∧ vs.length = p.d0 ∧
      ∀ b (hb : b < vs.length), (∃ y : SemiMarkov.Seg p lengths b, SegAvoids (F b) y) → ∃ y : SemiMarkov.Seg p lengths b, SegAvoids (F b) y ∧
        vs[b] = (segScore (SemiMarkov.row p b) y : ℝ) ∧
        (∀ y' : SemiMarkov.Seg p lengths b, SegAvoids (F b) y' → segScore (SemiMarkov.row p b) y' ≤ segScore (SemiMarkov.row p b) y) ∧
        ∀ n k (c c' : Fin p.d3), μ [b, n, k, (c : ℕ), (c' : ℕ)] = if (n, k, c, c') ∈ segEdges 0 y.1 y.2.1 then 1 else 0 := by
  have h' : SemiMarkovProofs.Valid (forbid5 p F) lengths := by
    obtain ⟨a1, a2, a3, a4, a5, a6⟩ := h
    exact ⟨a1, a2, a3, a4, a5, a6⟩
  obtain ⟨μ, vs, h1, h2, h3, h4⟩ := (SemiMarkovProofs.batchDP (forbid5 p F) lengths h' (hK' h)).argmaxE_allowed
    (Q := fun b y => SegAvoids (F b) y) (s := fun b y => segScore (SemiMarkov.row p b) y) (fun b _ y => (seg_sum p F b y).1) (fun b _ y => (seg_sum p F b y).2)
    (fun b hb x y hy => by
      refine (ph_le_of _ (r := SemiMarkovProofs.at5 p) fun e => ?_).trans_lt ?_
      · unfold SemiMarkovProofs.at5 forbid5
        dsimp only
        split_ifs
        exacts [bot_le, le_rfl]
      · have h1 := (SemiMarkov.ph_le h hB b hb x).1
        have h2 := (abs_le.1 (SemiMarkov.real_le hB b hb y)).1
        have h3 : (SemiMarkov.steps p lengths b : ℝ) * B ≤ p.d1 * B :=
          mul_le_mul_of_nonneg_right (by exact_mod_cast (SemiMarkovProofs.steps_le h b).1) hB.nonneg
        have h4 : -100000 + SemiMarkov.steps p lengths b * B < -(SemiMarkov.steps p lengths b * B) := by linarith
        exact EReal.coe_lt_coe_iff.2 (lt_of_le_of_lt (h1 :) (h4.trans_le h2))) hp
  refine ⟨μ, vs, h1, h2, h3, fun b hb hne => ?_⟩
  obtain ⟨y, h5, h6, h7, h8⟩ := h4 b hb hne
  refine ⟨y, h5, h6, h7, fun n k c c' => ?_⟩
  rw [h8 _ rfl]
  have := SemiMarkov.count_parts b y n k c c'
  rw [this]
  push_cast; rfl

/-! ### `SentCFG` -/

/-- The input of a call of `argmax`, with the leaves for `span[1:]`. -/
def markedE (p : CKY.Scores ℝ) (F : Banned) : CKY.Scores EReal := { forbidCfg p F with mark := some fun _ _ _ _ => 0 }

theorem deriv_forbid (p : CKY.Scores ℝ) (F : Banned) (b : ℕ) {L : ℕ} (d : Derivs p.NT p.T L) {s : EReal}
    (hs : s = (forbidCfg p F).root b d.1.sym + ((d.1.rules.map fun x => (forbidCfg p F).rule b x.1 x.2.1 x.2.2).sum +
        ((d.1.words 0).map fun x => (forbidCfg p F).term b x.1 x.2).sum)) :
    (DerivAvoids F b d.1 → s = (SentCFG.dscore p b d : ℝ)) ∧ (¬ DerivAvoids F b d.1 → s = ⊥) := by
  have r := list_forbid [d.1.sym] (fun x => p.root b x) (fun x => (forbidCfg p F).root b x) (fun x => F.root b x) (fun x hx => if_neg hx) (fun x hx => if_pos hx)
  have q := list_forbid d.1.rules (fun x => p.rule b x.1 x.2.1 x.2.2) (fun x => (forbidCfg p F).rule b x.1 x.2.1 x.2.2) (fun x => F.rule b x.1 x.2.1 x.2.2)
    (fun x hx => if_neg hx) (fun x hx => if_pos hx)
  have w := list_forbid (d.1.words 0) (fun x => p.term b x.1 x.2) (fun x => (forbidCfg p F).term b x.1 x.2) (fun x => F.term b x.1 x.2)
    (fun x hx => if_neg hx) (fun x hx => if_pos hx)
  simp only [List.mem_singleton, forall_eq, List.map_cons, List.map_nil, List.sum_singleton] at r
  rw [hs]
  constructor
  · rintro ⟨a1, a2, a3⟩
    rw [r.1 a1, q.1 a2, w.1 a3, ← EReal.coe_add, ← EReal.coe_add]
    rfl
  · intro hd
    by_cases a1 : ¬ F.root b d.1.sym
    · by_cases a2 : ∀ x ∈ d.1.rules, ¬ F.rule b x.1 x.2.1 x.2.2
      · by_cases a3 : ∀ x ∈ d.1.words 0, ¬ F.term b x.1 x.2
        · exact absurd ⟨a1, a2, a3⟩ hd
        · rw [w.2 a3, EReal.add_bot, EReal.add_bot]
      · rw [q.2 a2, EReal.bot_add, EReal.add_bot]
    · rw [r.2 a1, EReal.bot_add]

theorem deriv_sum (p : CKY.Scores ℝ) (F : Banned) (b : ℕ) {L : ℕ} (d : Derivs p.NT p.T L) :
    ((CKYProofs.derivParts false b d).map (CKYProofs.atS (forbidCfg p F))).sum = (forbidCfg p F).root b d.1.sym +
      ((d.1.rules.map fun x => (forbidCfg p F).rule b x.1 x.2.1 x.2.2).sum + ((d.1.words 0).map fun x => (forbidCfg p F).term b x.1 x.2).sum) := by
  simp only [CKYProofs.derivParts, Bool.false_eq_true, if_false, add_zero, Multiset.map_add, Multiset.sum_add, Multiset.map_singleton,
    Multiset.sum_singleton, CKYProofs.ruleIds, CKYProofs.wordIds, Multiset.map_coe, Multiset.sum_coe, List.map_map]
  rfl

theorem deriv_sum_marked (p : CKY.Scores ℝ) (F : Banned) (b : ℕ) {L : ℕ} (d : Derivs p.NT p.T L) :
    ((CKYProofs.derivParts true b d).map (CKYProofs.atS (markedE p F))).sum = (forbidCfg p F).root b d.1.sym +
      ((d.1.rules.map fun x => (forbidCfg p F).rule b x.1 x.2.1 x.2.2).sum + ((d.1.words 0).map fun x => (forbidCfg p F).term b x.1 x.2).sum) := by
  simp only [CKYProofs.derivParts, if_true, Multiset.map_add, Multiset.sum_add, Multiset.map_singleton,
    Multiset.sum_singleton, CKYProofs.ruleIds, CKYProofs.wordIds, CKYProofs.spanIds, Multiset.map_coe, Multiset.sum_coe, List.map_map]
  have : ((d.1.spans 0).map (CKYProofs.atS (markedE p F) ∘ fun x => [b, 3, x.2.1 - x.1 - 1, x.1, x.2.2])).sum = 0 :=
    List.sum_eq_zero fun x hx => by
      obtain ⟨s, -, rfl⟩ := List.mem_map.1 hx
      rfl
  rw [this, add_zero]
  rfl

theorem le_plain (p : CKY.Scores ℝ) (F : Banned) (h : p.mark = none) (e : List ℕ) : CKYProofs.atS (forbidCfg p F) e ≤ CKYProofs.atS p e := by
  unfold CKYProofs.atS
  split <;> simp only [forbidCfg, h, Option.map_none, Option.getD_none] <;> split_ifs <;> first | exact bot_le | exact le_rfl

theorem le_marked (p : CKY.Scores ℝ) (F : Banned) (e : List ℕ) : CKYProofs.atS (markedE p F) e ≤ CKYProofs.atS (CKY.marked p) e := by
  unfold CKYProofs.atS
  split <;> simp only [markedE, CKY.marked, forbidCfg, Option.map_some, Option.getD_some] <;>
    first | exact le_rfl | (split_ifs <;> first | exact bot_le | exact le_rfl)

theorem bound_plain' {p : CKY.Scores ℝ} {lengths : Option (List ℕ)} (h : SentCFG.Valid p lengths) {B : ℝ} (hB : SentCFG.Bounded p lengths B) (b : ℕ) (hb : b < p.batch) :
    SentCFG.EntryBound false p.N p.NT p.T lengths b (CKYProofs.atS p) B := by
  have := SentCFG.bound_plain h hB b hb
  rwa [h.plain] at this

theorem cfg_beat {p : CKY.Scores ℝ} {lengths : Option (List ℕ)} (h : SentCFG.Valid p lengths) {B : ℝ} (hB : SentCFG.Bounded p lengths B) (hsmall : 4 * p.N * B < 100000)
    (b : ℕ) (hb : b < p.batch) {s : ℝ} (hs : s ≤ -100000 + 2 * SentCFG.len p lengths b * B) (d : SentCFG.Der p lengths b) : s < SentCFG.dscore p b d := by
  have h2 := (abs_le.1 (SentCFG.real_le h hB b hb d)).1
  have h3 : (SentCFG.len p lengths b : ℝ) * B ≤ p.N * B := mul_le_mul_of_nonneg_right (by exact_mod_cast SentCFG.len_le h b hb) hB.nonneg
  linarith

/-- **C119, `SentCFG`.** -/
theorem grammar_spec (p : CKY.Scores ℝ) (lengths : Option (List ℕ)) (h : SentCFG.Valid p lengths) (hl : SentCFG.Long p lengths) {B : ℝ} (hB : SentCFG.Bounded p lengths B)
    (hsmall : 4 * p.N * B < 100000) (F : Banned) {pick : Pick} (hp : IsArgmaxE Prod.fst pick) :
    ∃ μ vs, CKY.argmaxE (forbidCfg p F) lengths pick = .ok μ ∧ Dist.maxE CKY.algo (forbidCfg p F) lengths = .ok vs ∧ vs.length = p.batch ∧
      ∀ b (hb : b < vs.length), (∃ d : SentCFG.Der p lengths b, DerivAvoids F b d.1) → ∃ d : SentCFG.Der p lengths b, DerivAvoids F b d.1 ∧
        vs[b] = (SentCFG.dscore p b d : ℝ) ∧ (∀ d' : SentCFG.Der p lengths b, DerivAvoids F b d'.1 → SentCFG.dscore p b d' ≤ SentCFG.dscore p b d) ∧
        SentCFG.IsParts μ b d := by
  have hm : CKYProofs.Valid (markedE p F) lengths := ⟨h.symbols, h.nonterminals, h.preterminals, h.rows, h.words, h.lens⟩
  obtain ⟨μ, ws, h1, _, h3, h4⟩ := (CKYProofs.batchDP (markedE p F) lengths hm).argmaxE_allowed
    (Q := fun b d => DerivAvoids F b d.1) (s := fun b d => SentCFG.dscore p b d)
    (fun b _ d => (deriv_forbid p F b d (deriv_sum_marked p F b d)).1) (fun b _ d => (deriv_forbid p F b d (deriv_sum_marked p F b d)).2)
    (fun b hb x d _ => (ph_le_of _ (le_marked p F)).trans_lt
      (EReal.coe_lt_coe_iff.2 (cfg_beat h hB hsmall b hb (SentCFG.ph_le (SentCFG.bound_marked hB b hb) x) d))) hp
  obtain ⟨μ', vs, _, g2, g3, g4⟩ := (CKYProofs.batchDP (forbidCfg p F) lengths (CFGInfinity.forbid_valid h F)).argmaxE_allowed
    (Q := fun b d => DerivAvoids F b d.1) (s := fun b d => SentCFG.dscore p b d)
    (fun b _ d => (deriv_forbid p F b d (deriv_sum p F b d)).1) (fun b _ d => (deriv_forbid p F b d (deriv_sum p F b d)).2)
    (fun b hb x d _ => (ph_le_of _ (le_plain p F h.plain)).trans_lt
      (EReal.coe_lt_coe_iff.2 (cfg_beat h hB hsmall b hb (SentCFG.ph_le (bound_plain' h hB b hb) x) d))) hp
  refine ⟨CKY.arrange p.N μ, vs, (if_neg (SentCFG.N_ne h hl)).trans (congrArg (Except.map (CKY.arrange p.N)) h1 :), g2, g3, fun b hb hne => ?_⟩
  have hb' : b < p.batch := by rw [g3] at hb; exact hb
  obtain ⟨d, h5, -, h7, h8⟩ := h4 b (by rw [h3]; exact hb') hne
  obtain ⟨d', k5, k6, k7, -⟩ := g4 b hb hne
  refine ⟨d, h5, ?_, h7, SentCFG.arrange_isParts μ b (SentCFG.len_le h b hb') d h8⟩
  rw [k6]
  exact congrArg _ (le_antisymm (h7 d' k5) (k7 d h5))

/-! ### `LinearChainCRF` -/

/-- A finite number with gradient, as an element of `MaxSemiring`. -/
def embG (g : Autograd.Grad (List ℕ)) : GradE (List ℕ) := ((g.1 : EReal), g.2)

theorem emb_grad {pick : Pick} (hp : IsArgmaxE Prod.fst pick) : InfChain.Emb (Autograd.maxE pick) Prod.fst embG Prod.fst where
  val_emb _ := rfl
  mul_emb a b := by
    simp only [embG, Autograd.maxE, Prod.fst_add, Prod.snd_add, EReal.coe_add]
  mul_val _ _ := rfl
  score_add _ _ := rfl
  sum := hp

theorem emb_val : InfChain.Emb Semirings.maxE (fun x : EReal => x) (fun r : ℝ => (r : EReal)) fun r => r where
  val_emb _ := rfl
  mul_emb a b := (EReal.coe_add a b).symm
  mul_val _ _ := rfl
  score_add _ _ := rfl
  sum := listMaxE_spec

/-- Gradients stay in their row. -/
theorem local_rel {pick : Pick} (hp : IsArgmaxE Prod.fst pick) (b : ℕ) :
    SRRel (Autograd.maxE pick) fun (a : GradE (List ℕ)) (_ : PUnit.{1}) => ∀ e : List ℕ, e.head? ≠ some b → a.2 e = 0 where
  mul := by
    intro a c _ _ ha hc e he
    change a.2 e + c.2 e = 0
    rw [ha e he, hc e he, add_zero]
  sum := by
    intro as xs hne hf
    obtain ⟨x, -, h⟩ := forall₂_left hf _ (hp as hne).1
    exact h

/-- The leaves of a row. -/
def leafRowE (p : T4 EReal) (b n : ℕ) (i j : Fin p.d2) : GradE (List ℕ) := Autograd.leafE (p.get b n i j) [b, n, i, j]

theorem local_core {pick : Pick} (hp : IsArgmaxE Prod.fst pick) (p : T4 EReal) (hC : 0 < p.d2) (N logN : ℕ) (lens : ℕ → ℕ) (b : ℕ) (e : List ℕ) (he : e.head? ≠ some b) :
    (LinearChain.core (Autograd.maxE pick) N logN lens (leafRowE p) b).2 e = 0 := by
  refine LinearChainProofs.core_rel (local_rel hp b) hC N logN lens (leafRowE p) b (fun _ _ _ => PUnit.unit) (fun n _ i j => ?_) e he
  refine (local_rel hp b).sum2 (x := PUnit.unit) (y := PUnit.unit) (fun e _ => rfl) (fun e he => ?_)
  simp only [LinearChainProofs.maskedL, Autograd.maxE]
  split_ifs
  · change (Pi.single [b, n, (i : ℕ), (j : ℕ)] (1 : ℝ) : List ℕ → ℝ) e = 0
    rw [Pi.single_eq_of_ne]
    rintro rfl
    exact he rfl
  · rfl

open LinearChain LinearChainProofs in
theorem chain_rowG {pick : Pick} (hp : IsArgmaxE Prod.fst pick) (p : T4 ℝ) (lengths : Option (List ℕ)) (h : LinearChain.Valid p lengths) (F : ℕ → ℕ → ℕ → ℕ → Prop) {B : ℝ}
    (hB : 0 ≤ B) (b : ℕ) (hin : ChainInfinity.Within p lengths F B b) (hsmall : 2 * (numEdges p lengths b : ℝ) * B < 100000)
    (hne : Nonempty (AllowedTags (numEdges p lengths b) fun n (i j : Fin p.d2) => ¬ F b n i j)) :
    ∃ y : AllowedTags (numEdges p lengths b) fun n (i j : Fin p.d2) => ¬ F b n i j,
      LinearChain.core (Autograd.maxE pick) (p.d1 + 1) (Nat.clog 2 p.d1) (lenOf (p.d1 + 1) lengths) (leafRowE (forbid4 p F)) b =
        (((seqScore (row p b) y.1 : ℝ) : EReal), LinearChain.ind b y.1) ∧
      ∀ y' : AllowedTags (numEdges p lengths b) fun n (i j : Fin p.d2) => ¬ F b n i j, seqScore (row p b) y'.1 ≤ seqScore (row p b) y.1 := by
  have hs : ∀ y : Tags (numEdges p lengths b) p.d2, ∑ n : Fin (numEdges p lengths b),
      Autograd.leaf (p.get b n (y n.succ) (y n.castSucc)) [b, (n : ℕ), (y n.succ : ℕ), (y n.castSucc : ℕ)] = (seqScore (row p b) y, LinearChain.ind b y) := by
    intro y; exact sum_pair _ _
  obtain ⟨y, h1, h2⟩ := InfChain.best_row (emb_grad hp) (z := -100000) rfl (by norm_num) h.classes (N := p.d1 + 1) (logN := Nat.clog 2 p.d1)
    (by simpa using le_two_pow_clog p.d1) (lenOf (p.d1 + 1) lengths) (leafRowE (forbid4 p F)) b (lenOf_le h.lens b)
    (D := fun n i j => ¬ F b n i j) hB (fun n (i j : Fin p.d2) => Autograd.leaf (p.get b n i j) [b, n, (i : ℕ), (j : ℕ)])
    (fun n i j => by
      by_cases h1 : n ≥ lenOf (p.d1 + 1) lengths b - 1 <;> by_cases h2 : i = j
      · exact ⟨0, by simp [maskedC, SR.fill, h1, h2, Autograd.maxE, embG], fun h => absurd h (by rintro (h | h); omega; exact h h2), fun _ _ => rfl⟩
      · exact ⟨(-100000, 0), by simp [maskedC, SR.fill, h1, h2, Autograd.maxE, embG, Semirings.negInf], fun _ => rfl, fun _ h => absurd h h2⟩
      · exact ⟨(-100000, 0), by simp [maskedC, SR.fill, h1, h2, Autograd.maxE, embG, Semirings.negInf], fun _ => rfl, fun h _ => absurd h h1⟩
      · exact ⟨(-100000, 0), by simp [maskedC, SR.fill, h1, h2, Autograd.maxE, embG, Semirings.negInf], fun _ => rfl, fun _ h => absurd h h2⟩)
    (fun n hn i j => ⟨(-100000, (if n < p.d1 + 1 - 1 then leafRowE (forbid4 p F) b n i j else (0, 0)).2), by
      simp only [maskedL, SR.fill, Autograd.maxE, embG, ge_iff_le, hn, decide_true, if_true, Semirings.negInf], rfl⟩)
    (fun n hn i j => by
      have h1 : n < p.d1 + 1 - 1 := by have := lenOf_le h.lens b; omega
      have h2 : ¬ lenOf (p.d1 + 1) lengths b - 1 ≤ n := by omega
      simp only [maskedL, SR.fill, Autograd.maxE, ge_iff_le, h1, h2, decide_false, if_true, Bool.false_eq_true, if_false])
    (fun n hn i j hD => ⟨by
      simp only [leafRowE, forbid4, embG, Autograd.leafE, Autograd.leaf]
      rw [if_neg hD], hin n hn i j hD⟩)
    (fun n hn i j hD => if_pos (not_not.1 hD)) (by rw [neg_neg]; exact hsmall) hne
  refine ⟨y, h1.trans (congrArg embG (hs y.1)), fun y' => ?_⟩
  have := h2 y'
  erw [hs, hs] at this
  exact this

open LinearChain LinearChainProofs in
theorem chain_rowV (p : T4 ℝ) (lengths : Option (List ℕ)) (h : LinearChain.Valid p lengths) (F : ℕ → ℕ → ℕ → ℕ → Prop) {B : ℝ}
    (hB : 0 ≤ B) (b : ℕ) (hin : ChainInfinity.Within p lengths F B b) (hsmall : 2 * (numEdges p lengths b : ℝ) * B < 100000)
    (hne : Nonempty (AllowedTags (numEdges p lengths b) fun n (i j : Fin p.d2) => ¬ F b n i j)) :
    ∃ y : AllowedTags (numEdges p lengths b) fun n (i j : Fin p.d2) => ¬ F b n i j,
      LinearChain.core Semirings.maxE (p.d1 + 1) (Nat.clog 2 p.d1) (lenOf (p.d1 + 1) lengths) (fun b n (i j : Fin p.d2) => (forbid4 p F).get b n i j) b =
        ((seqScore (row p b) y.1 : ℝ) : EReal) ∧
      ∀ y' : AllowedTags (numEdges p lengths b) fun n (i j : Fin p.d2) => ¬ F b n i j, seqScore (row p b) y'.1 ≤ seqScore (row p b) y.1 :=
  InfChain.best_row emb_val (z := -100000) rfl (by norm_num) h.classes (N := p.d1 + 1) (logN := Nat.clog 2 p.d1)
    (by simpa using le_two_pow_clog p.d1) (lenOf (p.d1 + 1) lengths) (fun b n (i j : Fin p.d2) => (forbid4 p F).get b n i j) b (lenOf_le h.lens b)
    (D := fun n i j => ¬ F b n i j) hB (fun n (i j : Fin p.d2) => p.get b n i j)
    (fun n i j => by
      by_cases h1 : n ≥ lenOf (p.d1 + 1) lengths b - 1 <;> by_cases h2 : i = j
      · exact ⟨0, by simp [maskedC, SR.fill, h1, h2, Semirings.maxE], fun h => absurd h (by rintro (h | h); omega; exact h h2), fun _ _ => rfl⟩
      · exact ⟨-100000, by simp [maskedC, SR.fill, h1, h2, Semirings.maxE, Semirings.negInf], fun _ => rfl, fun _ h => absurd h h2⟩
      · exact ⟨-100000, by simp [maskedC, SR.fill, h1, h2, Semirings.maxE, Semirings.negInf], fun _ => rfl, fun h _ => absurd h h1⟩
      · exact ⟨-100000, by simp [maskedC, SR.fill, h1, h2, Semirings.maxE, Semirings.negInf], fun _ => rfl, fun _ h => absurd h h2⟩)
    (fun n hn i j => ⟨-100000, by
      simp only [maskedL, SR.fill, Semirings.maxE, ge_iff_le, hn, decide_true, if_true, Semirings.negInf], rfl⟩)
    (fun n hn i j => by
      have h1 : n < p.d1 + 1 - 1 := by have := lenOf_le h.lens b; omega
      have h2 : ¬ lenOf (p.d1 + 1) lengths b - 1 ≤ n := by omega
      simp only [maskedL, SR.fill, Semirings.maxE, ge_iff_le, h1, h2, decide_false, if_true, Bool.false_eq_true, if_false])
    (fun n hn i j hD => ⟨if_neg hD, hin n hn i j hD⟩)
    (fun n hn i j hD => if_pos (not_not.1 hD)) (by rw [neg_neg]; exact hsmall) hne

/-- **C119, `LinearChainCRF`.** -/
theorem chain_spec (p : T4 ℝ) (lengths : Option (List ℕ)) (h : LinearChain.Valid p lengths) (F : ℕ → ℕ → ℕ → ℕ → Prop) {B : ℝ} (hB : 0 ≤ B)
    (hin : ∀ b < p.d0, ChainInfinity.Within p lengths F B b) (hsmall : 2 * p.d1 * B < 100000) {pick : Pick} (hp : IsArgmaxE Prod.fst pick) :
    ∃ μ vs, Dist.argmaxE LinearChain.algo (forbid4 p F) lengths pick = .ok μ ∧ Dist.maxE LinearChain.algo (forbid4 p F) lengths = .ok vs ∧ vs.length = p.d0 ∧
      ∀ b (hb : b < vs.length), (∃ y : Tags (LinearChain.numEdges p lengths b) p.d2, TagsAvoid (F b) y) →
        ∃ y : Tags (LinearChain.numEdges p lengths b) p.d2, TagsAvoid (F b) y ∧ vs[b] = (seqScore (LinearChain.row p b) y : ℝ) ∧
          (∀ y' : Tags (LinearChain.numEdges p lengths b) p.d2, TagsAvoid (F b) y' → seqScore (LinearChain.row p b) y' ≤ seqScore (LinearChain.row p b) y) ∧
          ∀ n < p.d1, ∀ i j : Fin p.d2, μ [b, n, i, j] = if UsesEdge y n i j then 1 else 0 := by
  have hokm := LinearChainProofs.logpartition_ok Semirings.maxE (forbid4 p F) lengths h.square h.edges h.lens
  have hok := LinearChainProofs.logpartition_ok (Autograd.maxE pick)
    (LinearChain.algo.map (fun q : EReal × List ℕ => Autograd.leafE q.1 q.2) (LinearChain.algo.index (forbid4 p F))) lengths h.square h.edges h.lens
  refine ⟨_, _, (congrArg (Except.map fun vs : List (GradE (List ℕ)) => ((vs.map Prod.snd).sum : List ℕ → ℝ)) hok :), hokm, by simp; rfl, ?_⟩
  intro b hb hex
  have hb' : b < p.d0 := by simp only [List.length_map, List.length_range] at hb; exact hb
  have hle : LinearChain.numEdges p lengths b ≤ p.d1 := by
    have := LinearChainProofs.lenOf_le h.lens b
    simp only [LinearChain.numEdges]; omega
  have hsm : 2 * (LinearChain.numEdges p lengths b : ℝ) * B < 100000 := by
    refine lt_of_le_of_lt ?_ hsmall
    have : (LinearChain.numEdges p lengths b : ℝ) ≤ p.d1 := by exact_mod_cast hle
    exact mul_le_mul_of_nonneg_right (by linarith) hB
  have hne : Nonempty (AllowedTags (LinearChain.numEdges p lengths b) fun n (i j : Fin p.d2) => ¬ F b n i j) := by
    obtain ⟨y, hy⟩ := hex
    exact ⟨y, (tagsAvoid_iff _ _).1 hy⟩
  obtain ⟨y, hy, hbest⟩ := chain_rowG hp p lengths h F hB b (hin b hb') hsm hne
  obtain ⟨ym, hym, hbestm⟩ := chain_rowV p lengths h F hB b (hin b hb') hsm hne
  refine ⟨y.1, (tagsAvoid_iff _ _).2 y.2, ?_, fun y' hy' => hbest ⟨y', (tagsAvoid_iff _ _).1 hy'⟩, ?_⟩
  · simp only [List.getElem_map, List.getElem_range]
    refine hym.trans ?_
    rw [le_antisymm (hbest ym) (hbestm y)]
  · intro n hn i j
    refine (gradE_head p.d0 _ b hb' _ ?_).trans ?_
    · intro b' _ hne'
      exact local_core hp (forbid4 p F) h.classes _ _ _ b' _ (by simp [hne'.symm])
    · exact (congrFun (congrArg Prod.snd hy) _).trans (LinearChain.ind_apply b y.1 n i j)

/-! ### The hypotheses are met -/

/-- There is a tie-breaking rule. -/
theorem exists_pick : ∃ pick : Pick, IsArgmaxE Prod.fst pick := by
  classical
  have : ∀ xs : List (GradE (List ℕ)), ∃ x, xs ≠ [] → x ∈ xs ∧ ∀ y ∈ xs, y.1 ≤ x.1 := by
    intro xs
    by_cases hx : xs = []
    · exact ⟨(0, 0), fun h => absurd hx h⟩
    · obtain ⟨x, h1, h2⟩ := xs.toFinset.exists_max_image Prod.fst (by rwa [List.toFinset_nonempty_iff])
      exact ⟨x, fun _ => ⟨List.mem_toFinset.1 h1, fun y hy => h2 y (List.mem_toFinset.2 hy)⟩⟩
  choose f hf using this
  exact ⟨f, hf⟩

/-- With every span forbidden, `max` is `-inf`, and `argmax` still returns a tree. -/
example {pick : Pick} (hp : IsArgmaxE Prod.fst pick) : ∃ μ vs, Dist.argmaxE CKYCRF.algo (forbid4 TreeCRF.sample fun _ _ _ _ => True) (some [3, 2]) pick = .ok μ ∧
    Dist.maxE CKYCRF.algo (forbid4 TreeCRF.sample fun _ _ _ _ => True) (some [3, 2]) = .ok vs ∧ vs[0]? = some ⊥ ∧
    ∃ t : Trees TreeCRF.sample.d3 3, ∀ i j (a : Fin TreeCRF.sample.d3), μ [0, i, j, (a : ℕ)] = if (i, j, a) ∈ t.1.spans 0 then 1 else 0 := by
  obtain ⟨μ, vs, h1, h2, h3, h4⟩ := tree_spec TreeCRF.sample _ TreeCRF.sample_valid (fun _ _ _ _ => True) hp
  have hl : 0 < vs.length := by rw [h3]; decide
  obtain ⟨t, h5, -, h6, -⟩ := h4 0 hl
  refine ⟨μ, vs, h1, h2, ?_, t, h5⟩
  rw [List.getElem?_eq_getElem hl, h6]
  intro hc
  obtain ⟨t, ht⟩ := t
  cases t with
  | leaf a => exact hc 0 0 a (by simp [LTree.spans]) trivial
  | node a l r => exact hc 0 (l.size + r.size - 1) a (by simp [LTree.spans, LTree.size]) trivial

/-- With the arc from the first to the second word forbidden, whose marginals are NaN (C117), `max` is a real number. -/
example : ∃ vs : List EReal, DepTree.maxE true (forbidArc Dependency.sample fun _ i j _ => i = 0 ∧ j = 1) (some [3, 2]) = .ok vs ∧ ∃ v : ℝ, vs[1]? = some (v : EReal) := by
  obtain ⟨pick, hp⟩ := exists_pick
  obtain ⟨μ, vs, -, h2, h3, h4⟩ := dependency_spec true Dependency.sample _ (Dependency.sample_valid true) (fun _ i j _ => i = 0 ∧ j = 1) hp
  have hl : 1 < vs.length := by rw [h3]; decide
  obtain ⟨t, -, h5, -, h6⟩ := h4 1 hl
  obtain ⟨t', ht'⟩ : ∃ t' : ProjTrees true (Dependency.len Dependency.sample (some [3, 2]) 1), DepAvoids (fun i j _ => i = 0 ∧ j = 1) t' := by
    have hD : ∀ y, Dominates (fun _ => 0 : Heads 2) 0 y := fun y => ⟨1, by simp [headOf]⟩
    refine ⟨⟨fun _ => 0, fun k => hD _, fun k y _ => hD y, by simp⟩, (depAvoids_iff _ _).2 fun k => ?_⟩
    simp only [arcCell]
    rintro ⟨h7, h8⟩
    simp only [Fin.coe_ofNat_eq_mod, Nat.zero_mod, if_true] at h7 h8
    omega
  exact ⟨vs, h2, _, by rw [List.getElem?_eq_getElem hl, h5 (h6 t' ht').1]⟩

/-- With the transition from tag 0 to tag 1 forbidden, `argmax` never uses it. -/
example {pick : Pick} (hp : IsArgmaxE Prod.fst pick) : ∃ μ, Dist.argmaxE LinearChain.algo (forbid4 LinearChain.sample ChainInfinity.banned) (some [3, 2]) pick = .ok μ ∧
    μ [0, 0, 1, 0] = 0 := by
  obtain ⟨μ, vs, h1, -, h3, h4⟩ := chain_spec LinearChain.sample _ LinearChain.sample_valid ChainInfinity.banned (B := 4) (by norm_num)
    (fun b hb => ChainInfinity.banned_within b hb) (by norm_num [LinearChain.sample]) hp
  obtain ⟨y, h5, -, -, h6⟩ := h4 0 (by rw [h3]; decide) (ChainInfinity.banned_ok 0)
  refine ⟨μ, h1, (h6 0 (by decide) ⟨1, by decide⟩ ⟨0, by decide⟩).trans (if_neg fun hc => h5 0 _ _ hc ⟨rfl, rfl⟩)⟩

/-- With the segments of length 2 out of label 1 forbidden, `max` is the score of an allowed segmentation. -/
example : ∃ vs : List EReal, Dist.maxE SemiMarkov.algo (forbid5 SemiMarkov.sample SemiInfinity.banned) (some [4, 3]) = .ok vs ∧ ∃ v : ℝ, vs[1]? = some (v : EReal) := by
  obtain ⟨pick, hp⟩ := exists_pick
  obtain ⟨μ, vs, -, h2, h3, h4⟩ := semi_spec SemiMarkov.sample _ SemiMarkov.sample_valid SemiMarkov.sample_bounded.1 (by norm_num [SemiMarkov.sample]) SemiInfinity.banned hp
  have hl : 1 < vs.length := by rw [h3]; decide
  obtain ⟨y, -, h5, -⟩ := h4 1 hl (SemiInfinity.banned_ok 1)
  exact ⟨vs, h2, _, by rw [List.getElem?_eq_getElem hl, h5]⟩

/-- With the rules of nonterminal 0 with two nonterminal children forbidden, every marginal is NaN (C118), but `max` is the score of the best derivation. -/
example : ∃ vs : List EReal, Dist.maxE CKY.algo (forbidCfg SentCFG.sample CFGInfinity.noBoth) (some [3, 2]) = .ok vs ∧ ∃ v : ℝ, vs[0]? = some (v : EReal) := by
  obtain ⟨pick, hp⟩ := exists_pick
  obtain ⟨μ, vs, -, h2, h3, h4⟩ := grammar_spec SentCFG.sample _ SentCFG.sample_valid SentCFG.sample_long SentCFG.sample_bounded.1 (by norm_num [SentCFG.sample]) CFGInfinity.noBoth hp
  have hl : 0 < vs.length := by rw [h3]; decide
  have hex : ∃ d : SentCFG.Der SentCFG.sample (some [3, 2]) 0, DerivAvoids CFGInfinity.noBoth 0 d.1 := by
    refine ⟨⟨.node ⟨0, by decide⟩ (.node ⟨0, by decide⟩ (.leaf ⟨0, by decide⟩) (.leaf ⟨0, by decide⟩)) (.leaf ⟨0, by decide⟩), rfl, by decide⟩, not_false, ?_, fun _ _ => not_false⟩
    intro x hx
    simp only [Deriv.rules, Deriv.sym, List.append_nil, List.mem_cons, List.not_mem_nil, or_false] at hx
    rcases hx with rfl | rfl <;> rintro ⟨-, -, h⟩ <;> exact absurd h (by decide)
  obtain ⟨d, -, h5, -⟩ := h4 0 hl hex
  exact ⟨vs, h2, _, by rw [List.getElem?_eq_getElem hl, h5]⟩

end Props.InfArgmax
