import Verif.Proofs.InfTopkChain
import Verif.Props.InfArgmax

/-! C122: `kmax` and `topk` with potentials `-inf`.

Forbidden parts have potential `-inf`, the others are small against the stand-in `-1e5`.  The slots of `kmax(k)` hold the scores of the best structures without forbidden parts,
as many as there are, and the slots of `topk(k)` their indicators.  If fewer than `k` structures are allowed, the slots left over hold numbers close to `-1e5` or below (the
stand-in), not NaN and not the scores of forbidden structures. -/

open Finset Spec Generic
open Autograd (GradE IsTopkE)
open Props.Conditional (TagsAvoid tagsAvoid_iff forbid4 forbidArc TreeAvoids DepAvoids LabAvoids SegAvoids DerivAvoids Banned depAvoids_iff labAvoids_iff)
open Props.SemiInfinity (forbid5)
open Props.CFGInfinity (forbidCfg)
open Props.InfArgmax (markedE)

noncomputable section
namespace Props.InfTopk

/-- A way for `torch.topk` to break ties. -/
abbrev Sel := List (GradE (List ℕ)) → List (GradE (List ℕ))

theorem slots_congr {ι : Type} [Fintype ι] {f g : ι → ℝ} {k : ℕ} {low : ℝ} {v : List EReal} {ys : List ι} (h : ∀ y, f y = g y) (hs : Slots f k low v ys) : Slots g k low v ys := by
  rwa [← funext h]

/-! ### `TreeCRF` -/

/-- The forbidden entries of a tensor with four dimensions. -/
def entry4 (F : ℕ → ℕ → ℕ → ℕ → Prop) (e : List ℕ) : Prop := F (e.getD 0 0) (e.getD 1 0) (e.getD 2 0) (e.getD 3 0)

theorem treeAvoids_parts (F : ℕ → ℕ → ℕ → ℕ → Prop) (b : ℕ) {NT n : ℕ} (t : Trees NT n) :
    TreeAvoids (F b) t ↔ ∀ e ∈ CKYCRFProofs.treeParts b t, ¬ entry4 F e := by
  constructor
  · intro h e he
    obtain ⟨x, hx, rfl⟩ := List.mem_map.1 (Multiset.mem_coe.1 he)
    exact h _ _ _ hx
  · intro h i j a hm
    exact h _ (Multiset.mem_coe.2 (List.mem_map.2 ⟨_, hm, rfl⟩))

open Classical in
/-- **C122, `TreeCRF`.** -/
theorem tree_spec (p : T4 ℝ) (lengths : Option (List ℕ)) (h : TreeCRF.Valid p lengths) {M : ℝ} (hM : TreeCRF.SmallPotentials p lengths M) (F : ℕ → ℕ → ℕ → ℕ → Prop) {k : ℕ} (hk : 0 < k)
    {sel : Sel} (hsel : IsTopkE Prod.fst k sel) :
    ∃ (vs : List (List EReal)) (μ : ℕ → List ℕ → ℝ), Dist.kmaxE CKYCRF.algo (forbid4 p F) lengths k = .ok vs ∧ vs.length = p.d0 ∧ (∀ s < k, Dist.topkE CKYCRF.algo (forbid4 p F) lengths k sel s = .ok (μ s)) ∧
      ∀ b (hb : b < vs.length), ∃ ts : List {t : Trees p.d3 (TreeCRF.len p lengths b) // TreeAvoids (F b) t},
        Slots (fun t => treeScore (TreeCRF.row p b) t.1) k (-100000 + (2 * p.d1 - 1 : ℕ) * M) vs[b] ts ∧
        ∀ s (hs : s < ts.length), ∀ i j (a : Fin p.d3), μ s [b, i, j, (a : ℕ)] = if (i, j, a) ∈ ts[s].1.1.spans 0 then 1 else 0 := by
  obtain ⟨vs, μ, h1, h2, h3, h4⟩ := (CKYCRFProofs.batchDP (forbid4 p F) lengths ⟨h.square, h.words, h.labels, h.lens⟩).topkE_eq (F := entry4 F) (r := CKYCRFProofs.at4 p)
    (fun e he => if_neg he) (fun e he => if_pos he) (Q := fun b t => TreeAvoids (F b) t) (fun b t => treeAvoids_parts F b t) (fun b hb => TreeCRF.small h hM b hb) hk hsel
  refine ⟨vs, μ, h1, h2, h3, fun b hb => ?_⟩
  obtain ⟨ts, h5, h6⟩ := h4 b hb
  refine ⟨ts, ?_, fun s hs i j a => ?_⟩
  · have := TreeCRF.realScore_eq p b (NT := p.d3) (L := TreeCRF.len p lengths b)
    exact slots_congr (fun y => congrFun this y.1) h5
  · refine (h6 s hs _ rfl).trans ?_
    have := TreeCRF.count_parts (L := TreeCRF.len p lengths b) b ts[s].1 i j a
    refine (congrArg (Nat.cast (R := ℝ)) this).trans ?_
    push_cast; rfl

/-! ### `DependencyCRF` -/

/-- The forbidden entries of the tensor of arcs; the empty index stands for the entries that `_convert` fills. -/
def entryQ (F : ℕ → ℕ → ℕ → ℕ → Prop) (e : List ℕ) : Prop := e ≠ [] ∧ F (e.getD 0 0) (e.getD 1 0) (e.getD 2 0) (e.getD 3 0)

theorem atQ_ok (neg : ℝ) (q : DepTree.Arcs ℝ) (F : ℕ → ℕ → ℕ → ℕ → Prop) (e : List ℕ) (he : ¬ entryQ F e) :
    DepTreeProofs.atQ ((neg : ℝ) : EReal) (forbidArc q F) e = (DepTreeProofs.atQ neg q e : ℝ) := by
  unfold DepTreeProofs.atQ
  by_cases h : e = []
  · rw [if_pos h, if_pos h]
  · rw [if_neg h, if_neg h]
    exact if_neg fun hc => he ⟨h, hc⟩

theorem atQ_bot (neg : EReal) (q : DepTree.Arcs ℝ) (F : ℕ → ℕ → ℕ → ℕ → Prop) (e : List ℕ) (he : entryQ F e) : DepTreeProofs.atQ neg (forbidArc q F) e = ⊥ := by
  unfold DepTreeProofs.atQ
  rw [if_neg he.1]
  exact if_pos he.2

theorem depAvoids_parts (F : ℕ → ℕ → ℕ → ℕ → Prop) (b : ℕ) {mr : Bool} {n : ℕ} (t : ProjTrees mr n) :
    DepAvoids (F b) t ↔ ∀ e ∈ DepTreeProofs.depParts b t, ¬ entryQ F e := by
  rw [depAvoids_iff, DepTreeProofs.depParts]
  constructor
  · intro h e he
    obtain ⟨k, -, rfl⟩ := Multiset.mem_map.1 he
    rintro ⟨-, hc⟩
    exact h k hc
  · intro h k hc
    exact h _ (Multiset.mem_map.2 ⟨k, Finset.mem_univ k, rfl⟩) ⟨by simp, hc⟩

open Classical in
/-- **C122, `DependencyCRF` without labels.** -/
theorem dependency_spec (mr : Bool) (q : DepTree.Arcs ℝ) (lengths : Option (List ℕ)) (h : Dependency.Valid mr q lengths) {M : ℝ} (hM : Dependency.SmallPotentials q lengths M)
    (F : ℕ → ℕ → ℕ → ℕ → Prop) {k : ℕ} (hk : 0 < k) {sel : Sel} (hsel : IsTopkE Prod.fst k sel) :
    ∃ (vs : List (List EReal)) (μ : ℕ → List ℕ → ℝ), DepTree.kmaxE mr (forbidArc q F) lengths k = .ok vs ∧ vs.length = q.d0 ∧ (∀ s < k, DepTree.topkE mr (forbidArc q F) lengths k sel s = .ok (μ s)) ∧
      ∀ b (hb : b < vs.length), ∃ ts : List {t : ProjTrees mr (Dependency.len q lengths b) // DepAvoids (F b) t},
        Slots (fun t => depScore (Dependency.row q b) t.1.1) k (-100000 + (q.d1 + 1 : ℕ) * M) vs[b] ts ∧
        ∀ s (hs : s < ts.length), ∀ i j, μ s [b, i, j] = if HasArc ts[s].1.1 i j then 1 else 0 := by
  have h' : Dependency.Valid mr (forbidArc q F) lengths := by
    obtain ⟨a1, a2, a3, a4, a5⟩ := h
    exact ⟨a1, a2, a3, a4, a5⟩
  simp only [DepTree.kmaxE, DepTree.topkE, Dependency.conv_eq _ h']
  obtain ⟨vs, μ, h1, h2, h3, h4⟩ := (DepTreeProofs.batchDP3 mr ((DepTree.negBig : ℝ) : EReal) (forbidArc q F) lengths h'.toValid h'.rank).topkE_eq
    (F := entryQ F) (r := DepTreeProofs.atQ DepTree.negBig q) (atQ_ok _ q F) (atQ_bot _ q F) (Q := fun b t => DepAvoids (F b) t) (fun b t => depAvoids_parts F b t)
    (fun b hb => Dependency.small h hM b hb) hk hsel
  refine ⟨vs, μ, h1, h2, h3, fun b hb => ?_⟩
  obtain ⟨ts, h5, h6⟩ := h4 b hb
  refine ⟨ts, ?_, fun s hs i j => ?_⟩
  · have := Dependency.realScore_eq DepTree.negBig q b (mr := mr) (n := Dependency.len q lengths b)
    exact slots_congr (fun y => congrFun this y.1) h5
  · rw [h6 s hs _ rfl]
    have := Dependency.count_parts b ts[s].1 i j
    refine (congrArg (Nat.cast (R := ℝ)) this).trans ?_
    push_cast; rfl

theorem labAvoids_parts (F : ℕ → ℕ → ℕ → ℕ → Prop) (b : ℕ) {mr : Bool} {n L : ℕ} (t : LabelledTrees mr n L) :
    LabAvoids (F b) t ↔ ∀ e ∈ DepTreeProofs.labParts true b t, ¬ entryQ F e := by
  rw [labAvoids_iff, DepTreeProofs.labParts]
  constructor
  · intro h e he
    obtain ⟨k, -, rfl⟩ := Multiset.mem_map.1 he
    rintro ⟨-, hc⟩
    exact h k hc
  · intro h k hc
    exact h _ (Multiset.mem_map.2 ⟨k, Finset.mem_univ k, rfl⟩) ⟨by simp [DepTreeProofs.cellTag], hc⟩

open Classical in
/-- **C122, `DependencyCRF` with labels.** -/
theorem labelled_spec (mr : Bool) (q : DepTree.Arcs ℝ) (lengths : Option (List ℕ)) (h : LabelledDependency.Valid mr q lengths) {M : ℝ}
    (hM : LabelledDependency.SmallPotentials q lengths M) (F : ℕ → ℕ → ℕ → ℕ → Prop) {k : ℕ} (hk : 0 < k) {sel : Sel} (hsel : IsTopkE Prod.fst k sel) :
    ∃ (vs : List (List EReal)) (μ : ℕ → List ℕ → ℝ), DepTree.kmaxE mr (forbidArc q F) lengths k = .ok vs ∧ vs.length = q.d0 ∧ (∀ s < k, DepTree.topkE mr (forbidArc q F) lengths k sel s = .ok (μ s)) ∧
      ∀ b (hb : b < vs.length), ∃ ts : List {t : LabelledTrees mr (LabelledDependency.len q lengths b) q.d3 // LabAvoids (F b) t},
        Slots (fun t => labScore (LabelledDependency.row q b) t.1) k (-100000 + (q.d1 + 1 : ℕ) * M) vs[b] ts ∧
        ∀ s (hs : s < ts.length), ∀ i j l, μ s [b, i, j, l] = if HasLabArc ts[s].1 i j l then 1 else 0 := by
  have h' : LabelledDependency.Valid mr (forbidArc q F) lengths := by
    obtain ⟨a1, a2, a3, a4, a5, a6⟩ := h
    exact ⟨a1, a2, a3, a4, a5, a6⟩
  simp only [DepTree.kmaxE, DepTree.topkE, LabelledDependency.conv_eq _ h']
  obtain ⟨vs, μ, h1, h2, h3, h4⟩ := (DepTreeProofs.batchDP4 mr ((DepTree.negBig : ℝ) : EReal) (forbidArc q F) lengths h'.toValid h'.rank).topkE_eq
    (F := entryQ F) (r := DepTreeProofs.atQ DepTree.negBig q) (atQ_ok _ q F) (atQ_bot _ q F) (Q := fun b t => LabAvoids (F b) t) (fun b t => labAvoids_parts F b t)
    (fun b hb => LabelledDependency.small h hM b hb) hk hsel
  refine ⟨vs, μ, h1, h2, h3, fun b hb => ?_⟩
  obtain ⟨ts, h5, h6⟩ := h4 b hb
  refine ⟨ts, ?_, fun s hs i j l => ?_⟩
  · have := LabelledDependency.realScore_eq DepTree.negBig q b (mr := mr) (n := LabelledDependency.len q lengths b) (L := q.d3) h.rank
    exact slots_congr (fun y => congrFun this y.1) h5
  · rw [h6 s hs _ rfl]
    have := LabelledDependency.count_parts b ts[s].1 i j l
    refine (congrArg (Nat.cast (R := ℝ)) this).trans ?_
    push_cast; rfl

/-! ### `SemiMarkovCRF` -/

/-- The forbidden entries of a tensor with five dimensions. -/
def entry5 (F : ℕ → ℕ → ℕ → ℕ → ℕ → Prop) (e : List ℕ) : Prop := F (e.getD 0 0) (e.getD 1 0) (e.getD 2 0) (e.getD 3 0) (e.getD 4 0)

theorem segAvoids_parts (F : ℕ → ℕ → ℕ → ℕ → ℕ → Prop) (b : ℕ) {K C L : ℕ} (y : Segmentation K C L) :
    SegAvoids (F b) y ↔ ∀ e ∈ SemiMarkovProofs.segParts b y, ¬ entry5 F e := by
  constructor
  · intro h e he
    obtain ⟨x, hx, rfl⟩ := List.mem_map.1 (Multiset.mem_coe.1 he)
    exact h _ hx
  · intro h x hm
    exact h _ (Multiset.mem_coe.2 (List.mem_map.2 ⟨_, hm, rfl⟩))

open Classical in
/-- **C122, `SemiMarkovCRF`.** -/
theorem semi_spec (p : T5 ℝ) (lengths : Option (List ℕ)) (h : SemiMarkov.Valid p lengths) {B : ℝ} (hB : SemiMarkov.Bounded p lengths B) (hsmall : 2 * p.d1 * B < 100000)
    (F : ℕ → ℕ → ℕ → ℕ → ℕ → Prop) {k : ℕ} (hk : 0 < k) {sel : Sel} (hsel : IsTopkE Prod.fst k sel) :
    ∃ (vs : List (List EReal)) (μ : ℕ → List ℕ → ℝ), Dist.kmaxE SemiMarkov.algo (forbid5 p F) lengths k = .ok vs ∧ vs.length = p.d0 ∧ (∀ s < k, Dist.topkE SemiMarkov.algo (forbid5 p F) lengths k sel s = .ok (μ s)) ∧
      ∀ b (hb : b < vs.length), ∃ ys : List {y : SemiMarkov.Seg p lengths b // SegAvoids (F b) y},
        Slots (fun y => segScore (SemiMarkov.row p b) y.1) k (-100000 + p.d1 * B) vs[b] ys ∧
        ∀ s (hs : s < ys.length), ∀ n l (c c' : Fin p.d3), μ s [b, n, l, (c : ℕ), (c' : ℕ)] = if (n, l, c, c') ∈ segEdges 0 ys[s].1.1 ys[s].1.2.1 then 1 else 0 := by
  have h' : SemiMarkovProofs.Valid (forbid5 p F) lengths := by
    obtain ⟨a1, a2, a3, a4, a5, a6⟩ := h
    exact ⟨a1, a2, a3, a4, a5, a6⟩
  obtain ⟨vs, μ, h1, h2, h3, h4⟩ := (SemiMarkovProofs.batchDP (forbid5 p F) lengths h' (InfArgmax.hK' h)).topkE_eq (F := entry5 F) (r := SemiMarkovProofs.at5 p)
    (fun e he => if_neg he) (fun e he => if_pos he) (Q := fun b t => SegAvoids (F b) t) (fun b t => segAvoids_parts F b t) (fun b hb => SemiMarkov.small h hB hsmall b hb) hk hsel
  refine ⟨vs, μ, h1, h2, h3, fun b hb => ?_⟩
  obtain ⟨ts, h5, h6⟩ := h4 b hb
  refine ⟨ts, ?_, fun s hs n l c c' => ?_⟩
  · have := SemiMarkov.realScore_eq p b (K := p.d2) (C := p.d3) (L := SemiMarkov.steps p lengths b)
    exact slots_congr (fun y => congrFun this y.1) h5
  · rw [h6 s hs _ rfl]
    have := SemiMarkov.count_parts b ts[s].1 n l c c'
    refine (congrArg (Nat.cast (R := ℝ)) this).trans ?_
    push_cast; rfl

/-! ### `SentCFG` -/

/-- The forbidden entries of the three tensors of a grammar, with or without the leaves for `span[1:]`, which are never forbidden. -/
def entryS (m : Bool) (F : Banned) : List ℕ → Prop
  | [b, 0, n, t] => F.term b n t
  | [b, 1, x, y, z] => F.rule b x y z
  | [b, 3, _, _, x] => m = false ∧ F.root b x
  | [b, _, x] => F.root b x
  | _ => F.root 0 0

theorem plain_ok (p : CKY.Scores ℝ) (F : Banned) (h : p.mark = none) (e : List ℕ) :
    (¬ entryS false F e → CKYProofs.atS (forbidCfg p F) e = (CKYProofs.atS p e : ℝ)) ∧ (entryS false F e → CKYProofs.atS (forbidCfg p F) e = ⊥) := by
  unfold CKYProofs.atS entryS
  split <;> simp only [forbidCfg, h, Option.map_none, Option.getD_none, true_and] <;> exact ⟨fun h => if_neg h, fun h => if_pos h⟩

theorem marked_ok (p : CKY.Scores ℝ) (F : Banned) (e : List ℕ) :
    (¬ entryS true F e → CKYProofs.atS (markedE p F) e = (CKYProofs.atS (CKY.marked p) e : ℝ)) ∧ (entryS true F e → CKYProofs.atS (markedE p F) e = ⊥) := by
  unfold CKYProofs.atS entryS
  split <;> simp only [markedE, CKY.marked, forbidCfg, Option.map_some, Option.getD_some] <;>
    first | exact ⟨fun _ => rfl, fun h => absurd h.1 (by simp)⟩ | exact ⟨fun h => if_neg h, fun h => if_pos h⟩

theorem derivAvoids_parts (m : Bool) (F : Banned) (b : ℕ) {NT T L : ℕ} (d : Derivs NT T L) :
    DerivAvoids F b d.1 ↔ ∀ e ∈ CKYProofs.derivParts m b d, ¬ entryS m F e := by
  constructor
  · rintro ⟨h1, h2, h3⟩ e he
    rw [CKYProofs.derivParts, Multiset.mem_add, Multiset.mem_add, Multiset.mem_add, Multiset.mem_singleton] at he
    rcases he with rfl | (he | he) | he
    · exact h1
    · obtain ⟨x, hx, rfl⟩ := List.mem_map.1 (Multiset.mem_coe.1 he)
      exact h2 x hx
    · obtain ⟨x, hx, rfl⟩ := List.mem_map.1 (Multiset.mem_coe.1 he)
      exact h3 x hx
    · cases m with
      | false => simp at he
      | true =>
        obtain ⟨x, hx, rfl⟩ := List.mem_map.1 (Multiset.mem_coe.1 he)
        rintro ⟨h, -⟩
        exact absurd h (by simp)
  · intro h
    unfold CKYProofs.derivParts at h
    refine ⟨h [b, 2, d.1.sym] (Multiset.mem_add.2 (Or.inl (by simp))), fun x hx => h [b, 1, x.1, x.2.1, x.2.2] ?_, fun x hx => h [b, 0, x.1, x.2] ?_⟩
    · exact Multiset.mem_add.2 (Or.inr (Multiset.mem_add.2 (Or.inl (Multiset.mem_add.2 (Or.inl (Multiset.mem_coe.2 (List.mem_map.2 ⟨x, hx, rfl⟩)))))))
    · exact Multiset.mem_add.2 (Or.inr (Multiset.mem_add.2 (Or.inl (Multiset.mem_add.2 (Or.inr (Multiset.mem_coe.2 (List.mem_map.2 ⟨x, hx, rfl⟩)))))))

/-- `torch.topk` can break ties somehow. -/
theorem exists_sel (k : ℕ) : ∃ sel : Sel, IsTopkE Prod.fst k sel := by
  classical
  refine ⟨fun xs => (xs.insertionSort (fun a b => b.1 ≤ a.1)).take k, fun xs hx => ?_⟩
  have hs : (xs.insertionSort (fun a b : GradE (List ℕ) => b.1 ≤ a.1)).Pairwise (fun a b => b.1 ≤ a.1) := by
    have : Std.Total (fun a b : GradE (List ℕ) => b.1 ≤ a.1) := ⟨fun a b => le_total _ _⟩
    have : IsTrans (GradE (List ℕ)) (fun a b => b.1 ≤ a.1) := ⟨fun a b c h1 h2 => h2.trans h1⟩
    exact List.pairwise_insertionSort _ _
  refine ⟨((xs.insertionSort (fun a b => b.1 ≤ a.1)).drop k : List _), ?_, ?_, ?_, ?_⟩
  · rw [Multiset.coe_add, List.take_append_drop]
    exact Multiset.coe_eq_coe.2 (List.perm_insertionSort _ _).symm
  · rw [List.length_take, List.length_insertionSort]; omega
  · exact hs.sublist (List.take_sublist _ _)
  · intro a ha b hb
    rw [← List.take_append_drop k (xs.insertionSort _), List.pairwise_append] at hs
    exact hs.2.2 a ha b (Multiset.mem_coe.1 hb)

open Classical in
/-- **C122, `SentCFG.kmax`.** -/
theorem grammar_kmax (p : CKY.Scores ℝ) (lengths : Option (List ℕ)) (h : SentCFG.Valid p lengths) {B : ℝ} (hB : SentCFG.Bounded p lengths B) (hsmall : 4 * p.N * B < 100000)
    (F : Banned) {k : ℕ} (hk : 0 < k) :
    ∃ vs : List (List EReal), Dist.kmaxE CKY.algo (forbidCfg p F) lengths k = .ok vs ∧ vs.length = p.batch ∧
      ∀ b (hb : b < vs.length), ∃ ds : List {d : SentCFG.Der p lengths b // DerivAvoids F b d.1},
        Slots (fun d => SentCFG.dscore p b d.1) k (-100000 + (2 * p.N : ℕ) * B) vs[b] ds := by
  obtain ⟨sel, hsel⟩ := exists_sel k
  have hsm : ∀ b < p.batch, BatchDP.Small (CKYProofs.atS p) (CKYProofs.Entry p.N p.NT p.T false lengths b) (CKYProofs.derivParts false b : SentCFG.Der p lengths b → _)
      (CKYProofs.phAtoms false b : CKYProofs.Ph p.NT p.T (SentCFG.len p lengths b) → _) (2 * p.N) B := by
    intro b hb
    have := SentCFG.small_plain h hB hsmall b hb
    rwa [h.plain] at this
  obtain ⟨vs, μ, h1, h2, -, h4⟩ := (CKYProofs.batchDP (forbidCfg p F) lengths (CFGInfinity.forbid_valid h F)).topkE_eq (F := entryS false F) (r := CKYProofs.atS p)
    (fun e => (plain_ok p F h.plain e).1) (fun e => (plain_ok p F h.plain e).2) (Q := fun b d => DerivAvoids F b d.1) (fun b d => derivAvoids_parts false F b d) hsm hk hsel
  refine ⟨vs, h1, h2, fun b hb => ?_⟩
  obtain ⟨ds, h5, -⟩ := h4 b hb
  have := SentCFG.realScore_plain p b (L := SentCFG.len p lengths b)
  exact ⟨ds, slots_congr (fun y => congrFun this y.1) h5⟩

theorem topkPartsE_of (p : CKY.Scores EReal) (lengths : Option (List ℕ)) {k : ℕ} {sel : Sel} {g : ℕ → List ℕ → ℝ} (hN : p.N ≠ 1) (hk : 0 < k)
    (h3 : ∀ s < k, Dist.topkE CKY.algo { p with mark := some fun _ _ _ _ => 0 } lengths k sel s = .ok (g s)) :
    CKY.topkPartsE p lengths k sel = .ok (CKY.arrange p.N fun e => ((List.range k).map fun s => g s e).sum) := by
  have h5 := h3 0 hk
  rw [CKY.topkPartsE, if_neg hN]
  unfold Dist.topkE at h3 h5
  revert h3 h5
  generalize CKY.algo.run (Autograd.kmaxE k sel) _ lengths = R
  cases R with
  | error e => intro _ h5; exact absurd h5 (by simp [Except.map])
  | ok rows =>
    intro h3 _
    refine congrArg Except.ok (congrArg (CKY.arrange p.N) (funext fun e => ?_))
    refine congrArg List.sum (List.map_congr_left fun s hs => ?_)
    exact congrFun (Except.ok.inj (h3 s (List.mem_range.1 hs))) e

open Classical in
theorem grammar_rows (p : CKY.Scores ℝ) (lengths : Option (List ℕ)) (h : SentCFG.Valid p lengths) {B : ℝ} (hB : SentCFG.Bounded p lengths B)
    (hsmall : 6 * p.N * B < 100000) (F : Banned) {k : ℕ} (hk : 0 < k) {sel : Sel} (hsel : IsTopkE Prod.fst k sel) :
    ∃ g : ℕ → List ℕ → ℝ, (∀ s < k, Dist.topkE CKY.algo (markedE p F) lengths k sel s = .ok (g s)) ∧
      ∀ b < p.batch, ∃ (v : List EReal) (ds : List {d : SentCFG.Der p lengths b // DerivAvoids F b d.1}),
        Slots (fun d => SentCFG.dscore p b d.1) k (-100000 + (3 * p.N : ℕ) * B) v ds ∧
        ∀ s (hs : s < ds.length), ∀ e : List ℕ, e.head? = some b → g s e = ((CKYProofs.derivParts true b ds[s].1).count e : ℝ) := by
  have hm : CKYProofs.Valid (markedE p F) lengths := ⟨h.symbols, h.nonterminals, h.preterminals, h.rows, h.words, h.lens⟩
  obtain ⟨vs, g, -, h2, h3, h4⟩ := (CKYProofs.batchDP (markedE p F) lengths hm).topkE_eq (F := entryS true F) (r := CKYProofs.atS (CKY.marked p))
    (fun e => (marked_ok p F e).1) (fun e => (marked_ok p F e).2) (Q := fun b d => DerivAvoids F b d.1) (fun b d => derivAvoids_parts true F b d)
    (fun b hb => SentCFG.small_marked h hB hsmall b hb) hk hsel
  refine ⟨g, h3, fun b hb => ?_⟩
  obtain ⟨ds, a1, a3⟩ := h4 b (by rw [h2]; exact hb)
  have := SentCFG.realScore_marked p b (L := SentCFG.len p lengths b)
  exact ⟨_, ds, slots_congr (fun y => congrFun this y.1) a1, a3⟩

open Classical in
/-- **C122, `SentCFG.topk`.**  The terms, rules and roots, which add the `k` slots, are those of the `k` best derivations only if that many are allowed. -/
theorem grammar_topk (p : CKY.Scores ℝ) (lengths : Option (List ℕ)) (h : SentCFG.Valid p lengths) (hl : SentCFG.Long p lengths) {B : ℝ} (hB : SentCFG.Bounded p lengths B)
    (hsmall : 6 * p.N * B < 100000) (F : Banned) {k : ℕ} (hk : 0 < k) {sel : Sel} (hsel : IsTopkE Prod.fst k sel) :
    ∃ (spans : ℕ → ℕ → ℕ → ℕ → ℕ → ℝ) (μ : CKY.Marginals), (∀ s < k, CKY.topkSpansE (forbidCfg p F) lengths k sel s = .ok (spans s)) ∧
      CKY.topkPartsE (forbidCfg p F) lengths k sel = .ok μ ∧
      ∀ b < p.batch, ∃ ds : List {d : SentCFG.Der p lengths b // DerivAvoids F b d.1},
        IsKBest (fun d => SentCFG.dscore p b d.1) (min k (Fintype.card {d : SentCFG.Der p lengths b // DerivAvoids F b d.1})) ds ∧
        (∀ s (hs : s < ds.length), ∀ w i X, spans s b w i X = (ds[s].1.1.spans 0).count (i, i + w + 1, X)) ∧
        (k ≤ Fintype.card {d : SentCFG.Der p lengths b // DerivAvoids F b d.1} →
          (∀ n t, μ.term b n t = (ds.map fun d => ((d.1.1.words 0).count (n, t) : ℝ)).sum) ∧
          (∀ X y z, μ.rule b X y z = (ds.map fun d => (d.1.1.rules.count (X, y, z) : ℝ)).sum) ∧
          (∀ X, μ.root b X = (ds.map fun d => if d.1.1.sym = X then (1 : ℝ) else 0).sum)) := by
  obtain ⟨g, h3, h4⟩ := grammar_rows p lengths h hB hsmall F hk hsel
  have hparts : CKY.topkPartsE (forbidCfg p F) lengths k sel = .ok (CKY.arrange p.N fun e => ((List.range k).map fun s => g s e).sum) :=
    topkPartsE_of (forbidCfg p F) lengths (SentCFG.N_ne h hl) hk h3
  refine ⟨fun s => CKY.arrangeSpans p.N (g s), _, fun s hs => (if_neg (SentCFG.N_ne h hl)).trans (congrArg (Except.map (CKY.arrangeSpans p.N)) (h3 s hs) :), hparts,
    fun b hb => ?_⟩
  obtain ⟨v, ds, a0, a3⟩ := h4 b hb
  have a1 := a0.best
  refine ⟨ds, a1, fun s hs w i X => SentCFG.arrangeSpans_eq (g s) b (SentCFG.len_le h b hb) ds[s].1 (fun e he => a3 s hs e he) w i X, fun hc => ?_⟩
  have hlen : ds.length = k := a1.length.trans (min_eq_left hc)
  have key : ∀ e : List ℕ, e.head? = some b → ∀ f : SentCFG.Der p lengths b → ℝ, (∀ d, ((CKYProofs.derivParts true b d).count e : ℝ) = f d) →
      ((List.range k).map fun s => g s e).sum = (ds.map fun d => f d.1).sum := by
    intro e he f hf
    congr 1
    refine List.ext_getElem (by simp [hlen]) fun s hs hs' => ?_
    simp only [List.getElem_map, List.getElem_range]
    rw [← hf]
    exact a3 s (by simpa using hs') e he
  exact ⟨fun n t => key [b, 0, n, t] rfl (fun d => ((d.1.words 0).count (n, t) : ℝ)) fun d => by rw [SentCFG.count_term],
    fun X y z => key [b, 1, X, y, z] rfl (fun d => (d.1.rules.count (X, y, z) : ℝ)) fun d => by rw [SentCFG.count_rule],
    fun X => key [b, 2, X] rfl (fun d => if d.1.sym = X then (1 : ℝ) else 0) fun d => by rw [SentCFG.count_root]; push_cast; rfl⟩

/-! ### `LinearChainCRF` -/

/-- The leaves of a row, with their slots. -/
def slotRow (k : ℕ) (p : T4 EReal) (b n : ℕ) (i j : Fin p.d2) : List (GradE (List ℕ)) := Autograd.kmaxConvertE k (p.get b n i j) [b, n, i, j]

/-- Gradients stay in their row. -/
theorem local_core {k : ℕ} (hk : 0 < k) {sel : Sel} (hsel : IsTopkE Prod.fst k sel) (p : T4 EReal) (hC : 0 < p.d2) (N logN : ℕ) (lens : ℕ → ℕ) (b : ℕ) (e : List ℕ)
    (he : e.head? ≠ some b) : ∀ g ∈ LinearChain.core (Autograd.kmaxE k sel) N logN lens (slotRow k p) b, g.2 e = 0 := by
  intro g hg
  have H := InfTopk.ksrE_grad (E := List ℕ) hk hsel
  refine (LinearChainProofs.core_rel (local_topk hk hsel b) hC N logN lens (slotRow k p) b (fun _ _ _ => PUnit.unit) (fun n _ i j => ?_)).2 g hg e he
  refine (local_topk hk hsel b).sum2 (x := PUnit.unit) (y := PUnit.unit) ⟨?_, fun g hg e _ => ?_⟩ ⟨?_, fun g hg e he => ?_⟩
  · unfold LinearChainProofs.maskedC SR.fill
    rw [H.detach_len]
    refine H.set_len _ _ ?_ ?_
    · split_ifs <;> simp [H.one_len, H.zero_len]
    · split_ifs <;> simp [H.one_len, H.zero_len, H.detach_len]
  · exact detach_local _ e g hg
  · unfold LinearChainProofs.maskedL SR.fill
    refine H.set_len _ _ ?_ ?_
    · split_ifs <;> simp [H.raw0, slotRow, Autograd.kmaxConvertE]
    · split_ifs <;> simp [H.raw0, slotRow, Autograd.kmaxConvertE, H.zero_len, H.detach_len]
  · refine zip_local (b := b) (fun g hg => ?_) g hg e he
    split_ifs at hg
    · exact head_local rfl g hg
    · intro e _
      rw [List.eq_of_mem_replicate hg]; rfl

theorem leaves_sum (p : T4 EReal) (b : ℕ) {m : ℕ} (y : Tags m p.d2) :
    (∑ n : Fin m, (Autograd.leafE (p.get b n (y n.succ) (y n.castSucc)) [b, (n : ℕ), (y n.succ : ℕ), (y n.castSucc : ℕ)] : GradE (List ℕ))).2 = LinearChain.ind b y := by
  rw [Prod.snd_sum]
  rfl

theorem slots_of {ι : Type} [Fintype ι] {score : ι → ℝ} {k : ℕ} {low : ℝ} {v l : List EReal} {ys ys' : List ι} {g : ι → EReal} (a1 : v = ys'.map g ++ l)
    (hg : ∀ y, g y = (score y : ℝ)) (h : IsKBest score (min k (Fintype.card ι)) ys) (h' : IsKBest score (min k (Fintype.card ι)) ys') (hlen : v.length = k)
    (hl : ∀ a ∈ l, a ≤ (low : ℝ)) : Slots score k low v ys := by
  classical
  have emap : ys'.map g = ys.map fun y => ((score y : ℝ) : EReal) := by
    have h3 := congrArg (List.map fun x : ℝ => (x : EReal)) (h'.unique h)
    rw [List.map_map, List.map_map] at h3
    exact Eq.trans (List.map_congr_left fun y _ => hg y) h3
  refine ⟨h, hlen, fun i hi => ?_, fun i hi x hx => ?_⟩
  · rw [a1, emap, List.getElem?_append_left (by simpa using hi)]
    simp [hi]
  · rw [a1, emap, List.getElem?_append_right (by simpa using hi)] at hx
    exact hl x (List.mem_of_getElem? hx)

theorem getD_front {ι A : Type} {v l : List A} {ys : List ι} {f : ι → A} (h : v = ys.map f ++ l) {s : ℕ} (hs : s < ys.length) (d : A) : v.getD s d = f ys[s] := by
  rw [h, List.getD_eq_getElem _ _ (by rw [List.length_append, List.length_map]; omega), List.getElem_append_left (by rwa [List.length_map]), List.getElem_map]

open LinearChain LinearChainProofs in
theorem chain_rows (p : T4 ℝ) (lengths : Option (List ℕ)) (h : LinearChain.Valid p lengths) (F : ℕ → ℕ → ℕ → ℕ → Prop) {B : ℝ} (hB : 0 ≤ B) (b : ℕ)
    (hin : ChainInfinity.Within p lengths F B b) (hsmall : 2 * (numEdges p lengths b : ℝ) * B < 100000) {k : ℕ} (hk : 0 < k) {sel : Sel} (hsel : IsTopkE Prod.fst k sel) :
    ∃ ys : List (AllowedTags (numEdges p lengths b) fun n (i j : Fin p.d2) => ¬ F b n i j),
      Slots (fun y => seqScore (row p b) y.1) k (-100000 + numEdges p lengths b * B)
        (LinearChain.core (Semirings.kmaxE k) (p.d1 + 1) (Nat.clog 2 p.d1) (lenOf (p.d1 + 1) lengths)
          (fun b n (i j : Fin p.d2) => Semirings.kmaxConvertE k ((forbid4 p F).get b n i j)) b) ys ∧
      ∀ s (hs : s < ys.length), ((LinearChain.core (Autograd.kmaxE k sel) (p.d1 + 1) (Nat.clog 2 p.d1) (lenOf (p.d1 + 1) lengths) (slotRow k (forbid4 p F)) b).getD s (0, 0)).2 =
        ind b ys[s].1 := by
  have hsm : 2 * (numEdges p lengths b : ℝ) * B < -(-100000) := by rwa [neg_neg]
  obtain ⟨ys, l, a1, a2, a3, -⟩ := (InfTopk.ksrE_grad hk hsel).chain h.classes (N := p.d1 + 1) (logN := Nat.clog 2 p.d1) (by simpa using le_two_pow_clog p.d1)
    (lenOf (p.d1 + 1) lengths) (slotRow k (forbid4 p F)) b (lenOf_le h.lens b) (fun n (i j : Fin p.d2) => Autograd.leafE ((forbid4 p F).get b n i j) [b, n, (i : ℕ), (j : ℕ)])
    (fun _ _ _ => by simp [slotRow, Autograd.kmaxConvertE]) (fun _ _ _ _ => rfl) (D := fun n i j => ¬ F b n i j) (r := row p b)
    (fun n _ i j hD => if_neg hD) (fun n _ i j hD => if_pos (not_not.1 hD)) hB hin hsm
  obtain ⟨ys', l', a1', a2', a3', a4'⟩ := (InfTopk.ksrE_val hk).chain h.classes (N := p.d1 + 1) (logN := Nat.clog 2 p.d1) (by simpa using le_two_pow_clog p.d1)
    (lenOf (p.d1 + 1) lengths) (fun b n (i j : Fin p.d2) => Semirings.kmaxConvertE k ((forbid4 p F).get b n i j)) b (lenOf_le h.lens b)
    (fun n (i j : Fin p.d2) => (forbid4 p F).get b n i j)
    (fun _ _ _ => by simp [Semirings.kmaxConvertE]) (fun _ _ _ _ => rfl) (D := fun n i j => ¬ F b n i j) (r := row p b)
    (fun n _ i j hD => if_neg hD) (fun n _ i j hD => if_pos (not_not.1 hD)) hB hin hsm
  refine ⟨ys, slots_of a1' (fun y => ?_) a2 a2' a4' a3', fun s hs => ?_⟩
  · exact (InfTopk.ksrE_val hk).score_sum univ _ (fun n : Fin (lenOf (p.d1 + 1) lengths b - 1) => row p b n (y.1 n.succ) (y.1 n.castSucc)) fun n _ => if_neg (y.2 n)
  · have hs' : s < ys.length := hs
    exact (congrArg Prod.snd (getD_front a1 hs' (0, 0))).trans (leaves_sum (forbid4 p F) b ys[s].1)

open LinearChain LinearChainProofs in
/-- **C122, `LinearChainCRF`.** -/
theorem chain_spec (p : T4 ℝ) (lengths : Option (List ℕ)) (h : LinearChain.Valid p lengths) (F : ℕ → ℕ → ℕ → ℕ → Prop) {B : ℝ} (hB : 0 ≤ B)
    (hin : ∀ b < p.d0, ChainInfinity.Within p lengths F B b) (hsmall : 2 * p.d1 * B < 100000) {k : ℕ} (hk : 0 < k) {sel : Sel} (hsel : IsTopkE Prod.fst k sel) :
    ∃ (vs : List (List EReal)) (μ : ℕ → List ℕ → ℝ), Dist.kmaxE LinearChain.algo (forbid4 p F) lengths k = .ok vs ∧ vs.length = p.d0 ∧
      (∀ s < k, Dist.topkE LinearChain.algo (forbid4 p F) lengths k sel s = .ok (μ s)) ∧
      ∀ b (hb : b < vs.length), ∃ ys : List (AllowedTags (numEdges p lengths b) fun n (i j : Fin p.d2) => ¬ F b n i j),
        Slots (fun y => seqScore (row p b) y.1) k (-100000 + numEdges p lengths b * B) vs[b] ys ∧
        ∀ s (hs : s < ys.length), ∀ n < p.d1, ∀ i j : Fin p.d2, μ s [b, n, i, j] = if UsesEdge ys[s].1 n i j then 1 else 0 := by
  have hokm := logpartition_ok (Semirings.kmaxE k) (LinearChain.algo.map (Semirings.kmaxConvertE k) (forbid4 p F)) lengths h.square h.edges h.lens
  have hok := logpartition_ok (Autograd.kmaxE k sel)
    (LinearChain.algo.map (fun q : EReal × List ℕ => Autograd.kmaxConvertE k q.1 q.2) (LinearChain.algo.index (forbid4 p F))) lengths h.square h.edges h.lens
  refine ⟨_, _, hokm, by simp; rfl, fun s _ => (congrArg (Except.map fun vs : List (List (GradE (List ℕ))) => (vs.map fun row => (row.getD s (0, 0)).2).sum) hok :), ?_⟩
  intro b hb
  have hb' : b < p.d0 := by simp only [List.length_map, List.length_range] at hb; exact hb
  have hle : numEdges p lengths b ≤ p.d1 := by
    have := lenOf_le h.lens b
    simp only [numEdges]; omega
  have hsm : 2 * (numEdges p lengths b : ℝ) * B < 100000 := by
    refine lt_of_le_of_lt ?_ hsmall
    have : (numEdges p lengths b : ℝ) ≤ p.d1 := by exact_mod_cast hle
    exact mul_le_mul_of_nonneg_right (by linarith) hB
  obtain ⟨ys, h1, h2⟩ := chain_rows p lengths h F hB b (hin b hb') hsm hk hsel
  refine ⟨ys, ?_, fun s hs n hn i j => ?_⟩
  · simp only [List.getElem_map, List.getElem_range]
    exact h1
  · have e := gradE_head p.d0 (fun b => (LinearChain.core (Autograd.kmaxE k sel) (p.d1 + 1) (Nat.clog 2 p.d1) (lenOf (p.d1 + 1) lengths)
      (slotRow k (forbid4 p F)) b).getD s (0, 0)) b hb' [b, n, (i : ℕ), (j : ℕ)] ?_
    · rw [List.map_map] at e
      beta_reduce
      rw [List.map_map]
      refine Eq.trans e ?_
      rw [h2 s hs]
      exact ind_apply b ys[s].1 n i j
    · intro b' hb'' hne
      have hloc := local_core hk hsel (forbid4 p F) h.classes (p.d1 + 1) (Nat.clog 2 p.d1) (lenOf (p.d1 + 1) lengths) b' [b, n, (i : ℕ), (j : ℕ)] (by simp [hne.symm])
      by_cases hs'' : s < (LinearChain.core (Autograd.kmaxE k sel) (p.d1 + 1) (Nat.clog 2 p.d1) (lenOf (p.d1 + 1) lengths) (slotRow k (forbid4 p F)) b').length
      · rw [List.getD_eq_getElem _ _ hs'']
        exact hloc _ (List.getElem_mem hs'')
      · rw [List.getD_eq_default _ _ (by omega)]; rfl

/-! ### The hypotheses are met -/

/-- The potentials of `TreeCRF.sample` are small. -/
theorem sample_small : TreeCRF.SmallPotentials TreeCRF.sample (some [3, 2]) 10 := by
  refine ⟨by norm_num, ?_, by norm_num [TreeCRF.sample]⟩
  intro b hb i j a hij hj ha
  have hb : b < 2 := hb
  have hj : j < TreeCRF.len TreeCRF.sample (some [3, 2]) b := hj
  have ha : a < 2 := ha
  have hj' : j < 3 := by
    interval_cases b <;> simp [TreeCRF.len, lenOf] at hj <;> omega
  have hi' : i < 3 := by omega
  interval_cases b <;> interval_cases i <;> interval_cases j <;> interval_cases a <;> norm_num [TreeCRF.sample, abs_le]

/-- With every span forbidden no tree is left, and all slots hold numbers near `-1e5` or below. -/
example : ∃ vs : List (List EReal), Dist.kmaxE CKYCRF.algo (forbid4 TreeCRF.sample fun _ _ _ _ => True) (some [3, 2]) 2 = .ok vs ∧
    ∃ v, vs[0]? = some v ∧ v.length = 2 ∧ ∀ x ∈ v, x ≤ ((-99950 : ℝ) : EReal) := by
  classical
  obtain ⟨sel, hsel⟩ := exists_sel 2
  obtain ⟨vs, μ, h1, h2, -, h4⟩ := tree_spec TreeCRF.sample _ TreeCRF.sample_valid sample_small (fun _ _ _ _ => True) (by norm_num) hsel
  have hl : 0 < vs.length := by rw [h2]; decide
  obtain ⟨ts, h5, -⟩ := h4 0 hl
  refine ⟨vs, h1, vs[0], List.getElem?_eq_getElem hl, h5.length, fun x hx => ?_⟩
  have h0 : ts = [] := by
    cases ts with
    | nil => rfl
    | cons t ts =>
      obtain ⟨⟨t, ht⟩, hc⟩ := t
      cases t with
      | leaf a => exact absurd trivial (hc 0 0 a (by simp [LTree.spans]))
      | node a l r => exact absurd trivial (hc 0 (l.size + r.size - 1) a (by simp [LTree.spans, LTree.size]))
  obtain ⟨i, hi, rfl⟩ := List.mem_iff_getElem.1 hx
  refine (h5.tail i (by simp [h0]) _ (List.getElem?_eq_getElem hi)).trans (EReal.coe_le_coe_iff.2 ?_)
  norm_num [TreeCRF.sample]

/-- With the transition from tag 0 to tag 1 forbidden, no slot of `topk(3)` that holds a sequence uses it, and there are such slots. -/
example {sel : Sel} (hsel : IsTopkE Prod.fst 3 sel) : ∃ μ, Dist.topkE LinearChain.algo (forbid4 LinearChain.sample ChainInfinity.banned) (some [3, 2]) 3 sel 0 = .ok μ ∧
    μ [0, 0, 1, 0] = 0 := by
  obtain ⟨vs, μ, -, h2, h3, h4⟩ := chain_spec LinearChain.sample _ LinearChain.sample_valid ChainInfinity.banned (B := 4) (by norm_num)
    (fun b hb => ChainInfinity.banned_within b hb) (by norm_num [LinearChain.sample]) (k := 3) (by norm_num) hsel
  obtain ⟨ys, h5, h6⟩ := h4 0 (by rw [h2]; decide)
  have hpos : 0 < ys.length := by
    rw [h5.best.length]
    obtain ⟨y, hy⟩ := ChainInfinity.banned_ok 0
    have : Nonempty (AllowedTags (LinearChain.numEdges LinearChain.sample (some [3, 2]) 0) fun n (i j : Fin LinearChain.sample.d2) => ¬ ChainInfinity.banned 0 n i j) :=
      ⟨y, (tagsAvoid_iff _ _).1 hy⟩
    exact lt_min (by norm_num) Fintype.card_pos
  refine ⟨μ 0, h3 0 (by norm_num), (h6 0 hpos 0 (by decide) ⟨1, by decide⟩ ⟨0, by decide⟩).trans (if_neg fun hc => ?_)⟩
  exact (tagsAvoid_iff _ _).2 ys[0].2 0 _ _ hc ⟨rfl, rfl⟩

/-- The hypotheses of the other theorems are met by the samples. -/
example (mr : Bool) : Dependency.Valid mr Dependency.sample (some [3, 2]) ∧ SemiMarkov.Valid SemiMarkov.sample (some [4, 3]) ∧
    SemiMarkov.Bounded SemiMarkov.sample (some [4, 3]) 10 ∧ SentCFG.Valid SentCFG.sample (some [3, 2]) :=
  ⟨Dependency.sample_valid mr, SemiMarkov.sample_valid, SemiMarkov.sample_bounded.1, SentCFG.sample_valid⟩

end Props.InfTopk
