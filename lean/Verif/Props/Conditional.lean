import Verif.Proofs.Conditional
import Verif.Props.TreeCRF
import Verif.Props.Dependency
import Verif.Props.LabelledDependency
import Verif.Props.SemiMarkov
import Verif.Props.SentCFG
import Verif.Props.LinearChainMarginals
import Mathlib.Data.List.GetD

/-! Property theorems C91: forbidding parts by lowering their potentials conditions the distribution on the structures that avoid the parts.

`F` is any set of parts.  Lowering the potentials of the parts in `F` by `l` makes `partition` the log of the total weight of the structures that avoid `F`, and
`marginals` the probabilities given that `F` is avoided, up to `exp (-l)` times the odds against avoiding `F` (`Gibbs.rest`). -/

open Finset Spec Generic

noncomputable section
namespace Props.Conditional

theorem list_mask {X : Type} (l : List X) (φ φ' : X → ℝ) (F : X → Prop) {c : ℝ} (hc : 0 ≤ c) (h1 : ∀ x, ¬ F x → φ' x = φ x) (h2 : ∀ x, F x → φ' x = φ x - c) :
    ((∀ x ∈ l, ¬ F x) → (l.map φ').sum = (l.map φ).sum) ∧ ((¬ ∀ x ∈ l, ¬ F x) → (l.map φ').sum ≤ (l.map φ).sum - c) := by
  have hle : ∀ l : List X, (l.map φ').sum ≤ (l.map φ).sum := fun l => List.sum_le_sum fun x _ => by
    by_cases h : F x
    · rw [h2 x h]; linarith
    · rw [h1 x h]
  constructor
  · intro h
    exact congrArg List.sum (List.map_congr_left fun x hx => h1 x (h x hx))
  · intro h
    induction l with
    | nil => simp at h
    | cons x l ih =>
      rw [List.map_cons, List.map_cons, List.sum_cons, List.sum_cons]
      by_cases hx : F x
      · rw [h2 x hx]
        linarith [hle l]
      · rw [h1 x hx]
        have := ih fun h' => h (by simpa [hx] using h')
        linarith

theorem sum_mask {X : Type} [Fintype X] (φ φ' : X → ℝ) (F : X → Prop) {c : ℝ} (hc : 0 ≤ c) (h1 : ∀ x, ¬ F x → φ' x = φ x) (h2 : ∀ x, F x → φ' x = φ x - c) :
    ((∀ x, ¬ F x) → ∑ x, φ' x = ∑ x, φ x) ∧ ((¬ ∀ x, ¬ F x) → ∑ x, φ' x ≤ ∑ x, φ x - c) := by
  have := list_mask (univ : Finset X).toList φ φ' F hc h1 h2
  simp only [Finset.mem_toList, mem_univ, forall_true_left, Finset.sum_map_toList] at this
  exact this

theorem getD_rows {n b : ℕ} (h : b < n) (f : ℕ → ℝ) : ((List.range n).map f).getD b 0 = f b := by
  rw [List.getD_eq_getElem _ _ (by simpa using h), List.getElem_map, List.getElem_range]

/-! ### `TreeCRF` -/

open Classical in
/-- The potentials of the parts in `F` are lowered by `c`. -/
def mask4 (p : T4 ℝ) (F : ℕ → ℕ → ℕ → ℕ → Prop) (c : ℝ) : T4 ℝ := { p with get := fun b i j a => if F b i j a then p.get b i j a - c else p.get b i j a }

/-- The tree has none of the forbidden labelled spans. -/
def TreeAvoids {NT n : ℕ} (F : ℕ → ℕ → ℕ → Prop) (t : Trees NT n) : Prop := ∀ i j (a : Fin NT), (i, j, a) ∈ t.1.spans 0 → ¬ F i j a

theorem tree_score (p : T4 ℝ) (F : ℕ → ℕ → ℕ → ℕ → Prop) {c : ℝ} (hc : 0 ≤ c) (b : ℕ) {n : ℕ} (t : Trees p.d3 n) :
    (TreeAvoids (F b) t → treeScore (TreeCRF.row (mask4 p F c) b) t = treeScore (TreeCRF.row p b) t) ∧
    (¬ TreeAvoids (F b) t → treeScore (TreeCRF.row (mask4 p F c) b) t ≤ treeScore (TreeCRF.row p b) t - c) := by
  have := list_mask (t.1.spans 0) (fun s => TreeCRF.row p b s.1 s.2.1 s.2.2) (fun s => TreeCRF.row (mask4 p F c) b s.1 s.2.1 s.2.2)
    (fun s => F b s.1 s.2.1 s.2.2) hc (fun x hx => if_neg hx) (fun x hx => if_pos hx)
  simpa only [TreeAvoids, treeScore, Prod.forall] using this

/-- **C91, `TreeCRF`.** -/
theorem tree_condition (p : T4 ℝ) (lengths : Option (List ℕ)) (h : TreeCRF.Valid p lengths) (F : ℕ → ℕ → ℕ → ℕ → Prop) (c : ℝ) (hc : 0 ≤ c) :
    ∃ us vs μ, Dist.partition CKYCRF.algo p lengths = .ok us ∧ Dist.partition CKYCRF.algo (mask4 p F c) lengths = .ok vs ∧
      Dist.marginals CKYCRF.algo (mask4 p F c) lengths = .ok μ ∧ ∀ b < p.d0, (∃ t : Trees p.d3 (TreeCRF.len p lengths b), TreeAvoids (F b) t) →
        let P := Gibbs.probOf (treeScore (TreeCRF.row p b) : Trees p.d3 (TreeCRF.len p lengths b) → ℝ) (TreeAvoids (F b))
        us.getD b 0 + Real.log P ≤ vs.getD b 0 ∧ vs.getD b 0 ≤ us.getD b 0 + Real.log P + Real.exp (-c) * (1 - P) / P ∧
        ∀ i j (a : Fin p.d3), |μ [b, i, j, (a : ℕ)] - Gibbs.condProb (treeScore (TreeCRF.row p b) : Trees p.d3 (TreeCRF.len p lengths b) → ℝ)
          (TreeAvoids (F b)) (fun t => (i, j, a) ∈ t.1.spans 0)| ≤ Real.exp (-c) * (1 - P) / P := by
  have h' : TreeCRF.Valid (mask4 p F c) lengths := ⟨h.square, h.words, h.labels, h.lens⟩
  obtain ⟨μ, h1, h2⟩ := TreeCRF.marginals_spec (mask4 p F c) lengths h'
  refine ⟨_, _, μ, TreeCRF.partition_spec p lengths h, TreeCRF.partition_spec _ lengths h', h1, fun b hb hA => ?_⟩
  have hs := fun t : Trees p.d3 (TreeCRF.len p lengths b) => tree_score p F hc b t
  have k1 := Gibbs.mask_Z (fun t => (hs t).1) (fun t => (hs t).2) hA
  have hb' : b < (mask4 p F c).d0 := hb
  rw [getD_rows hb, getD_rows hb']
  refine ⟨k1.1, k1.2, fun i j a => ?_⟩
  rw [h2 b hb i j a]
  exact Gibbs.mask_prob (fun t => (hs t).1) (fun t => (hs t).2) hA fun t => (i, j, a) ∈ t.1.spans 0


open Classical in
/-- The potentials of the parts in `F` are set to `-∞`. -/
def forbid4 (p : T4 ℝ) (F : ℕ → ℕ → ℕ → ℕ → Prop) : T4 EReal := ⟨p.d0, p.d1, p.d2, p.d3, fun b i j a => if F b i j a then ⊥ else (p.get b i j a : EReal)⟩

theorem list_forbid {X : Type} (l : List X) (φ : X → ℝ) (φ' : X → EReal) (F : X → Prop) (h1 : ∀ x, ¬ F x → φ' x = φ x) (h2 : ∀ x, F x → φ' x = ⊥) :
    ((∀ x ∈ l, ¬ F x) → (l.map φ').sum = ((l.map φ).sum : ℝ)) ∧ ((¬ ∀ x ∈ l, ¬ F x) → (l.map φ').sum = ⊥) := by
  induction l with
  | nil => simp
  | cons x l ih =>
    rw [List.map_cons, List.map_cons, List.sum_cons, List.sum_cons]
    constructor
    · intro h
      rw [h1 x (h x List.mem_cons_self), ih.1 fun y hy => h y (List.mem_cons_of_mem _ hy), EReal.coe_add]
    · intro h
      by_cases hx : F x
      · rw [h2 x hx, EReal.bot_add]
      · rw [ih.2 fun h' => h (by simpa [hx] using h'), EReal.add_bot]

theorem sum_forbid {X : Type} [Fintype X] (φ : X → ℝ) (φ' : X → EReal) (F : X → Prop) (h1 : ∀ x, ¬ F x → φ' x = φ x) (h2 : ∀ x, F x → φ' x = ⊥) :
    ((∀ x, ¬ F x) → ∑ x, φ' x = ((∑ x, φ x : ℝ) : EReal)) ∧ ((¬ ∀ x, ¬ F x) → ∑ x, φ' x = ⊥) := by
  have := list_forbid (univ : Finset X).toList φ φ' F h1 h2
  simp only [Finset.mem_toList, mem_univ, forall_true_left, Finset.sum_map_toList] at this
  exact this

theorem getElem_rows {β : Type} {n b : ℕ} (h : b < n) (f : ℕ → β) : ((List.range n).map f)[b]? = some (f b) := by
  rw [List.getElem?_map, List.getElem?_range h]; rfl

/-- **C91, `TreeCRF`, `-∞`.** With the potentials of the forbidden parts at `-∞`, `partition` is exactly `partition` of the free model plus the log of the
probability of avoiding them; `-∞` if they cannot be avoided. -/
theorem tree_forbid (p : T4 ℝ) (lengths : Option (List ℕ)) (h : TreeCRF.Valid p lengths) (F : ℕ → ℕ → ℕ → ℕ → Prop) :
    ∃ us vs, Dist.partition CKYCRF.algo p lengths = .ok us ∧ Dist.partitionE CKYCRF.algo lengths (forbid4 p F) = .ok vs ∧ ∀ b < p.d0,
      ((∃ t : Trees p.d3 (TreeCRF.len p lengths b), TreeAvoids (F b) t) → vs[b]? = some ((us.getD b 0 +
        Real.log (Gibbs.probOf (treeScore (TreeCRF.row p b) : Trees p.d3 (TreeCRF.len p lengths b) → ℝ) (TreeAvoids (F b))) : ℝ) : EReal)) ∧
      ((¬ ∃ t : Trees p.d3 (TreeCRF.len p lengths b), TreeAvoids (F b) t) → vs[b]? = some ⊥) := by
  have h' : TreeCRF.Valid (forbid4 p F) lengths := ⟨h.square, h.words, h.labels, h.lens⟩
  refine ⟨_, _, TreeCRF.partition_spec p lengths h, TreeCRF.partition_neg_inf _ _ lengths h', fun b hb => ?_⟩
  have hs := fun t : Trees p.d3 (TreeCRF.len p lengths b) => list_forbid (t.1.spans 0) (fun s => TreeCRF.row p b s.1 s.2.1 s.2.2)
    (fun s => TreeCRF.row (forbid4 p F) b s.1 s.2.1 s.2.2) (fun s => F b s.1 s.2.1 s.2.2) (fun x hx => if_neg hx) (fun x hx => if_pos hx)
  simp only [Prod.forall] at hs
  have hb' : b < (forbid4 p F).d0 := hb
  rw [getD_rows hb, getElem_rows hb']
  have k := Gibbs.mask_inf (treeScore (TreeCRF.row p b) : Trees p.d3 (TreeCRF.len p lengths b) → ℝ) (TreeAvoids (F b)) _ (fun t => (hs t).1) (fun t => (hs t).2)
  exact ⟨fun hA => congrArg some (k.1 hA), fun hA => congrArg some (k.2 hA)⟩

/-- The probability of an event from the probability of avoiding it. -/
theorem exp_log_probOf {ι : Type} [Fintype ι] [Nonempty ι] (s : ι → ℝ) (B : ι → Prop) [DecidablePred B] (u : ℝ) (hA : ∃ y, ¬ B y) :
    (∑ y, if B y then Gibbs.prob s y else 0) = 1 - Real.exp (u + Real.log (Gibbs.probOf s fun y => ¬ B y) - u) := by
  rw [add_sub_cancel_left, Real.exp_log (Gibbs.probOf_pos s hA)]
  have h1 := Gibbs.probOf_add_not s B
  have h2 : Gibbs.probOf s B = ∑ y, if B y then Gibbs.prob s y else 0 := sum_congr rfl fun y _ => by congr
  rw [h2] at h1
  linarith

/-- **C91, `TreeCRF`.** The marginal of a labelled span is `1 - exp (partition with the span forbidden - partition)`. -/
theorem tree_marginal_from_partitions (p : T4 ℝ) (lengths : Option (List ℕ)) (h : TreeCRF.Valid p lengths) (b : ℕ) (hb : b < p.d0) (i j : ℕ) (a : Fin p.d3)
    (hA : ∃ t : Trees p.d3 (TreeCRF.len p lengths b), (i, j, a) ∉ t.1.spans 0) :
    ∃ us vs μ, ∃ v : ℝ, Dist.partition CKYCRF.algo p lengths = .ok us ∧ Dist.marginals CKYCRF.algo p lengths = .ok μ ∧
      Dist.partitionE CKYCRF.algo lengths (forbid4 p fun b' i' j' a' => b' = b ∧ i' = i ∧ j' = j ∧ a' = a) = .ok vs ∧ vs[b]? = some (v : EReal) ∧
      μ [b, i, j, (a : ℕ)] = 1 - Real.exp (v - us.getD b 0) := by
  obtain ⟨us, vs, h1, h2, h3⟩ := tree_forbid p lengths h fun b' i' j' a' => b' = b ∧ i' = i ∧ j' = j ∧ a' = a
  obtain ⟨μ, h4, h5⟩ := TreeCRF.marginals_spec p lengths h
  have e : (TreeAvoids fun i' j' a' => b = b ∧ i' = i ∧ j' = j ∧ a' = (a : ℕ)) = fun t : Trees p.d3 (TreeCRF.len p lengths b) => ¬ (i, j, a) ∈ t.1.spans 0 := by
    funext t
    rw [eq_iff_iff]
    constructor
    · intro ht hm; exact ht i j a hm ⟨rfl, rfl, rfl, rfl⟩
    · rintro ht i' j' a' hm ⟨-, rfl, rfl, ha⟩
      exact ht (by rwa [← Fin.ext ha])
  have h6 := (h3 b hb).1 (by rw [e]; exact hA)
  rw [e] at h6
  obtain ⟨t0, -⟩ := id hA
  have : Nonempty (Trees p.d3 (TreeCRF.len p lengths b)) := ⟨t0⟩
  refine ⟨us, vs, μ, _, h1, h4, h2, h6, ?_⟩
  rw [h5 b hb]
  exact exp_log_probOf _ (fun t : Trees p.d3 (TreeCRF.len p lengths b) => (i, j, a) ∈ t.1.spans 0) _ hA

/-- The hypotheses are met: the 3-word row of the sample, with the span of the first two words forbidden for both labels. -/
example : ∃ t : Trees TreeCRF.sample.d3 (TreeCRF.len TreeCRF.sample (some [3, 2]) 0), TreeAvoids (fun i j _ => i = 0 ∧ j = 1) t := by
  refine ⟨⟨.node ⟨0, by decide⟩ (.leaf ⟨0, by decide⟩) (.node ⟨0, by decide⟩ (.leaf ⟨0, by decide⟩) (.leaf ⟨0, by decide⟩)), rfl⟩, ?_⟩
  rintro i j a hm ⟨rfl, rfl⟩
  simp [LTree.spans, LTree.size] at hm


/-! ### `DependencyCRF` -/

open Classical in
/-- The potentials of the arcs in `F` are lowered by `c`. -/
def maskArc (q : DepTree.Arcs ℝ) (F : ℕ → ℕ → ℕ → ℕ → Prop) (c : ℝ) : DepTree.Arcs ℝ :=
  { q with get := fun b i j l => if F b i j l then q.get b i j l - c else q.get b i j l }

open Classical in
/-- The potentials of the arcs in `F` are set to `-∞`. -/
def forbidArc (q : DepTree.Arcs ℝ) (F : ℕ → ℕ → ℕ → ℕ → Prop) : DepTree.Arcs EReal :=
  ⟨q.rank, q.d0, q.d1, q.d2, q.d3, fun b i j l => if F b i j l then ⊥ else (q.get b i j l : EReal)⟩

/-- The tree has none of the forbidden arcs. -/
def DepAvoids {mr : Bool} {n : ℕ} (F : ℕ → ℕ → ℕ → Prop) (t : ProjTrees mr n) : Prop := ∀ i j, HasArc t.1 i j → ¬ F i j 0

theorem depAvoids_iff {mr : Bool} {n : ℕ} (F : ℕ → ℕ → ℕ → Prop) (t : ProjTrees mr n) :
    DepAvoids F t ↔ ∀ k : Fin n, ¬ F (arcCell (t.1 k) k).1 (arcCell (t.1 k) k).2 0 := by
  constructor
  · intro h k
    exact h _ _ ((DepTreeProofs.hasArc_iff t.2.1 _ _).2 ⟨k, rfl⟩)
  · intro h i j ha
    obtain ⟨k, hk⟩ := (DepTreeProofs.hasArc_iff t.2.1 _ _).1 ha
    have := h k
    rwa [hk] at this

theorem dep_score (mr : Bool) (q : DepTree.Arcs ℝ) (F : ℕ → ℕ → ℕ → ℕ → Prop) {c : ℝ} (hc : 0 ≤ c) (b : ℕ) {n : ℕ} (t : ProjTrees mr n) :
    (DepAvoids (F b) t → depScore (Dependency.row (maskArc q F c) b) t.1 = depScore (Dependency.row q b) t.1) ∧
    (¬ DepAvoids (F b) t → depScore (Dependency.row (maskArc q F c) b) t.1 ≤ depScore (Dependency.row q b) t.1 - c) := by
  rw [depAvoids_iff]
  exact sum_mask (fun k : Fin n => Dependency.row q b (arcCell (t.1 k) k).1 (arcCell (t.1 k) k).2)
    (fun k => Dependency.row (maskArc q F c) b (arcCell (t.1 k) k).1 (arcCell (t.1 k) k).2)
    (fun k => F b (arcCell (t.1 k) k).1 (arcCell (t.1 k) k).2 0) hc (fun x hx => if_neg hx) (fun x hx => if_pos hx)

/-- The score of a projective tree. -/
def depS (mr : Bool) (q : DepTree.Arcs ℝ) (lengths : Option (List ℕ)) (b : ℕ) (t : ProjTrees mr (Dependency.len q lengths b)) : ℝ := depScore (Dependency.row q b) t.1

open Classical in
/-- **C91, `DependencyCRF`**, several roots or one. -/
theorem dependency_condition (mr : Bool) (q : DepTree.Arcs ℝ) (lengths : Option (List ℕ)) (h : Dependency.Valid mr q lengths) (F : ℕ → ℕ → ℕ → ℕ → Prop) (c : ℝ)
    (hc : 0 ≤ c) :
    ∃ us vs μ, DepTree.partition mr q lengths = .ok us ∧ DepTree.partition mr (maskArc q F c) lengths = .ok vs ∧
      DepTree.marginals mr (maskArc q F c) lengths = .ok μ ∧ ∀ b < q.d0, (∃ t : ProjTrees mr (Dependency.len q lengths b), DepAvoids (F b) t) →
        let P := Gibbs.probOf (depS mr q lengths b) (DepAvoids (F b))
        us.getD b 0 + Real.log P ≤ vs.getD b 0 ∧ vs.getD b 0 ≤ us.getD b 0 + Real.log P + Real.exp (-c) * (1 - P) / P ∧
        ∀ i j, |μ [b, i, j] - Gibbs.condProb (depS mr q lengths b) (DepAvoids (F b)) (fun t => HasArc t.1 i j)| ≤ Real.exp (-c) * (1 - P) / P := by
  have h' : Dependency.Valid mr (maskArc q F c) lengths := ⟨h.rank, h.square, h.batch, h.words, h.lens⟩
  obtain ⟨μ, h1, h2⟩ := Dependency.marginals_spec mr (maskArc q F c) lengths h'
  refine ⟨_, _, μ, Dependency.partition_spec mr q lengths h, Dependency.partition_spec mr _ lengths h', h1, fun b hb hA => ?_⟩
  have hs := fun t : ProjTrees mr (Dependency.len q lengths b) => dep_score mr q F hc b t
  have k1 := Gibbs.mask_Z (s := depS mr q lengths b) (fun t => (hs t).1) (fun t => (hs t).2) hA
  have hb' : b < (maskArc q F c).d0 := hb
  rw [getD_rows hb, getD_rows hb']
  refine ⟨k1.1, k1.2, fun i j => ?_⟩
  rw [h2 b hb i j]
  have := Gibbs.mask_prob (s := depS mr q lengths b) (fun t => (hs t).1) (fun t => (hs t).2) hA fun t => HasArc t.1 i j
  refine Eq.trans_le ?_ this
  congr 2

/-- **C91, `DependencyCRF`, `-∞`.** -/
theorem dependency_forbid (mr : Bool) (q : DepTree.Arcs ℝ) (lengths : Option (List ℕ)) (h : Dependency.Valid mr q lengths) (F : ℕ → ℕ → ℕ → ℕ → Prop) :
    ∃ us vs, DepTree.partition mr q lengths = .ok us ∧
      DepTree.sum mr (Semirings.logE (Semirings.negInf : ℝ)) (DepTree.negBig : ℝ) (forbidArc q F) lengths = .ok vs ∧ ∀ b < q.d0,
      ((∃ t : ProjTrees mr (Dependency.len q lengths b), DepAvoids (F b) t) → vs[b]? = some ((us.getD b 0 +
        Real.log (Gibbs.probOf (depS mr q lengths b) (DepAvoids (F b))) : ℝ) : EReal)) ∧
      ((¬ ∃ t : ProjTrees mr (Dependency.len q lengths b), DepAvoids (F b) t) → vs[b]? = some ⊥) := by
  have h' : Dependency.Valid mr (forbidArc q F) lengths := ⟨h.rank, h.square, h.batch, h.words, h.lens⟩
  refine ⟨_, _, Dependency.partition_spec mr q lengths h, Dependency.partition_neg_inf mr _ _ _ lengths h', fun b hb => ?_⟩
  have hs := fun t : ProjTrees mr (Dependency.len q lengths b) => sum_forbid (fun k => Dependency.row q b (arcCell (t.1 k) k).1 (arcCell (t.1 k) k).2)
    (fun k => Dependency.row (forbidArc q F) b (arcCell (t.1 k) k).1 (arcCell (t.1 k) k).2)
    (fun k => F b (arcCell (t.1 k) k).1 (arcCell (t.1 k) k).2 0) (fun x hx => if_neg hx) (fun x hx => if_pos hx)
  have hb' : b < (forbidArc q F).d0 := hb
  rw [getD_rows hb, getElem_rows hb']
  have k := Gibbs.mask_inf (depS mr q lengths b) (DepAvoids (F b)) _
    (fun t ht => (hs t).1 ((depAvoids_iff _ _).1 ht)) (fun t ht => (hs t).2 fun h => ht ((depAvoids_iff _ _).2 h))
  exact ⟨fun hA => congrArg some (k.1 hA), fun hA => congrArg some (k.2 hA)⟩

open Classical in
/-- **C91, `DependencyCRF`.** The marginal of an arc is `1 - exp (partition with the arc forbidden - partition)`. -/
theorem dependency_marginal_from_partitions (mr : Bool) (q : DepTree.Arcs ℝ) (lengths : Option (List ℕ)) (h : Dependency.Valid mr q lengths) (b : ℕ) (hb : b < q.d0)
    (i j : ℕ) (hA : ∃ t : ProjTrees mr (Dependency.len q lengths b), ¬ HasArc t.1 i j) :
    ∃ us vs μ, ∃ v : ℝ, DepTree.partition mr q lengths = .ok us ∧ DepTree.marginals mr q lengths = .ok μ ∧
      DepTree.sum mr (Semirings.logE (Semirings.negInf : ℝ)) (DepTree.negBig : ℝ) (forbidArc q fun b' i' j' _ => b' = b ∧ i' = i ∧ j' = j) lengths = .ok vs ∧
      vs[b]? = some (v : EReal) ∧ μ [b, i, j] = 1 - Real.exp (v - us.getD b 0) := by
  obtain ⟨us, vs, h1, h2, h3⟩ := dependency_forbid mr q lengths h fun b' i' j' _ => b' = b ∧ i' = i ∧ j' = j
  obtain ⟨μ, h4, h5⟩ := Dependency.marginals_spec mr q lengths h
  have e : (DepAvoids fun i' j' _ => b = b ∧ i' = i ∧ j' = j) = fun t : ProjTrees mr (Dependency.len q lengths b) => ¬ HasArc t.1 i j := by
    funext t
    rw [eq_iff_iff]
    constructor
    · intro ht hm; exact ht i j hm ⟨rfl, rfl, rfl⟩
    · rintro ht i' j' hm ⟨-, rfl, rfl⟩
      exact ht hm
  have h6 := (h3 b hb).1 (by rw [e]; exact hA)
  rw [e] at h6
  obtain ⟨t0, -⟩ := id hA
  have : Nonempty (ProjTrees mr (Dependency.len q lengths b)) := ⟨t0⟩
  refine ⟨us, vs, μ, _, h1, h4, h2, h6, ?_⟩
  rw [h5 b hb]
  refine Eq.trans ?_ (exp_log_probOf (depS mr q lengths b) (fun t : ProjTrees mr (Dependency.len q lengths b) => HasArc t.1 i j) _ hA)
  exact sum_congr rfl fun t _ => by congr

/-! ### `DependencyCRF` with labels -/

/-- The tree has none of the forbidden labelled arcs. -/
def LabAvoids {mr : Bool} {n L : ℕ} (F : ℕ → ℕ → ℕ → Prop) (t : LabelledTrees mr n L) : Prop := ∀ i j l, HasLabArc t i j l → ¬ F i j l

theorem labAvoids_iff {mr : Bool} {n L : ℕ} (F : ℕ → ℕ → ℕ → Prop) (t : LabelledTrees mr n L) :
    LabAvoids F t ↔ ∀ k : Fin n, ¬ F (arcCell (t.1.1 k) k).1 (arcCell (t.1.1 k) k).2 (t.2 k) := by
  constructor
  · intro h k
    exact h _ _ _ ((DepTreeProofs.hasLabArc_iff t _ _ _).2 ⟨k, rfl, rfl⟩)
  · intro h i j l ha
    obtain ⟨k, hk, rfl⟩ := (DepTreeProofs.hasLabArc_iff t _ _ _).1 ha
    have := h k
    rwa [hk] at this

theorem lab_score (mr : Bool) (q : DepTree.Arcs ℝ) (F : ℕ → ℕ → ℕ → ℕ → Prop) {c : ℝ} (hc : 0 ≤ c) (b : ℕ) {n L : ℕ} (t : LabelledTrees mr n L) :
    (LabAvoids (F b) t → labScore (LabelledDependency.row (maskArc q F c) b) t = labScore (LabelledDependency.row q b) t) ∧
    (¬ LabAvoids (F b) t → labScore (LabelledDependency.row (maskArc q F c) b) t ≤ labScore (LabelledDependency.row q b) t - c) := by
  rw [labAvoids_iff]
  exact sum_mask (fun k : Fin n => LabelledDependency.row q b (arcCell (t.1.1 k) k).1 (arcCell (t.1.1 k) k).2 (t.2 k))
    (fun k => LabelledDependency.row (maskArc q F c) b (arcCell (t.1.1 k) k).1 (arcCell (t.1.1 k) k).2 (t.2 k))
    (fun k => F b (arcCell (t.1.1 k) k).1 (arcCell (t.1.1 k) k).2 (t.2 k)) hc (fun x hx => if_neg hx) (fun x hx => if_pos hx)

/-- The score of a labelled tree. -/
def labS (mr : Bool) (q : DepTree.Arcs ℝ) (lengths : Option (List ℕ)) (b : ℕ) (t : LabelledTrees mr (LabelledDependency.len q lengths b) q.d3) : ℝ :=
  labScore (LabelledDependency.row q b) t

open Classical in
/-- **C91, `DependencyCRF` with labels.** -/
theorem labelled_condition (mr : Bool) (q : DepTree.Arcs ℝ) (lengths : Option (List ℕ)) (h : LabelledDependency.Valid mr q lengths) (F : ℕ → ℕ → ℕ → ℕ → Prop)
    (c : ℝ) (hc : 0 ≤ c) :
    ∃ us vs μ, DepTree.partition mr q lengths = .ok us ∧ DepTree.partition mr (maskArc q F c) lengths = .ok vs ∧
      DepTree.marginals mr (maskArc q F c) lengths = .ok μ ∧
      ∀ b < q.d0, (∃ t : LabelledTrees mr (LabelledDependency.len q lengths b) q.d3, LabAvoids (F b) t) →
        let P := Gibbs.probOf (labS mr q lengths b) (LabAvoids (F b))
        us.getD b 0 + Real.log P ≤ vs.getD b 0 ∧ vs.getD b 0 ≤ us.getD b 0 + Real.log P + Real.exp (-c) * (1 - P) / P ∧
        ∀ i j l, |μ [b, i, j, l] - Gibbs.condProb (labS mr q lengths b) (LabAvoids (F b)) (fun t => HasLabArc t i j l)| ≤ Real.exp (-c) * (1 - P) / P := by
  have h' : LabelledDependency.Valid mr (maskArc q F c) lengths := ⟨h.rank, h.labels, h.square, h.batch, h.words, h.lens⟩
  obtain ⟨μ, h1, h2⟩ := LabelledDependency.marginals_spec mr (maskArc q F c) lengths h'
  refine ⟨_, _, μ, LabelledDependency.partition_spec mr q lengths h, LabelledDependency.partition_spec mr _ lengths h', h1, fun b hb hA => ?_⟩
  have hs := fun t : LabelledTrees mr (LabelledDependency.len q lengths b) q.d3 => lab_score mr q F hc b t
  have k1 := Gibbs.mask_Z (s := labS mr q lengths b) (fun t => (hs t).1) (fun t => (hs t).2) hA
  have hb' : b < (maskArc q F c).d0 := hb
  rw [getD_rows hb, getD_rows hb']
  refine ⟨k1.1, k1.2, fun i j l => ?_⟩
  rw [h2 b hb i j l]
  have := Gibbs.mask_prob (s := labS mr q lengths b) (fun t => (hs t).1) (fun t => (hs t).2) hA fun t => HasLabArc t i j l
  refine Eq.trans_le ?_ this
  congr 2

/-- **C91, `DependencyCRF` with labels, `-∞`.** -/
theorem labelled_forbid (mr : Bool) (q : DepTree.Arcs ℝ) (lengths : Option (List ℕ)) (h : LabelledDependency.Valid mr q lengths) (F : ℕ → ℕ → ℕ → ℕ → Prop) :
    ∃ us vs, DepTree.partition mr q lengths = .ok us ∧
      DepTree.sum mr (Semirings.logE (Semirings.negInf : ℝ)) (DepTree.negBig : ℝ) (forbidArc q F) lengths = .ok vs ∧ ∀ b < q.d0,
      ((∃ t : LabelledTrees mr (LabelledDependency.len q lengths b) q.d3, LabAvoids (F b) t) → vs[b]? = some ((us.getD b 0 +
        Real.log (Gibbs.probOf (labS mr q lengths b) (LabAvoids (F b))) : ℝ) : EReal)) ∧
      ((¬ ∃ t : LabelledTrees mr (LabelledDependency.len q lengths b) q.d3, LabAvoids (F b) t) → vs[b]? = some ⊥) := by
  have h' : LabelledDependency.Valid mr (forbidArc q F) lengths := ⟨h.rank, h.labels, h.square, h.batch, h.words, h.lens⟩
  refine ⟨_, _, LabelledDependency.partition_spec mr q lengths h, LabelledDependency.partition_neg_inf mr _ _ _ lengths h', fun b hb => ?_⟩
  have hs := fun t : LabelledTrees mr (LabelledDependency.len q lengths b) q.d3 =>
    sum_forbid (fun k => LabelledDependency.row q b (arcCell (t.1.1 k) k).1 (arcCell (t.1.1 k) k).2 (t.2 k))
    (fun k => LabelledDependency.row (forbidArc q F) b (arcCell (t.1.1 k) k).1 (arcCell (t.1.1 k) k).2 (t.2 k))
    (fun k => F b (arcCell (t.1.1 k) k).1 (arcCell (t.1.1 k) k).2 (t.2 k)) (fun x hx => if_neg hx) (fun x hx => if_pos hx)
  have hb' : b < (forbidArc q F).d0 := hb
  rw [getD_rows hb, getElem_rows hb']
  have k := Gibbs.mask_inf (labS mr q lengths b) (LabAvoids (F b)) _
    (fun t ht => (hs t).1 ((labAvoids_iff _ _).1 ht)) (fun t ht => (hs t).2 fun h => ht ((labAvoids_iff _ _).2 h))
  exact ⟨fun hA => congrArg some (k.1 hA), fun hA => congrArg some (k.2 hA)⟩

/-! ### `LinearChainCRF` -/

/-- The sequence has none of the forbidden edges. -/
def TagsAvoid {m C : ℕ} (F : ℕ → ℕ → ℕ → Prop) (y : Tags m C) : Prop := ∀ n (i j : Fin C), UsesEdge y n i j → ¬ F n i j

theorem tagsAvoid_iff {m C : ℕ} (F : ℕ → ℕ → ℕ → Prop) (y : Tags m C) : TagsAvoid F y ↔ ∀ n : Fin m, ¬ F n (y n.succ) (y n.castSucc) := by
  constructor
  · intro h n
    exact h n _ _ ⟨n.2, rfl, rfl⟩
  · rintro h n i j ⟨hn, rfl, rfl⟩
    exact h ⟨n, hn⟩

theorem chain_score (p : T4 ℝ) (F : ℕ → ℕ → ℕ → ℕ → Prop) {c : ℝ} (hc : 0 ≤ c) (b : ℕ) {m : ℕ} (y : Tags m p.d2) :
    (TagsAvoid (F b) y → seqScore (LinearChain.row (mask4 p F c) b) y = seqScore (LinearChain.row p b) y) ∧
    (¬ TagsAvoid (F b) y → seqScore (LinearChain.row (mask4 p F c) b) y ≤ seqScore (LinearChain.row p b) y - c) := by
  rw [tagsAvoid_iff]
  exact sum_mask (fun n : Fin m => LinearChain.row p b n (y n.succ) (y n.castSucc)) (fun n => LinearChain.row (mask4 p F c) b n (y n.succ) (y n.castSucc))
    (fun n => F b n (y n.succ) (y n.castSucc)) hc (fun x hx => if_neg hx) (fun x hx => if_pos hx)

/-- **C91, `LinearChainCRF`**, with the errors of the stand-in `-1e5` of the two calls. -/
theorem chain_condition (p : T4 ℝ) (lengths : Option (List ℕ)) (h : LinearChain.Valid p lengths) {m : ℝ} (hm : LinearChain.LowerBound p lengths m)
    (F : ℕ → ℕ → ℕ → ℕ → Prop) (c : ℝ) (hc : 0 ≤ c) :
    ∃ us vs μ, Dist.partition LinearChain.algo p lengths = .ok us ∧ Dist.partition LinearChain.algo (mask4 p F c) lengths = .ok vs ∧
      Dist.marginals LinearChain.algo (mask4 p F c) lengths = .ok μ ∧ ∀ b < p.d0, (∃ y : Tags (LinearChain.numEdges p lengths b) p.d2, TagsAvoid (F b) y) →
        let s : Tags (LinearChain.numEdges p lengths b) p.d2 → ℝ := seqScore (LinearChain.row p b)
        let P := Gibbs.probOf s (TagsAvoid (F b))
        us.getD b 0 + Real.log P - LinearChain.err p lengths (-100000) m b ≤ vs.getD b 0 ∧
        vs.getD b 0 ≤ us.getD b 0 + Real.log P + Real.exp (-c) * (1 - P) / P + LinearChain.err p lengths (-100000) (m - c) b ∧
        ∀ n < p.d1, ∀ i j : Fin p.d2, |μ [b, n, i, j] - Gibbs.condProb s (TagsAvoid (F b)) (fun y => UsesEdge y n i j)| ≤
          Real.exp (-c) * (1 - P) / P + LinearChain.err p lengths (-100000) (m - c) b := by
  have h' : LinearChain.Valid (mask4 p F c) lengths := ⟨h.square, h.edges, h.classes, h.lens⟩
  have hm' : LinearChain.LowerBound (mask4 p F c) lengths (m - c) := by
    intro b hb n hn i j
    have := hm b hb n hn i j
    simp only [LinearChain.row, mask4] at this ⊢
    split_ifs <;> linarith
  obtain ⟨us, u1, u2, u3⟩ := LinearChain.partition_bounds p lengths h m hm
  obtain ⟨vs, v1, v2, v3⟩ := LinearChain.partition_bounds (mask4 p F c) lengths h' (m - c) hm'
  obtain ⟨μ, h1, h2⟩ := LinearChain.marginals_spec (mask4 p F c) lengths h' (m - c) hm'
  refine ⟨us, vs, μ, u1, v1, h1, fun b hb hA => ?_⟩
  have hs := fun y : Tags (LinearChain.numEdges p lengths b) p.d2 => chain_score p F hc b y
  have k1 := Gibbs.mask_Z (fun t => (hs t).1) (fun t => (hs t).2) hA
  have v2 : vs.length = p.d0 := v2
  have a1 : Real.log (Gibbs.Z (fun y : Tags (LinearChain.numEdges p lengths b) p.d2 => seqScore (LinearChain.row p b) y)) ≤ us[b] ∧
    us[b] ≤ Real.log (Gibbs.Z (fun y : Tags (LinearChain.numEdges p lengths b) p.d2 => seqScore (LinearChain.row p b) y)) +
      LinearChain.err p lengths (-100000) m b := u3 b (by omega)
  have a2 : Real.log (Gibbs.Z (fun y : Tags (LinearChain.numEdges p lengths b) p.d2 => seqScore (LinearChain.row (mask4 p F c) b) y)) ≤ vs[b] ∧
    vs[b] ≤ Real.log (Gibbs.Z (fun y : Tags (LinearChain.numEdges p lengths b) p.d2 => seqScore (LinearChain.row (mask4 p F c) b) y)) +
      LinearChain.err p lengths (-100000) (m - c) b := v3 b (by omega)
  rw [List.getD_eq_getElem _ _ (by omega : b < us.length), List.getD_eq_getElem _ _ (by omega : b < vs.length)]
  simp only [Gibbs.rest] at k1
  refine ⟨?_, ?_, fun n hn i j => ?_⟩
  · linarith [a1.2, a2.1, k1.1]
  · linarith [a1.1, a2.2, k1.2]
  · have k2 := Gibbs.mask_prob (fun t => (hs t).1) (fun t => (hs t).2) hA fun y => UsesEdge y n i j
    have k3 := (h2 b hb n hn i j).2.2
    have e : edgeProb (LinearChain.numEdges (mask4 p F c) lengths b) (LinearChain.row (mask4 p F c) b) n i j =
      ∑ y : Tags (LinearChain.numEdges p lengths b) p.d2, if UsesEdge y n i j then Gibbs.prob (seqScore (LinearChain.row (mask4 p F c) b)) y else 0 := rfl
    rw [e] at k3
    refine le_of_le_of_eq ?_ (add_comm _ _)
    exact (abs_sub_le _ _ _).trans (add_le_add k3 k2)

/-! ### `SemiMarkovCRF` -/

open Classical in
/-- The potentials of the segments in `F` are lowered by `c`. -/
def mask5 (p : T5 ℝ) (F : ℕ → ℕ → ℕ → ℕ → ℕ → Prop) (c : ℝ) : T5 ℝ :=
  { p with get := fun b n k i j => if F b n k i j then p.get b n k i j - c else p.get b n k i j }

/-- The segmentation has none of the forbidden segments. -/
def SegAvoids {K C L : ℕ} (F : ℕ → ℕ → ℕ → ℕ → Prop) (y : Segmentation K C L) : Prop := ∀ s ∈ segEdges 0 y.1 y.2.1, ¬ F s.1 s.2.1 s.2.2.1 s.2.2.2

theorem seg_score (p : T5 ℝ) (F : ℕ → ℕ → ℕ → ℕ → ℕ → Prop) {c : ℝ} (hc : 0 ≤ c) (b : ℕ) {L : ℕ} (y : Segmentation p.d2 p.d3 L) :
    (SegAvoids (F b) y → segScore (SemiMarkov.row (mask5 p F c) b) y = segScore (SemiMarkov.row p b) y) ∧
    (¬ SegAvoids (F b) y → segScore (SemiMarkov.row (mask5 p F c) b) y ≤ segScore (SemiMarkov.row p b) y - c) :=
  list_mask (segEdges 0 y.1 y.2.1) (fun s => SemiMarkov.row p b s.1 s.2.1 s.2.2.1 s.2.2.2) (fun s => SemiMarkov.row (mask5 p F c) b s.1 s.2.1 s.2.2.1 s.2.2.2)
    (fun s => F b s.1 s.2.1 s.2.2.1 s.2.2.2) hc (fun x hx => if_neg hx) (fun x hx => if_pos hx)

open Classical in
/-- **C91, `SemiMarkovCRF`**, with the errors of the stand-in `-1e5` of the two calls. -/
theorem semi_condition (p : T5 ℝ) (lengths : Option (List ℕ)) (h : SemiMarkov.Valid p lengths) {B : ℝ} (hB : SemiMarkov.Bounded p lengths B)
    (F : ℕ → ℕ → ℕ → ℕ → ℕ → Prop) (c : ℝ) (hc : 0 ≤ c) :
    ∃ us vs μ, Dist.partition SemiMarkov.algo p lengths = .ok us ∧ Dist.partition SemiMarkov.algo (mask5 p F c) lengths = .ok vs ∧
      Dist.marginals SemiMarkov.algo (mask5 p F c) lengths = .ok μ ∧ ∀ b < p.d0, (∃ y : SemiMarkov.Seg p lengths b, SegAvoids (F b) y) →
        let s : SemiMarkov.Seg p lengths b → ℝ := segScore (SemiMarkov.row p b)
        let P := Gibbs.probOf s (SegAvoids (F b))
        us.getD b 0 + Real.log P - SemiMarkov.err p lengths B b ≤ vs.getD b 0 ∧
        vs.getD b 0 ≤ us.getD b 0 + Real.log P + Real.exp (-c) * (1 - P) / P + SemiMarkov.err p lengths (B + c) b ∧
        ∀ n k (i j : Fin p.d3), |μ [b, n, k, i, j] - Gibbs.condProb s (SegAvoids (F b)) (fun y => (n, k, i, j) ∈ segEdges 0 y.1 y.2.1)| ≤
          Real.exp (-c) * (1 - P) / P + SemiMarkov.err p lengths (B + c) b := by
  have h' : SemiMarkov.Valid (mask5 p F c) lengths := by
    obtain ⟨a1, a2, a3, a4, a5, a6⟩ := h
    exact ⟨a1, a2, a3, a4, a5, a6⟩
  have hB' : SemiMarkov.Bounded (mask5 p F c) lengths (B + c) := ⟨add_nonneg hB.nonneg hc, fun b hb n k i j h1 h2 h3 h4 h5 => by
    have := hB.bound b hb n k i j h1 h2 h3 h4 h5
    rw [abs_le] at this ⊢
    simp only [mask5]
    split_ifs <;> constructor <;> linarith⟩
  obtain ⟨us, u1, u2, u3⟩ := SemiMarkov.partition_spec p lengths h hB
  obtain ⟨vs, v1, v2, v3⟩ := SemiMarkov.partition_spec (mask5 p F c) lengths h' hB'
  obtain ⟨μ, h1, h2⟩ := SemiMarkov.marginals_spec (mask5 p F c) lengths h' hB'
  refine ⟨us, vs, μ, u1, v1, h1, fun b hb hA => ?_⟩
  have hs := fun y : SemiMarkov.Seg p lengths b => seg_score p F hc b y
  have k1 := Gibbs.mask_Z (fun t => (hs t).1) (fun t => (hs t).2) hA
  have v2 : vs.length = p.d0 := v2
  have a1 : Real.log (Gibbs.Z (fun y : SemiMarkov.Seg p lengths b => segScore (SemiMarkov.row p b) y)) ≤ us[b] ∧
    us[b] ≤ Real.log (Gibbs.Z (fun y : SemiMarkov.Seg p lengths b => segScore (SemiMarkov.row p b) y)) +
      SemiMarkov.err p lengths B b := u3 b (by omega)
  have a2 : Real.log (Gibbs.Z (fun y : SemiMarkov.Seg p lengths b => segScore (SemiMarkov.row (mask5 p F c) b) y)) ≤ vs[b] ∧
    vs[b] ≤ Real.log (Gibbs.Z (fun y : SemiMarkov.Seg p lengths b => segScore (SemiMarkov.row (mask5 p F c) b) y)) +
      SemiMarkov.err p lengths (B + c) b := v3 b (by omega)
  rw [List.getD_eq_getElem _ _ (by omega : b < us.length), List.getD_eq_getElem _ _ (by omega : b < vs.length)]
  simp only [Gibbs.rest] at k1
  refine ⟨?_, ?_, fun n k i j => ?_⟩
  · linarith [a1.2, a2.1, k1.1]
  · linarith [a1.1, a2.2, k1.2]
  · have k2 := Gibbs.mask_prob (fun t => (hs t).1) (fun t => (hs t).2) hA fun y => (n, k, i, j) ∈ segEdges 0 y.1 y.2.1
    have k3 := h2 b hb n k i j
    have e : SemiMarkov.segProb (K := (mask5 p F c).d2) (SemiMarkov.row (mask5 p F c) b) (SemiMarkov.steps (mask5 p F c) lengths b) n k i j =
      ∑ y : SemiMarkov.Seg p lengths b, if (n, k, i, j) ∈ segEdges 0 y.1 y.2.1 then Gibbs.prob (segScore (SemiMarkov.row (mask5 p F c) b)) y else 0 :=
      sum_congr rfl fun y _ => by congr
    have k3 := (congrArg (fun x => |μ [b, n, k, i, j] - x|) e).symm.trans_le k3
    refine le_of_le_of_eq ?_ (add_comm _ _)
    exact (abs_sub_le _ _ _).trans (add_le_add k3 k2)

/-! ### `SentCFG` -/

/-- What is forbidden in a grammar: preterminals at a position, rules, and roots. -/
structure Banned where
  term : ℕ → ℕ → ℕ → Prop
  rule : ℕ → ℕ → ℕ → ℕ → Prop
  root : ℕ → ℕ → Prop

open Classical in
/-- The scores of what is forbidden are lowered by `c`. -/
def maskCfg (p : CKY.Scores ℝ) (F : Banned) (c : ℝ) : CKY.Scores ℝ :=
  { p with
    term := fun b n t => if F.term b n t then p.term b n t - c else p.term b n t
    rule := fun b x y z => if F.rule b x y z then p.rule b x y z - c else p.rule b x y z
    root := fun b x => if F.root b x then p.root b x - c else p.root b x }

/-- The derivation uses nothing that is forbidden. -/
def DerivAvoids (F : Banned) (b : ℕ) {NT T : ℕ} (d : Deriv NT T) : Prop :=
  ¬ F.root b d.sym ∧ (∀ x ∈ d.rules, ¬ F.rule b x.1 x.2.1 x.2.2) ∧ ∀ x ∈ d.words 0, ¬ F.term b x.1 x.2

theorem three_masks {x y z x' y' z' c : ℝ} (hc : 0 ≤ c) {A1 A2 A3 : Prop} (r : (A1 → x' = x) ∧ (¬ A1 → x' ≤ x - c))
    (q : (A2 → y' = y) ∧ (¬ A2 → y' ≤ y - c)) (w : (A3 → z' = z) ∧ (¬ A3 → z' ≤ z - c)) :
    (A1 ∧ A2 ∧ A3 → x' + (y' + z') = x + (y + z)) ∧ (¬ (A1 ∧ A2 ∧ A3) → x' + (y' + z') ≤ x + (y + z) - c) := by
  constructor
  · rintro ⟨a1, a2, a3⟩
    rw [r.1 a1, q.1 a2, w.1 a3]
  · intro h
    have hx : x' ≤ x := (Classical.em A1).elim (fun a => (r.1 a).le) fun a => (r.2 a).trans (by linarith)
    have hy : y' ≤ y := (Classical.em A2).elim (fun a => (q.1 a).le) fun a => (q.2 a).trans (by linarith)
    have hz : z' ≤ z := (Classical.em A3).elim (fun a => (w.1 a).le) fun a => (w.2 a).trans (by linarith)
    by_cases a1 : A1
    · by_cases a2 : A2
      · by_cases a3 : A3
        · exact absurd ⟨a1, a2, a3⟩ h
        · linarith [w.2 a3]
      · linarith [q.2 a2]
    · linarith [r.2 a1]

theorem deriv_score (p : CKY.Scores ℝ) (F : Banned) {c : ℝ} (hc : 0 ≤ c) (b : ℕ) {L : ℕ} (d : Derivs p.NT p.T L) :
    (DerivAvoids F b d.1 → SentCFG.dscore (maskCfg p F c) b d = SentCFG.dscore p b d) ∧
    (¬ DerivAvoids F b d.1 → SentCFG.dscore (maskCfg p F c) b d ≤ SentCFG.dscore p b d - c) := by
  have r := list_mask [d.1.sym] (fun x => p.root b x) (fun x => (maskCfg p F c).root b x) (fun x => F.root b x) hc (fun x hx => if_neg hx) (fun x hx => if_pos hx)
  have q := list_mask d.1.rules (fun x => p.rule b x.1 x.2.1 x.2.2) (fun x => (maskCfg p F c).rule b x.1 x.2.1 x.2.2) (fun x => F.rule b x.1 x.2.1 x.2.2) hc
    (fun x hx => if_neg hx) (fun x hx => if_pos hx)
  have w := list_mask (d.1.words 0) (fun x => p.term b x.1 x.2) (fun x => (maskCfg p F c).term b x.1 x.2) (fun x => F.term b x.1 x.2) hc
    (fun x hx => if_neg hx) (fun x hx => if_pos hx)
  simp only [List.mem_singleton, forall_eq, List.map_cons, List.map_nil, List.sum_singleton] at r
  exact three_masks hc r q w

open Classical in
/-- **C91, `SentCFG`**, with the errors of the stand-in `-1e5` of the two calls. -/
theorem grammar_condition (p : CKY.Scores ℝ) (lengths : Option (List ℕ)) (h : SentCFG.Valid p lengths) (hl : SentCFG.Long p lengths) {B : ℝ}
    (hB : SentCFG.Bounded p lengths B) (F : Banned) (c : ℝ) (hc : 0 ≤ c) :
    ∃ us vs μ, Dist.partition CKY.algo p lengths = .ok us ∧ Dist.partition CKY.algo (maskCfg p F c) lengths = .ok vs ∧
      CKY.marginals (maskCfg p F c) lengths = .ok μ ∧ ∀ b < p.batch, (∃ d : SentCFG.Der p lengths b, DerivAvoids F b d.1) →
        let s : SentCFG.Der p lengths b → ℝ := SentCFG.dscore p b
        let A : SentCFG.Der p lengths b → Prop := fun d => DerivAvoids F b d.1
        let P := Gibbs.probOf s A
        let ε := (Real.exp (-c) * (1 - P) / P + SentCFG.err p lengths (B + c) b) * (3 * p.N)
        us.getD b 0 + Real.log P - SentCFG.err p lengths B b ≤ vs.getD b 0 ∧
        vs.getD b 0 ≤ us.getD b 0 + Real.log P + Real.exp (-c) * (1 - P) / P + SentCFG.err p lengths (B + c) b ∧
        (∀ n t, |μ.term b n t - Gibbs.condExpect s A fun d => ((d.1.words 0).count (n, t) : ℝ)| ≤ ε) ∧
        (∀ X y z, |μ.rule b X y z - Gibbs.condExpect s A fun d => (d.1.rules.count (X, y, z) : ℝ)| ≤ ε) ∧
        (∀ X, |μ.root b X - Gibbs.condExpect s A fun d => if d.1.sym = X then 1 else 0| ≤ ε) ∧
        (∀ w i X, |μ.spans b w i X - Gibbs.condExpect s A fun d => ((d.1.spans 0).count (i, i + w + 1, X) : ℝ)| ≤ ε) := by
  have h' : SentCFG.Valid (maskCfg p F c) lengths := ⟨h.symbols, h.nonterminals, h.preterminals, h.rows, h.words, h.lens, h.plain⟩
  have hl' : SentCFG.Long (maskCfg p F c) lengths := hl
  have aux : ∀ {x : ℝ} (P : Prop) [Decidable P], |x| ≤ B → |if P then x - c else x| ≤ B + c := by
    intro x P _ hx
    rw [abs_le] at hx ⊢
    split_ifs <;> constructor <;> linarith
  have hB' : SentCFG.Bounded (maskCfg p F c) lengths (B + c) := ⟨add_nonneg hB.nonneg hc, fun b hb n hn t ht => aux _ (hB.term b hb n hn t ht),
    fun b hb x hx y hy z hz => aux _ (hB.rule b hb x hx y hy z hz), fun b hb x hx => aux _ (hB.root b hb x hx)⟩
  obtain ⟨us, u1, u2, u3⟩ := SentCFG.partition_spec p lengths h hl hB
  obtain ⟨vs, v1, v2, v3⟩ := SentCFG.partition_spec (maskCfg p F c) lengths h' hl' hB'
  obtain ⟨μ, h1, h2⟩ := SentCFG.marginals_spec (maskCfg p F c) lengths h' hl' hB'
  refine ⟨us, vs, μ, u1, v1, h1, fun b hb hA => ?_⟩
  have hs := fun d : SentCFG.Der p lengths b => deriv_score p F hc b d
  have k1 := Gibbs.mask_Z (fun t => (hs t).1) (fun t => (hs t).2) hA
  have v2 : vs.length = p.batch := v2
  have a1 : Real.log (Gibbs.Z (fun y : SentCFG.Der p lengths b => SentCFG.dscore p b y)) ≤ us[b] ∧
    us[b] ≤ Real.log (Gibbs.Z (fun y : SentCFG.Der p lengths b => SentCFG.dscore p b y)) + SentCFG.err p lengths B b := u3 b (by omega)
  have a2 : Real.log (Gibbs.Z (fun y : SentCFG.Der p lengths b => SentCFG.dscore (maskCfg p F c) b y)) ≤ vs[b] ∧
    vs[b] ≤ Real.log (Gibbs.Z (fun y : SentCFG.Der p lengths b => SentCFG.dscore (maskCfg p F c) b y)) + SentCFG.err p lengths (B + c) b := v3 b (by omega)
  rw [List.getD_eq_getElem _ _ (by omega : b < us.length), List.getD_eq_getElem _ _ (by omega : b < vs.length)]
  simp only [Gibbs.rest] at k1
  have key : ∀ (x : ℝ) (f : Deriv p.NT p.T → ℕ), (∀ d : SentCFG.Der p lengths b, f d.1 ≤ 3 * p.N) →
      |x - SentCFG.expected (maskCfg p F c) lengths b f| ≤ SentCFG.err (maskCfg p F c) lengths (B + c) b * (3 * p.N) →
      |x - Gibbs.condExpect (SentCFG.dscore p b) (fun d : SentCFG.Der p lengths b => DerivAvoids F b d.1) fun d => (f d.1 : ℝ)| ≤
        (Real.exp (-c) * (1 - Gibbs.probOf (SentCFG.dscore p b) (fun d : SentCFG.Der p lengths b => DerivAvoids F b d.1)) /
          Gibbs.probOf (SentCFG.dscore p b) (fun d : SentCFG.Der p lengths b => DerivAvoids F b d.1) + SentCFG.err p lengths (B + c) b) * (3 * p.N) := by
    intro x f hf hx
    have k2 := Gibbs.mask_expect (fun t => (hs t).1) (fun t => (hs t).2) hA (fun d : SentCFG.Der p lengths b => (f d.1 : ℝ)) (M := 3 * p.N)
      (fun d => ⟨Nat.cast_nonneg _, by exact_mod_cast hf d⟩)
    have e : Gibbs.expect (fun d : SentCFG.Der p lengths b => SentCFG.dscore (maskCfg p F c) b d) (fun d => (f d.1 : ℝ)) =
      SentCFG.expected (maskCfg p F c) lengths b f := rfl
    refine ((abs_sub_le _ _ _).trans (add_le_add hx (le_of_eq_of_le (by rw [← e]) k2))).trans_eq ?_
    have e2 : SentCFG.err (maskCfg p F c) lengths (B + c) b = SentCFG.err p lengths (B + c) b := rfl
    rw [e2, Gibbs.rest]
    ring
  have hlen : ∀ d : SentCFG.Der p lengths b, d.1.size ≤ p.N := fun d => by
    have e : d.1.size = SentCFG.len p lengths b := d.2.1
    rw [e]
    exact SentCFG.len_le h b hb
  refine ⟨?_, ?_, fun n t => ?_, fun X y z => ?_, fun X => ?_, fun w i X => ?_⟩
  · linarith [a1.2, a2.1, k1.1]
  · linarith [a1.1, a2.2, k1.2]
  · refine key _ (fun d => (d.words 0).count (n, t)) (fun d => ?_) ((h2 b hb).1 n t)
    have := (List.count_le_length (a := (n, t)) (l := d.1.words 0))
    rw [SentCFG.words_length] at this
    have := hlen d; omega
  · refine key _ (fun d => d.rules.count (X, y, z)) (fun d => ?_) ((h2 b hb).2.1 X y z)
    have := (List.count_le_length (a := (X, y, z)) (l := d.1.rules))
    rw [SentCFG.rules_length] at this
    have := hlen d; omega
  · have := key _ (fun d => if d.sym = X then 1 else 0) (fun d => ?_) ((h2 b hb).2.2.1 X)
    · refine Eq.trans_le ?_ this
      congr 3
      funext d
      push_cast
      rfl
    · have := h.words
      split_ifs <;> omega
  · refine key _ (fun d => (d.spans 0).count (i, i + w + 1, X)) (fun d => ?_) ((h2 b hb).2.2.2 w i X)
    have := (List.count_le_length (a := (i, i + w + 1, X)) (l := d.1.spans 0))
    rw [SentCFG.spans_length] at this
    have := hlen d; omega

/-- The hypotheses are met: tag 0 throughout avoids every edge into tag 1. -/
example (b : ℕ) : ∃ y : Tags (LinearChain.numEdges LinearChain.sample (some [3, 2]) b) LinearChain.sample.d2, TagsAvoid (fun _ i _ => i = 1) y := by
  refine ⟨fun _ => ⟨0, by decide⟩, ?_⟩
  rintro n i j ⟨h1, h2, h3⟩
  rw [← h2]
  exact Nat.zero_ne_one

/-- The hypotheses are met: three segments of length 1 avoid every segment of length 2. -/
example : ∃ y : SemiMarkov.Seg SemiMarkov.sample (some [4, 3]) 0, SegAvoids (fun _ k _ _ => k = 2) y := by
  refine ⟨⟨⟨0, by decide⟩, ⟨[(1, ⟨0, by decide⟩), (1, ⟨0, by decide⟩), (1, ⟨0, by decide⟩)], ?_, ?_⟩⟩, ?_⟩
  · decide
  · decide
  · intro s hs h
    have h : s.2.1 = 2 := h
    simp only [segEdges, List.mem_cons, List.not_mem_nil, or_false] at hs
    rcases hs with rfl | rfl | rfl <;> simp at h

end Props.Conditional
