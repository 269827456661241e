import Mathlib.Tactic.FinCases
import Verif.Proofs.InfEntropy
import Verif.Props.InfArgmax

/-! C120: `entropy`, `kl` and `cross_entropy` with potentials `-inf`.

Forbidden parts have potential `-inf`.  The expectation in these semirings multiplies the log-probability `-inf` of a forbidden part by its probability 0: `-inf * 0` is NaN.  So
`entropy` is NaN as soon as one structure uses a forbidden part, even though the distribution over the allowed structures has a finite entropy; and `kl` and `cross_entropy`
are NaN when a part is forbidden in both models, which is what a shared hard constraint is.  Where no part of a row is forbidden, the row is not affected. -/

open Finset Spec Generic InfEntropy
open Props.Conditional (TagsAvoid tagsAvoid_iff forbid4 forbidArc TreeAvoids DepAvoids LabAvoids SegAvoids DerivAvoids Banned depAvoids_iff labAvoids_iff)
open Props.SemiInfinity (forbid5)
open Props.CFGInfinity (forbidCfg)

noncomputable section
namespace Props.InfEntropy

/-- What happens to the results `vs` of a call, where `us` are those without forbidden parts: a row is NaN if `Spoilt`, and the same if `Clean`. -/
def Verdict (rows : ℕ) (vs : List IEEE) (us : List ℝ) (Spoilt Clean : ℕ → Prop) : Prop :=
  vs.length = rows ∧ us.length = rows ∧ ∀ b < rows, (Spoilt b → vs[b]? = some IEEE.nan) ∧ (Clean b → vs[b]? = us[b]?.map IEEE.ofReal)

theorem verdict_rows {X Y : Type} (rows : ℕ) (f : ℕ → X) (g : ℕ → Y) (u : X → IEEE) (v : Y → ℝ) {Spoilt Clean : ℕ → Prop}
    (h : ∀ b < rows, (Spoilt b → u (f b) = IEEE.nan) ∧ (Clean b → u (f b) = .ofReal (v (g b)))) :
    Verdict rows (((List.range rows).map f).map u) (((List.range rows).map g).map v) Spoilt Clean := by
  refine ⟨by simp, by simp, fun b hb => ?_⟩
  rw [List.getElem?_map, List.getElem?_map, List.getElem?_range hb, List.getElem?_map, List.getElem?_map, List.getElem?_range hb]
  exact ⟨fun hs => congrArg some ((h b hb).1 hs), fun hc => congrArg some ((h b hb).2 hc)⟩

/-! ### `TreeCRF` -/

theorem at4_forbid (p : T4 ℝ) (F : ℕ → ℕ → ℕ → ℕ → Prop) (b i j a : ℕ) :
    (F b i j a → CKYCRFProofs.at4 (forbid4 p F) [b, i, j, a] = ⊥) ∧ (¬ F b i j a → CKYCRFProofs.at4 (forbid4 p F) [b, i, j, a] = (p.get b i j a : ℝ)) :=
  ⟨fun h => if_pos h, fun h => if_neg h⟩

theorem tree_bad (p : T4 ℝ) (F : ℕ → ℕ → ℕ → ℕ → Prop) (b : ℕ) {n : ℕ} (t : Trees p.d3 n) :
    (¬ TreeAvoids (F b) t → ∃ e ∈ CKYCRFProofs.treeParts b t, CKYCRFProofs.at4 (forbid4 p F) e = ⊥) ∧
    (TreeAvoids (F b) t → ∀ e ∈ CKYCRFProofs.treeParts b t, CKYCRFProofs.at4 (forbid4 p F) e ≠ ⊥) := by
  constructor
  · intro h
    simp only [TreeAvoids, not_forall, not_not] at h
    obtain ⟨i, j, a, hm, hF⟩ := h
    exact ⟨[b, i, j, a], List.mem_map.2 ⟨_, hm, rfl⟩, (at4_forbid p F b i j a).1 hF⟩
  · intro h e he
    obtain ⟨⟨i, j, a⟩, hm, rfl⟩ := List.mem_map.1 he
    rw [(at4_forbid p F b i j a).2 (h i j a hm)]
    exact EReal.coe_ne_bot _

/-- **C120, `TreeCRF.entropy`.** -/
theorem tree_entropy (p : T4 ℝ) (lengths : Option (List ℕ)) (h : TreeCRF.Valid p lengths) (F : ℕ → ℕ → ℕ → ℕ → Prop) :
    ∃ vs us, Dist.entropyE CKYCRF.algo (forbid4 p F) lengths = .ok vs ∧ Dist.entropy CKYCRF.algo p lengths = .ok us ∧ Verdict p.d0 vs us
      (fun b => (∃ t : Trees p.d3 (TreeCRF.len p lengths b), ¬ TreeAvoids (F b) t) ∧ ∃ t : Trees p.d3 (TreeCRF.len p lengths b), TreeAvoids (F b) t)
      (fun b => ∀ i j a, i ≤ j → j < TreeCRF.len p lengths b → a < p.d3 → ¬ F b i j a) := by
  obtain ⟨vs, us, h1, h2, h3, h4, h5⟩ := (CKYCRFProofs.batchDP (forbid4 p F) lengths ⟨h.square, h.words, h.labels, h.lens⟩).entropy_both
    (CKYCRFProofs.batchDP p lengths h)
  refine ⟨vs, us, h1, h2, h3, h4, fun b hb => ⟨?_, fun hc => (h5 b hb).2 ?_⟩⟩
  · rintro ⟨⟨t, ht⟩, t', ht'⟩
    exact (h5 b hb).1 ⟨t, (tree_bad p F b t).1 ht⟩ ⟨t', (tree_bad p F b t').2 ht'⟩
  · rintro e ⟨i, j, a, rfl, h6, h7, h8⟩
    exact (at4_forbid p F b i j a).2 (hc i j a h6 h7 h8)

/-! ### `DependencyCRF` -/

theorem atQ_forbid (neg : EReal) (q : DepTree.Arcs ℝ) (F : ℕ → ℕ → ℕ → ℕ → Prop) (e : List ℕ) (he : e ≠ []) :
    (F (e.getD 0 0) (e.getD 1 0) (e.getD 2 0) (e.getD 3 0) → DepTreeProofs.atQ neg (forbidArc q F) e = ⊥) ∧
    (¬ F (e.getD 0 0) (e.getD 1 0) (e.getD 2 0) (e.getD 3 0) →
      DepTreeProofs.atQ neg (forbidArc q F) e = (q.get (e.getD 0 0) (e.getD 1 0) (e.getD 2 0) (e.getD 3 0) : ℝ)) := by
  unfold DepTreeProofs.atQ
  rw [if_neg he]
  exact ⟨fun h => if_pos h, fun h => if_neg h⟩

theorem cell_lt {h k n : ℕ} (hh : h ≤ n) (hk : k < n) : (arcCell h k).1 < n ∧ (arcCell h k).2 < n := by
  unfold arcCell
  split_ifs <;> constructor <;> dsimp only <;> omega

theorem dep_bad (mr : Bool) (neg : EReal) (q : DepTree.Arcs ℝ) (F : ℕ → ℕ → ℕ → ℕ → Prop) (b : ℕ) {n : ℕ} (t : ProjTrees mr n) :
    (¬ DepAvoids (F b) t → ∃ e ∈ DepTreeProofs.depParts b t, DepTreeProofs.atQ neg (forbidArc q F) e = ⊥) ∧
    (DepAvoids (F b) t → ∀ e ∈ DepTreeProofs.depParts b t, DepTreeProofs.atQ neg (forbidArc q F) e ≠ ⊥) := by
  rw [depAvoids_iff]
  constructor
  · intro h
    simp only [not_forall, not_not] at h
    obtain ⟨k, hF⟩ := h
    exact ⟨_, Multiset.mem_map.2 ⟨k, mem_univ k, rfl⟩, (atQ_forbid neg q F _ (by simp)).1 hF⟩
  · intro h e he
    obtain ⟨k, -, rfl⟩ := Multiset.mem_map.1 he
    refine ne_of_eq_of_ne ((atQ_forbid neg q F _ (by simp)).2 (h k)) ?_
    exact EReal.coe_ne_bot _

/-- **C120, `DependencyCRF.entropy` without labels.** -/
theorem dependency_entropy (mr : Bool) (q : DepTree.Arcs ℝ) (lengths : Option (List ℕ)) (h : Dependency.Valid mr q lengths) (F : ℕ → ℕ → ℕ → ℕ → Prop) :
    ∃ vs us, DepTree.entropyE mr (forbidArc q F) lengths = .ok vs ∧ DepTree.entropy mr q lengths = .ok us ∧ Verdict q.d0 vs us
      (fun b => (∃ t : ProjTrees mr (Dependency.len q lengths b), ¬ DepAvoids (F b) t) ∧ ∃ t : ProjTrees mr (Dependency.len q lengths b), DepAvoids (F b) t)
      (fun b => ∀ i < Dependency.len q lengths b, ∀ j < Dependency.len q lengths b, ¬ F b i j 0) := by
  have h' : Dependency.Valid mr (forbidArc q F) lengths := by
    obtain ⟨a1, a2, a3, a4, a5⟩ := h
    exact ⟨a1, a2, a3, a4, a5⟩
  rw [DepTree.entropyE, DepTree.entropy, Dependency.conv_eq _ h', Dependency.conv_eq _ h]
  obtain ⟨vs, us, h1, h2, h3, h4, h5⟩ := (DepTreeProofs.batchDP3 mr ((DepTree.negBig : ℝ) : EReal) (forbidArc q F) lengths h'.toValid h'.rank).entropy_both
    (DepTreeProofs.batchDP3 mr DepTree.negBig q lengths h.toValid h.rank)
  refine ⟨vs, us, h1, h2, h3, h4, fun b hb => ⟨?_, fun hc => (h5 b hb).2 ?_⟩⟩
  · rintro ⟨⟨t, ht⟩, t', ht'⟩
    exact (h5 b hb).1 ⟨t, (dep_bad mr _ q F b t).1 ht⟩ ⟨t', (dep_bad mr _ q F b t').2 ht'⟩
  · rintro e ⟨x, k, l, rfl, h6, h7, -, h8⟩
    have hl : l = 0 := by
      rw [DepTreeProofs.labels_one h'.rank] at h8
      omega
    subst hl
    have hne : DepTreeProofs.cellTag (decide (forbidArc q F).labeled) b (arcCell x k).1 (arcCell x k).2 0 ≠ [] := by
      unfold DepTreeProofs.cellTag
      split_ifs <;> simp
    have hget : ∀ m : Bool, (DepTreeProofs.cellTag m b (arcCell x k).1 (arcCell x k).2 0).getD 0 0 = b ∧
        (DepTreeProofs.cellTag m b (arcCell x k).1 (arcCell x k).2 0).getD 1 0 = (arcCell x k).1 ∧
        (DepTreeProofs.cellTag m b (arcCell x k).1 (arcCell x k).2 0).getD 2 0 = (arcCell x k).2 ∧
        (DepTreeProofs.cellTag m b (arcCell x k).1 (arcCell x k).2 0).getD 3 0 = 0 := by
      intro m
      cases m <;> simp [DepTreeProofs.cellTag]
    have hlt := cell_lt h6 h7
    have hd := (atQ_forbid ((DepTree.negBig : ℝ) : EReal) q F _ hne).2
    rw [DepTreeProofs.atQ, if_neg hne]
    obtain ⟨g1, g2, g3, g4⟩ := hget (decide (forbidArc q F).labeled)
    rw [DepTreeProofs.atQ, if_neg hne, g1, g2, g3, g4] at hd
    rw [DepTreeProofs.atQ, if_neg hne, g1, g2, g3, g4]
    exact hd (hc _ hlt.1 _ hlt.2)

theorem lab_bad (mr : Bool) (neg : EReal) (q : DepTree.Arcs ℝ) (F : ℕ → ℕ → ℕ → ℕ → Prop) (b : ℕ) {n L : ℕ} (t : LabelledTrees mr n L) :
    (¬ LabAvoids (F b) t → ∃ e ∈ DepTreeProofs.labParts true b t, DepTreeProofs.atQ neg (forbidArc q F) e = ⊥) ∧
    (LabAvoids (F b) t → ∀ e ∈ DepTreeProofs.labParts true b t, DepTreeProofs.atQ neg (forbidArc q F) e ≠ ⊥) := by
  rw [labAvoids_iff]
  constructor
  · intro h
    simp only [not_forall, not_not] at h
    obtain ⟨k, hF⟩ := h
    exact ⟨_, Multiset.mem_map.2 ⟨k, mem_univ k, rfl⟩, (atQ_forbid neg q F _ (by simp [DepTreeProofs.cellTag])).1 hF⟩
  · intro h e he
    obtain ⟨k, -, rfl⟩ := Multiset.mem_map.1 he
    refine ne_of_eq_of_ne ((atQ_forbid neg q F _ (by simp [DepTreeProofs.cellTag])).2 (h k)) ?_
    exact EReal.coe_ne_bot _

/-- **C120, `DependencyCRF.entropy` with labels.** -/
theorem labelled_entropy (mr : Bool) (q : DepTree.Arcs ℝ) (lengths : Option (List ℕ)) (h : LabelledDependency.Valid mr q lengths) (F : ℕ → ℕ → ℕ → ℕ → Prop) :
    ∃ vs us, DepTree.entropyE mr (forbidArc q F) lengths = .ok vs ∧ DepTree.entropy mr q lengths = .ok us ∧ Verdict q.d0 vs us
      (fun b => (∃ t : LabelledTrees mr (LabelledDependency.len q lengths b) q.d3, ¬ LabAvoids (F b) t) ∧
        ∃ t : LabelledTrees mr (LabelledDependency.len q lengths b) q.d3, LabAvoids (F b) t)
      (fun b => ∀ i < LabelledDependency.len q lengths b, ∀ j < LabelledDependency.len q lengths b, ∀ l < q.d3, ¬ F b i j l) := by
  have h' : LabelledDependency.Valid mr (forbidArc q F) lengths := by
    obtain ⟨a1, a2, a3, a4, a5, a6⟩ := h
    exact ⟨a1, a2, a3, a4, a5, a6⟩
  rw [DepTree.entropyE, DepTree.entropy, LabelledDependency.conv_eq _ h', LabelledDependency.conv_eq _ h]
  obtain ⟨vs, us, h1, h2, h3, h4, h5⟩ := (DepTreeProofs.batchDP4 mr ((DepTree.negBig : ℝ) : EReal) (forbidArc q F) lengths h'.toValid h'.rank).entropy_both
    (DepTreeProofs.batchDP4 mr DepTree.negBig q lengths h.toValid h.rank)
  refine ⟨vs, us, h1, h2, h3, h4, fun b hb => ⟨?_, fun hc => (h5 b hb).2 ?_⟩⟩
  · rintro ⟨⟨t, ht⟩, t', ht'⟩
    exact (h5 b hb).1 ⟨t, (lab_bad mr _ q F b t).1 ht⟩ ⟨t', (lab_bad mr _ q F b t').2 ht'⟩
  · rintro e ⟨x, k, l, rfl, h6, h7, -, h8⟩
    have hlt := cell_lt h6 h7
    exact (atQ_forbid ((DepTree.negBig : ℝ) : EReal) q F [b, (arcCell x k).1, (arcCell x k).2, l] (by simp)).2 (hc _ hlt.1 _ hlt.2 l h8)

/-! ### `SemiMarkovCRF` -/

theorem at5_forbid (p : T5 ℝ) (F : ℕ → ℕ → ℕ → ℕ → ℕ → Prop) (b n k c c' : ℕ) :
    (F b n k c c' → SemiMarkovProofs.at5 (forbid5 p F) [b, n, k, c, c'] = ⊥) ∧
    (¬ F b n k c c' → SemiMarkovProofs.at5 (forbid5 p F) [b, n, k, c, c'] = (p.get b n k c c' : ℝ)) := ⟨fun h => if_pos h, fun h => if_neg h⟩

theorem seg_bad (p : T5 ℝ) (F : ℕ → ℕ → ℕ → ℕ → ℕ → Prop) (b : ℕ) {K C L : ℕ} (y : Segmentation K C L) :
    (¬ SegAvoids (F b) y → ∃ e ∈ SemiMarkovProofs.segParts b y, SemiMarkovProofs.at5 (forbid5 p F) e = ⊥) ∧
    (SegAvoids (F b) y → ∀ e ∈ SemiMarkovProofs.segParts b y, SemiMarkovProofs.at5 (forbid5 p F) e ≠ ⊥) := by
  constructor
  · intro h
    simp only [SegAvoids, not_forall, not_not] at h
    obtain ⟨s, hm, hF⟩ := h
    exact ⟨_, List.mem_map.2 ⟨s, hm, rfl⟩, (at5_forbid p F b s.1 s.2.1 s.2.2.1 s.2.2.2).1 hF⟩
  · intro h e he
    obtain ⟨s, hm, rfl⟩ := List.mem_map.1 he
    exact ne_of_eq_of_ne ((at5_forbid p F b s.1 s.2.1 s.2.2.1 s.2.2.2).2 (h s hm)) (EReal.coe_ne_bot _)

/-- **C120, `SemiMarkovCRF.entropy`.** -/
theorem semi_entropy (p : T5 ℝ) (lengths : Option (List ℕ)) (h : SemiMarkov.Valid p lengths) (F : ℕ → ℕ → ℕ → ℕ → ℕ → Prop) :
    ∃ vs us, Dist.entropyE SemiMarkov.algo (forbid5 p F) lengths = .ok vs ∧ Dist.entropy SemiMarkov.algo p lengths = .ok us ∧ Verdict p.d0 vs us
      (fun b => (∃ y : SemiMarkov.Seg p lengths b, ¬ SegAvoids (F b) y) ∧ ∃ y : SemiMarkov.Seg p lengths b, SegAvoids (F b) y)
      (fun b => ∀ n < SemiMarkov.steps p lengths b, ∀ k, 1 ≤ k → k < p.d2 → ∀ c < p.d3, ∀ c' < p.d3, ¬ F b n k c c') := by
  have h' : SemiMarkovProofs.Valid (forbid5 p F) lengths := by
    obtain ⟨a1, a2, a3, a4, a5, a6⟩ := h
    exact ⟨a1, a2, a3, a4, a5, a6⟩
  obtain ⟨vs, us, h1, h2, h3, h4, h5⟩ := (SemiMarkovProofs.batchDP (forbid5 p F) lengths h' (InfArgmax.hK' h)).entropy_both
    (SemiMarkovProofs.batchDP p lengths h (InfArgmax.hK' h))
  refine ⟨vs, us, h1, h2, h3, h4, fun b hb => ⟨?_, fun hc => (h5 b hb).2 ?_⟩⟩
  · rintro ⟨⟨t, ht⟩, t', ht'⟩
    exact (h5 b hb).1 ⟨t, (seg_bad p F b t).1 ht⟩ ⟨t', (seg_bad p F b t').2 ht'⟩
  · rintro e ⟨n, k, c, c', rfl, h6, h7, h8⟩
    exact (at5_forbid p F b n k c c').2 (hc n h6 k h7 h8 c c.2 c' c'.2)

/-! ### `SentCFG` -/

theorem deriv_bad (p : CKY.Scores ℝ) (F : Banned) (b : ℕ) {L : ℕ} (d : Derivs p.NT p.T L) :
    (¬ DerivAvoids F b d.1 → ∃ e ∈ CKYProofs.derivParts false b d, CKYProofs.atS (forbidCfg p F) e = ⊥) ∧
    (DerivAvoids F b d.1 → ∀ e ∈ CKYProofs.derivParts false b d, CKYProofs.atS (forbidCfg p F) e ≠ ⊥) := by
  have hm : ∀ e, e ∈ CKYProofs.derivParts false b d ↔ e = [b, 2, (d.1.sym : ℕ)] ∨ (∃ x ∈ d.1.rules, [b, 1, x.1, x.2.1, x.2.2] = e) ∨ ∃ x ∈ d.1.words 0, [b, 0, x.1, x.2] = e := by
    intro e
    simp [CKYProofs.derivParts, CKYProofs.ruleIds, CKYProofs.wordIds]
  constructor
  · intro h
    by_cases a1 : F.root b d.1.sym
    · exact ⟨_, (hm _).2 (Or.inl rfl), if_pos a1⟩
    by_cases a2 : ∀ x ∈ d.1.rules, ¬ F.rule b x.1 x.2.1 x.2.2
    · by_cases a3 : ∀ x ∈ d.1.words 0, ¬ F.term b x.1 x.2
      · exact absurd ⟨a1, a2, a3⟩ h
      · simp only [not_forall, not_not] at a3
        obtain ⟨x, hx, hF⟩ := a3
        exact ⟨_, (hm _).2 (Or.inr (Or.inr ⟨x, hx, rfl⟩)), if_pos hF⟩
    · simp only [not_forall, not_not] at a2
      obtain ⟨x, hx, hF⟩ := a2
      exact ⟨_, (hm _).2 (Or.inr (Or.inl ⟨x, hx, rfl⟩)), if_pos hF⟩
  · rintro ⟨a1, a2, a3⟩ e he
    rcases (hm e).1 he with rfl | ⟨x, hx, rfl⟩ | ⟨x, hx, rfl⟩
    · exact ne_of_eq_of_ne (if_neg a1) (EReal.coe_ne_bot _)
    · exact ne_of_eq_of_ne (if_neg (a2 x hx)) (EReal.coe_ne_bot _)
    · exact ne_of_eq_of_ne (if_neg (a3 x hx)) (EReal.coe_ne_bot _)

/-- **C120, `SentCFG.entropy`.** -/
theorem grammar_entropy (p : CKY.Scores ℝ) (lengths : Option (List ℕ)) (h : SentCFG.Valid p lengths) (F : Banned) :
    ∃ vs us, Dist.entropyE CKY.algo (forbidCfg p F) lengths = .ok vs ∧ Dist.entropy CKY.algo p lengths = .ok us ∧ Verdict p.batch vs us
      (fun b => (∃ d : SentCFG.Der p lengths b, ¬ DerivAvoids F b d.1) ∧ ∃ d : SentCFG.Der p lengths b, DerivAvoids F b d.1)
      (fun b => (∀ n < SentCFG.len p lengths b, ∀ t < p.T, ¬ F.term b n t) ∧ (∀ X < p.NT, ∀ y < p.NT + p.T, ∀ z < p.NT + p.T, ¬ F.rule b X y z) ∧
        ∀ X < p.NT, ¬ F.root b X) := by
  have D := CKYProofs.batchDP (forbidCfg p F) lengths (CFGInfinity.forbid_valid h F)
  have D0 := CKYProofs.batchDP p lengths ⟨h.symbols, h.nonterminals, h.preterminals, h.rows, h.words, h.lens⟩
  rw [h.plain] at D0
  obtain ⟨vs, us, h1, h2, h3, h4, h5⟩ := D.entropy_both D0
  refine ⟨vs, us, h1, h2, h3, h4, fun b hb => ⟨?_, fun hc => (h5 b hb).2 ?_⟩⟩
  · rintro ⟨⟨t, ht⟩, t', ht'⟩
    exact (h5 b hb).1 ⟨t, (deriv_bad p F b t).1 ht⟩ ⟨t', (deriv_bad p F b t').2 ht'⟩
  · obtain ⟨c1, c2, c3⟩ := hc
    rintro e (⟨n, t, rfl, h6, h7⟩ | ⟨X, y, z, rfl, h6, h7, h8⟩ | ⟨X, rfl, h6⟩ | ⟨h6, -⟩)
    · exact if_neg (c1 n h6 t h7)
    · exact if_neg (c2 X h6 y h7 z h8)
    · exact if_neg (c3 X h6)
    · exact absurd h6 Bool.false_ne_true

/-! ### `LinearChainCRF` -/

theorem chain_lens {p : T4 ℝ} {lengths : Option (List ℕ)} (h : LinearChain.Valid p lengths) (b : ℕ) :
    lenOf (p.d1 + 1) lengths b ≤ p.d1 + 1 ∧ p.d1 + 1 - 1 ≤ 2 ^ Nat.clog 2 p.d1 :=
  ⟨LinearChainProofs.lenOf_le h.lens b, by simpa using Nat.le_pow_clog (by norm_num : 1 < 2) p.d1⟩

/-- Some transition in the row's length is forbidden. -/
def SomeBanned (p : T4 ℝ) (lengths : Option (List ℕ)) (F : ℕ → ℕ → ℕ → ℕ → Prop) (b : ℕ) : Prop :=
  ∃ n < LinearChain.numEdges p lengths b, ∃ i < p.d2, ∃ j < p.d2, F b n i j

/-- **C120, `LinearChainCRF.entropy`.**  The stand-in `-1e5` for `log 0` keeps the partition finite, so that one forbidden transition is enough, even if no sequence is left. -/
theorem chain_entropy (p : T4 ℝ) (lengths : Option (List ℕ)) (h : LinearChain.Valid p lengths) (F : ℕ → ℕ → ℕ → ℕ → Prop) :
    ∃ vs us, Dist.entropyE LinearChain.algo (forbid4 p F) lengths = .ok vs ∧ Dist.entropy LinearChain.algo p lengths = .ok us ∧
      Verdict p.d0 vs us (SomeBanned p lengths F) (fun b => ¬ SomeBanned p lengths F b) := by
  have e1 := LinearChainProofs.logpartition_ok Semirings.entropyE (LinearChain.algo.map (fun x => (x, IEEE.ofReal 0)) (forbid4 p F)) lengths h.square h.edges h.lens
  have e2 := LinearChainProofs.logpartition_ok Semirings.entropy (LinearChain.algo.map Semirings.entropyConvert p) lengths h.square h.edges h.lens
  refine ⟨_, _, congrArg (Except.map (List.map Prod.snd)) e1, congrArg (Except.map (List.map Prod.snd)) e2, verdict_rows p.d0 _ _ _ _ fun b hb => ?_⟩
  obtain ⟨l1, l2⟩ := chain_lens h b
  constructor
  · rintro ⟨n, hn, i, hi, j, hj, hF⟩
    obtain ⟨k1, k2⟩ := chain_spoil entropy_spoil (C := p.d2) h.classes (lenOf (p.d1 + 1) lengths)
      (fun b n i j => (LinearChain.algo.map (fun x => (x, IEEE.ofReal 0)) (forbid4 p F)).get b n i j) b l1 l2
    rcases k2 ⟨n, hn, ⟨i, hi⟩, ⟨j, hj⟩, Or.inl (if_pos hF)⟩ with k | k
    · exact absurd k k1
    · exact k
  · intro hc
    refine congrArg Prod.snd (chain_hom entropy_hom entDual_inj (SemiringRel.entropyZ_rel _) (fun _ _ => rfl) (fun _ => rfl) (C := p.d2) h.classes
      (lenOf (p.d1 + 1) lengths) _ (fun b n i j => (LinearChain.algo.map Semirings.entropyConvert p).get b n i j) b l1 fun n hn i j => ?_)
    refine Prod.ext (if_neg fun hF => hc ⟨n, hn, i, i.2, j, j.2, hF⟩) rfl

/-! ### `kl` and `cross_entropy` -/

/-- The pair of tables. -/
def both (p q : T4 ℝ) : T4 (ℝ × ℝ) := ⟨p.d0, p.d1, p.d2, p.d3, fun b n i j => (p.get b n i j, q.get b n i j)⟩

open Classical in
/-- see `both`. -/
def bothE (p q : T4 ℝ) (F G : ℕ → ℕ → ℕ → ℕ → Prop) : T4 (EReal × EReal) :=
  ⟨p.d0, p.d1, p.d2, p.d3, fun b n i j => ((forbid4 p F).get b n i j, (forbid4 q G).get b n i j)⟩

theorem pair_ok {p q : T4 ℝ} (hs : TreeCRF.SameShape p q) : LinearChain.pairPotentials p q = .ok (LinearChain.algo.map Semirings.pairConvert (both p q)) := by
  rw [LinearChain.pairPotentials, if_pos ⟨hs.d0, hs.d1, hs.d2, hs.d3⟩]
  rfl

/-- **C120, `TreeCRF.kl`.**  Parts forbidden in the first model make the divergence NaN, whatever the second model. -/
theorem tree_kl (p q : T4 ℝ) (lengths : Option (List ℕ)) (h : TreeCRF.Valid p lengths) (hs : TreeCRF.SameShape p q) (F G : ℕ → ℕ → ℕ → ℕ → Prop) :
    ∃ vs us, Dist.klE CKYCRF.logpartition (forbid4 p F) (forbid4 q G) lengths = .ok vs ∧ CKYCRF.kl p q lengths = .ok us ∧ Verdict p.d0 vs us
      (fun b => (∃ t : Trees p.d3 (TreeCRF.len p lengths b), ¬ TreeAvoids (F b) t) ∧ ∃ t : Trees p.d3 (TreeCRF.len p lengths b), TreeAvoids (F b) t)
      (fun b => ∀ i j a, i ≤ j → j < TreeCRF.len p lengths b → a < p.d3 → ¬ F b i j a ∧ ¬ G b i j a) := by
  obtain ⟨vs, us, h1, h2, h3, h4, h5⟩ := (CKYCRFProofs.batchDP (bothE p q F G) lengths ⟨h.square, h.words, h.labels, h.lens⟩).kl_both
    (CKYCRFProofs.batchDP (both p q) lengths ⟨h.square, h.words, h.labels, h.lens⟩)
  refine ⟨vs, us, h1, by rw [CKYCRF.kl, pair_ok hs]; exact h2, h3, h4, fun b hb => ⟨?_, fun hc => (h5 b hb).2 ?_⟩⟩
  · rintro ⟨⟨t, ht⟩, t', ht'⟩
    exact (h5 b hb).1 ⟨t, (tree_bad p F b t).1 ht⟩ ⟨t', (tree_bad p F b t').2 ht'⟩
  · rintro e ⟨i, j, a, rfl, h6, h7, h8⟩
    exact Prod.ext ((at4_forbid p F b i j a).2 (hc i j a h6 h7 h8).1) ((at4_forbid q G b i j a).2 (hc i j a h6 h7 h8).2)

/-- **C120, `TreeCRF.cross_entropy`.**  A span forbidden in both models makes it NaN. -/
theorem tree_cross_entropy (p q : T4 ℝ) (lengths : Option (List ℕ)) (h : TreeCRF.Valid p lengths) (hs : TreeCRF.SameShape p q) (F G : ℕ → ℕ → ℕ → ℕ → Prop) :
    ∃ vs us, Dist.crossEntropyE CKYCRF.logpartition (forbid4 p F) (forbid4 q G) lengths = .ok vs ∧ CKYCRF.crossEntropy p q lengths = .ok us ∧ Verdict p.d0 vs us
      (fun b => (∃ t : Trees p.d3 (TreeCRF.len p lengths b), ¬ TreeAvoids (fun i j a => F b i j a ∧ G b i j a) t) ∧
        ∃ t : Trees p.d3 (TreeCRF.len p lengths b), TreeAvoids (F b) t)
      (fun b => ∀ i j a, i ≤ j → j < TreeCRF.len p lengths b → a < p.d3 → ¬ F b i j a ∧ ¬ G b i j a) := by
  obtain ⟨vs, us, h1, h2, h3, h4, h5⟩ := (CKYCRFProofs.batchDP (bothE p q F G) lengths ⟨h.square, h.words, h.labels, h.lens⟩).ce_both
    (CKYCRFProofs.batchDP (both p q) lengths ⟨h.square, h.words, h.labels, h.lens⟩)
  refine ⟨vs, us, h1, by rw [CKYCRF.crossEntropy, pair_ok hs]; exact h2, h3, h4, fun b hb => ⟨?_, fun hc => (h5 b hb).2 ?_⟩⟩
  · rintro ⟨⟨t, ht⟩, t', ht'⟩
    refine (h5 b hb).1 ⟨t, ?_⟩ ⟨t', (tree_bad p F b t').2 ht'⟩
    simp only [TreeAvoids, not_forall, not_not] at ht
    obtain ⟨i, j, a, hm, hF, hG⟩ := ht
    exact ⟨[b, i, j, a], List.mem_map.2 ⟨_, hm, rfl⟩, (at4_forbid p F b i j a).1 hF, (at4_forbid q G b i j a).1 hG⟩
  · rintro e ⟨i, j, a, rfl, h6, h7, h8⟩
    exact Prod.ext ((at4_forbid p F b i j a).2 (hc i j a h6 h7 h8).1) ((at4_forbid q G b i j a).2 (hc i j a h6 h7 h8).2)

/-- **C120, `LinearChainCRF.kl`.** -/
theorem chain_kl (p q : T4 ℝ) (lengths : Option (List ℕ)) (h : LinearChain.Valid p lengths) (hs : TreeCRF.SameShape p q) (F G : ℕ → ℕ → ℕ → ℕ → Prop) :
    ∃ vs us, Dist.klE LinearChain.logpartition (forbid4 p F) (forbid4 q G) lengths = .ok vs ∧ LinearChain.kl p q lengths = .ok us ∧ Verdict p.d0 vs us
      (SomeBanned p lengths F) (fun b => ¬ SomeBanned p lengths (fun b n i j => F b n i j ∨ G b n i j) b) := by
  have e1 := LinearChainProofs.logpartition_ok Semirings.klE (pairE (forbid4 p F) (forbid4 q G)) lengths h.square h.edges h.lens
  have e2 := LinearChainProofs.logpartition_ok Semirings.kl (LinearChain.algo.map Semirings.pairConvert (both p q)) lengths h.square h.edges h.lens
  refine ⟨_, _, congrArg (Except.map (List.map fun a : EReal × EReal × IEEE => a.2.2)) e1, by rw [LinearChain.kl, pair_ok hs]; exact congrArg (Except.map (List.map fun a : ℝ × ℝ × ℝ => a.2.2)) e2,
    verdict_rows p.d0 _ _ _ _ fun b hb => ?_⟩
  obtain ⟨l1, l2⟩ := chain_lens h b
  constructor
  · rintro ⟨n, hn, i, hi, j, hj, hF⟩
    obtain ⟨k1, k2⟩ := chain_spoil kl_spoil (C := p.d2) h.classes (lenOf (p.d1 + 1) lengths)
      (fun b n i j => (pairE (forbid4 p F) (forbid4 q G)).get b n i j) b l1 l2
    rcases k2 ⟨n, hn, ⟨i, hi⟩, ⟨j, hj⟩, Or.inl (if_pos hF)⟩ with k | k
    · exact absurd k k1
    · exact k
  · intro hc
    refine congrArg (fun a : EReal × EReal × IEEE => a.2.2) (chain_hom kl_hom klDual_inj (SemiringRel.klZ_rel _) (fun _ _ => rfl) (fun _ => rfl) (C := p.d2) h.classes
      (lenOf (p.d1 + 1) lengths) _ (fun b n i j => (LinearChain.algo.map Semirings.pairConvert (both p q)).get b n i j) b l1 fun n hn i j => ?_)
    refine Prod.ext (if_neg fun hF => hc ⟨n, hn, i, i.2, j, j.2, Or.inl hF⟩) (Prod.ext (if_neg fun hG => hc ⟨n, hn, i, i.2, j, j.2, Or.inr hG⟩) rfl)

/-- **C120, `LinearChainCRF.cross_entropy`.** -/
theorem chain_cross_entropy (p q : T4 ℝ) (lengths : Option (List ℕ)) (h : LinearChain.Valid p lengths) (hs : TreeCRF.SameShape p q) (F G : ℕ → ℕ → ℕ → ℕ → Prop) :
    ∃ vs us, Dist.crossEntropyE LinearChain.logpartition (forbid4 p F) (forbid4 q G) lengths = .ok vs ∧ LinearChain.crossEntropy p q lengths = .ok us ∧
      Verdict p.d0 vs us (SomeBanned p lengths fun b n i j => F b n i j ∧ G b n i j) (fun b => ¬ SomeBanned p lengths (fun b n i j => F b n i j ∨ G b n i j) b) := by
  have e1 := LinearChainProofs.logpartition_ok Semirings.crossEntropyE (pairE (forbid4 p F) (forbid4 q G)) lengths h.square h.edges h.lens
  have e2 := LinearChainProofs.logpartition_ok Semirings.crossEntropy (LinearChain.algo.map Semirings.pairConvert (both p q)) lengths h.square h.edges h.lens
  refine ⟨_, _, congrArg (Except.map (List.map fun a : EReal × EReal × IEEE => a.2.2)) e1,
    by rw [LinearChain.crossEntropy, pair_ok hs]; exact congrArg (Except.map (List.map fun a : ℝ × ℝ × ℝ => a.2.2)) e2, verdict_rows p.d0 _ _ _ _ fun b hb => ?_⟩
  obtain ⟨l1, l2⟩ := chain_lens h b
  constructor
  · rintro ⟨n, hn, i, hi, j, hj, hF, hG⟩
    obtain ⟨k1, k2⟩ := chain_spoil ce_spoil (C := p.d2) h.classes (lenOf (p.d1 + 1) lengths)
      (fun b n i j => (pairE (forbid4 p F) (forbid4 q G)).get b n i j) b l1 l2
    rcases k2 ⟨n, hn, ⟨i, hi⟩, ⟨j, hj⟩, Or.inl ⟨if_pos hF, if_pos hG⟩⟩ with k | k
    · exact absurd k.1 k1
    · exact k
  · intro hc
    refine congrArg (fun a : EReal × EReal × IEEE => a.2.2) (chain_hom ce_hom ceDual_inj (SemiringRel.crossEntropyZ_rel _) (fun _ _ => rfl) (fun _ => rfl) (C := p.d2) h.classes
      (lenOf (p.d1 + 1) lengths) _ (fun b n i j => (LinearChain.algo.map Semirings.pairConvert (both p q)).get b n i j) b l1 fun n hn i j => ?_)
    refine Prod.ext (if_neg fun hF => hc ⟨n, hn, i, i.2, j, j.2, Or.inl hF⟩) (Prod.ext (if_neg fun hG => hc ⟨n, hn, i, i.2, j, j.2, Or.inr hG⟩) rfl)

/-! ### The hypotheses are met -/

/-- Label 1 on the first word of row 1 is forbidden. -/
def firstWord : ℕ → ℕ → ℕ → ℕ → Prop := fun b i j a => b = 1 ∧ i = 0 ∧ j = 0 ∧ a = 1

/-- A tree over two words, with a given label on the first word. -/
def smallTree (a : Fin 2) : Trees 2 2 := ⟨.node 0 (.leaf a) (.leaf 0), rfl⟩

theorem small_spans (a : Fin 2) : (smallTree a).1.spans 0 = [(0, 1, 0), (0, 0, a), (1, 1, 0)] := rfl

theorem small_uses {P : ℕ → ℕ → ℕ → Prop} (h : P 0 0 1) : ¬ TreeAvoids P (smallTree 1) :=
  fun hc => hc 0 0 1 (by rw [small_spans]; simp) h

theorem small_avoids : TreeAvoids (firstWord 1) (smallTree 0) := by
  rintro i j a hm ⟨-, -, -, h4⟩
  rw [small_spans] at hm
  simp only [List.mem_cons, List.not_mem_nil, or_false, Prod.mk.injEq] at hm
  have : a = 0 := by tauto
  rw [this] at h4
  exact absurd h4 (by decide)

/-- The entropy of row 1 is NaN, although trees remain; that of row 0 is what it was. -/
example : ∃ vs us, Dist.entropyE CKYCRF.algo (forbid4 TreeCRF.sample firstWord) (some [3, 2]) = .ok vs ∧ Dist.entropy CKYCRF.algo TreeCRF.sample (some [3, 2]) = .ok us ∧
    vs[1]? = some IEEE.nan ∧ vs[0]? = us[0]?.map IEEE.ofReal := by
  obtain ⟨vs, us, h1, h2, -, -, h3⟩ := tree_entropy TreeCRF.sample _ TreeCRF.sample_valid firstWord
  refine ⟨vs, us, h1, h2, (h3 1 (by decide)).1 ⟨⟨smallTree 1, small_uses ⟨rfl, rfl, rfl, rfl⟩⟩, smallTree 0, small_avoids⟩, (h3 0 (by decide)).2 ?_⟩
  rintro i j a - - - ⟨h4, -⟩
  exact absurd h4 (by decide)

/-- The same constraint in both models makes `kl` and `cross_entropy` NaN, even of a model and itself. -/
example : ∃ vs ws, Dist.klE CKYCRF.logpartition (forbid4 TreeCRF.sample firstWord) (forbid4 TreeCRF.sample firstWord) (some [3, 2]) = .ok vs ∧
    Dist.crossEntropyE CKYCRF.logpartition (forbid4 TreeCRF.sample firstWord) (forbid4 TreeCRF.sample firstWord) (some [3, 2]) = .ok ws ∧
    vs[1]? = some IEEE.nan ∧ ws[1]? = some IEEE.nan := by
  obtain ⟨vs, us, h1, h2, -, -, h3⟩ := tree_kl TreeCRF.sample TreeCRF.sample _ TreeCRF.sample_valid ⟨rfl, rfl, rfl, rfl⟩ firstWord firstWord
  obtain ⟨ws, us', k1, k2, -, -, k3⟩ := tree_cross_entropy TreeCRF.sample TreeCRF.sample _ TreeCRF.sample_valid ⟨rfl, rfl, rfl, rfl⟩ firstWord firstWord
  exact ⟨vs, ws, h1, k1, (h3 1 (by decide)).1 ⟨⟨smallTree 1, small_uses ⟨rfl, rfl, rfl, rfl⟩⟩, smallTree 0, small_avoids⟩,
    (k3 1 (by decide)).1 ⟨⟨smallTree 1, small_uses ⟨⟨rfl, rfl, rfl, rfl⟩, rfl, rfl, rfl, rfl⟩⟩, smallTree 0, small_avoids⟩⟩

/-- With the arc from the first to the second word forbidden, the entropy of row 1 is NaN. -/
example : ∃ vs, DepTree.entropyE true (forbidArc Dependency.sample fun _ i j _ => i = 0 ∧ j = 1) (some [3, 2]) = .ok vs ∧ vs[1]? = some IEEE.nan := by
  obtain ⟨vs, us, h1, -, -, -, h3⟩ := dependency_entropy true Dependency.sample _ (Dependency.sample_valid true) fun _ i j _ => i = 0 ∧ j = 1
  have key : ∃ t : ProjTrees true 2, ¬ DepAvoids (fun i j _ => i = 0 ∧ j = 1) t := by
    have hD : ∀ y, Dominates (fun k => if k = 0 then 0 else 1 : Heads 2) 0 y := by
      intro y
      refine ⟨2, ?_⟩
      rcases y with _ | _ | _ | y <;> simp [headOf]
    refine ⟨⟨fun k => if k = 0 then 0 else 1, fun k => hD _, fun k y hy => ?_, by simp⟩, fun h => (depAvoids_iff _ _).1 h 1 (by simp [arcCell])⟩
    fin_cases k
    · exact hD y
    · simp only [Fin.mk_one, Fin.val_one, one_ne_zero, if_false, Fin.isValue] at hy
      exact absurd hy (by unfold Between; omega)
  refine ⟨vs, h1, (h3 1 (by decide)).1 ⟨key, ?_⟩⟩
  · have hD : ∀ y, Dominates (fun _ => 0 : Heads 2) 0 y := fun y => ⟨1, by simp [headOf]⟩
    refine ⟨⟨fun _ => 0, fun k => hD _, fun k y _ => hD y, by simp⟩, (depAvoids_iff _ _).2 fun k => ?_⟩
    simp only [arcCell]
    rintro ⟨h7, h8⟩
    simp only [Fin.coe_ofNat_eq_mod, Nat.zero_mod, if_true] at h7 h8
    omega

/-- With the transition from tag 0 to tag 1 forbidden, the entropies of all rows are NaN. -/
example : ∃ vs, Dist.entropyE LinearChain.algo (forbid4 LinearChain.sample ChainInfinity.banned) (some [3, 2]) = .ok vs ∧ vs[0]? = some IEEE.nan ∧ vs[1]? = some IEEE.nan := by
  obtain ⟨vs, us, h1, -, -, -, h3⟩ := chain_entropy LinearChain.sample _ LinearChain.sample_valid ChainInfinity.banned
  exact ⟨vs, h1, (h3 0 (by decide)).1 ⟨0, by decide, 1, by decide, 0, by decide, rfl, rfl⟩, (h3 1 (by decide)).1 ⟨0, by decide, 1, by decide, 0, by decide, rfl, rfl⟩⟩

/-- With the segments of length 2 out of label 1 forbidden, the entropy of row 1 is NaN. -/
example : ∃ vs, Dist.entropyE SemiMarkov.algo (forbid5 SemiMarkov.sample SemiInfinity.banned) (some [4, 3]) = .ok vs ∧ vs[1]? = some IEEE.nan := by
  obtain ⟨vs, us, h1, -, -, -, h3⟩ := semi_entropy SemiMarkov.sample _ SemiMarkov.sample_valid SemiInfinity.banned
  have key : ∃ y : Segmentation 3 2 2, ¬ SegAvoids (SemiInfinity.banned 1) y :=
    ⟨⟨1, [(2, 0)], by simp, by simp⟩, fun h => h (0, 2, 0, 1) (by simp [segEdges]) ⟨rfl, rfl⟩⟩
  exact ⟨vs, h1, (h3 1 (by decide)).1 ⟨key, SemiInfinity.banned_ok 1⟩⟩

/-- Forbidding nonterminal 0 at the root makes the entropy NaN. -/
example : ∃ vs, Dist.entropyE CKY.algo (forbidCfg SentCFG.sample ⟨fun _ _ _ => False, fun _ _ _ _ => False, fun _ X => X = 0⟩) (some [3, 2]) = .ok vs ∧
    vs[1]? = some IEEE.nan := by
  obtain ⟨vs, us, h1, -, -, -, h3⟩ := grammar_entropy SentCFG.sample _ SentCFG.sample_valid ⟨fun _ _ _ => False, fun _ _ _ _ => False, fun _ X => X = 0⟩
  refine ⟨vs, h1, (h3 1 (by decide)).1 ⟨⟨⟨.node ⟨0, by decide⟩ (.leaf ⟨0, by decide⟩) (.leaf ⟨0, by decide⟩), rfl, by decide⟩, ?_⟩,
    ⟨.node ⟨1, by decide⟩ (.leaf ⟨0, by decide⟩) (.leaf ⟨0, by decide⟩), rfl, by decide⟩, ?_⟩⟩
  · rintro ⟨h4, -⟩
    exact h4 rfl
  · exact ⟨by simp [Deriv.sym], fun _ _ => not_false, fun _ _ => not_false⟩

end Props.InfEntropy
