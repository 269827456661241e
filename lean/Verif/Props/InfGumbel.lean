import Verif.Proofs.InfGumbel
import Verif.Props.InfSample

/-! C128: `gumbel_crf` with potentials `-inf`.

Forbidden parts have potential `-inf`.  `gumbel_crf` selects with `max` instead of `torch.multinomial`, so unlike `sample` (C121) it never raises, for no noise and no positive temperature.
* `TreeCRF`, `DependencyCRF`: it returns the event of a structure; if some structure has no forbidden part, the returned one has none.
* `LinearChainCRF`, `SemiMarkovCRF`: the returned event has no forbidden part. -/

open Finset Spec Generic
open Props.Conditional (forbid4 forbidArc TreeAvoids DepAvoids LabAvoids depAvoids_iff labAvoids_iff)
open Props.SemiInfinity (forbid5)
open Props.InfSample (Draws forbid_top forbid_bot)

noncomputable section
namespace Props.InfGumbel

/-! ### `TreeCRF` -/

/-- **C128, `TreeCRF`.** -/
theorem tree_spec (p : T4 ℝ) (lengths : Option (List ℕ)) (h : TreeCRF.Valid p lengths) (F : ℕ → ℕ → ℕ → ℕ → Prop) {temp : ℝ} (hT : 0 < temp) :
    ∃ E : Draws, Dist.gumbelE CKYCRF.algo (forbid4 p F) lengths temp = .ok E ∧ E.length = p.d0 ∧ ∀ b (hb : b < E.length), E[b].Nonempty ∧
      ∀ u ∈ E[b], ∃ t : Trees p.d3 (TreeCRF.len p lengths b), (∀ i j (a : Fin p.d3), u [b, i, j, (a : ℕ)] = if (i, j, a) ∈ t.1.spans 0 then 1 else 0) ∧
        ((∃ t' : Trees p.d3 (TreeCRF.len p lengths b), TreeAvoids (F b) t') → TreeAvoids (F b) t) := by
  classical
  have ht : ∀ b i j a, (forbid4 p F).get b i j a ≠ ⊤ := fun b i j a => forbid_top _ _
  have hbot : ∀ b i j a, (forbid4 p F).get b i j a ≠ ⊥ ↔ ¬ F b i j a := fun b i j a => forbid_bot _ _
  obtain ⟨E, h1, h2, h3⟩ := (CKYCRFProofs.batchDP (forbid4 p F) lengths ⟨h.square, h.words, h.labels, h.lens⟩).picked hT fun e => ht _ _ _ _
  refine ⟨E, h1, h2, fun b hb => ⟨(h3 b hb).1, fun u hu => ?_⟩⟩
  obtain ⟨t, h4, h5⟩ := (h3 b hb).2 u hu
  have havoid : ∀ t : Trees p.d3 (TreeCRF.len p lengths b), (∀ e ∈ CKYCRFProofs.treeParts b t, CKYCRFProofs.at4 (forbid4 p F) e ≠ ⊥) ↔ TreeAvoids (F b) t := by
    intro t
    constructor
    · intro hh i j a hm
      exact (hbot b i j a).1 (hh [b, i, j, (a : ℕ)] (Multiset.mem_coe.2 (List.mem_map.2 ⟨(i, j, a), hm, rfl⟩)))
    · intro hh e he
      obtain ⟨⟨i, j, a⟩, hm, rfl⟩ := List.mem_map.1 (Multiset.mem_coe.1 he)
      exact (hbot b i j a).2 (hh i j a hm)
  refine ⟨t, fun i j a => (h4 _).trans (TreeCRF.count_parts (L := TreeCRF.len p lengths b) b t i j a), ?_⟩
  rintro ⟨t', ht'⟩
  exact (havoid t).1 (h5 ⟨t', (havoid t').2 ht'⟩)

/-! ### `DependencyCRF` -/

open Classical in
/-- **C128, `DependencyCRF` without labels.** -/
theorem dependency_spec (mr : Bool) (q : DepTree.Arcs ℝ) (lengths : Option (List ℕ)) (h : Dependency.Valid mr q lengths) (F : ℕ → ℕ → ℕ → ℕ → Prop) {temp : ℝ}
    (hT : 0 < temp) :
    ∃ E : Draws, DepTree.gumbelE mr (forbidArc q F) lengths temp = .ok E ∧ E.length = q.d0 ∧ ∀ b (hb : b < E.length), E[b].Nonempty ∧
      ∀ u ∈ E[b], ∃ t : ProjTrees mr (Dependency.len q lengths b), (∀ i j, u [b, i, j] = if HasArc t.1 i j then 1 else 0) ∧
        ((∃ t' : ProjTrees mr (Dependency.len q lengths b), DepAvoids (F b) t') → DepAvoids (F b) t) := by
  have h' : Dependency.Valid mr (forbidArc q F) lengths := by
    obtain ⟨a1, a2, a3, a4, a5⟩ := h
    exact ⟨a1, a2, a3, a4, a5⟩
  have ht : ∀ b i j a, (forbidArc q F).get b i j a ≠ ⊤ := fun b i j a => forbid_top _ _
  have hbot : ∀ b i j a, (forbidArc q F).get b i j a ≠ ⊥ ↔ ¬ F b i j a := fun b i j a => forbid_bot _ _
  rw [DepTree.gumbelE, Dependency.conv_eq _ h']
  obtain ⟨E, h1, h2, h3⟩ := (DepTreeProofs.batchDP3 mr ((DepTree.negBig : ℝ) : EReal) (forbidArc q F) lengths h'.toValid h'.rank).picked hT fun e => by
    unfold DepTreeProofs.atQ
    split_ifs
    exacts [EReal.coe_ne_top _, ht _ _ _ _]
  refine ⟨E, h1, h2, fun b hb => ⟨(h3 b hb).1, fun u hu => ?_⟩⟩
  obtain ⟨t, h4, h5⟩ := (h3 b hb).2 u hu
  have havoid : ∀ t : ProjTrees mr (Dependency.len q lengths b),
      (∀ e ∈ DepTreeProofs.depParts b t, DepTreeProofs.atQ ((DepTree.negBig : ℝ) : EReal) (forbidArc q F) e ≠ ⊥) ↔ DepAvoids (F b) t := by
    intro t
    rw [depAvoids_iff]
    constructor
    · intro hh k
      exact (hbot _ _ _ _).1 (hh _ (Multiset.mem_map_of_mem _ (Finset.mem_univ k)))
    · intro hh e he
      obtain ⟨k, -, rfl⟩ := Multiset.mem_map.1 he
      exact (hbot _ _ _ _).2 (hh k)
  refine ⟨t, fun i j => (h4 _).trans (Dependency.count_parts b t i j), ?_⟩
  rintro ⟨t', ht'⟩
  exact (havoid t).1 (h5 ⟨t', (havoid t').2 ht'⟩)

open Classical in
/-- **C128, `DependencyCRF` with labels.** -/
theorem labelled_spec (mr : Bool) (q : DepTree.Arcs ℝ) (lengths : Option (List ℕ)) (h : LabelledDependency.Valid mr q lengths) (F : ℕ → ℕ → ℕ → ℕ → Prop) {temp : ℝ}
    (hT : 0 < temp) :
    ∃ E : Draws, DepTree.gumbelE mr (forbidArc q F) lengths temp = .ok E ∧ E.length = q.d0 ∧ ∀ b (hb : b < E.length), E[b].Nonempty ∧
      ∀ u ∈ E[b], ∃ t : LabelledTrees mr (LabelledDependency.len q lengths b) q.d3, (∀ i j l, u [b, i, j, l] = if HasLabArc t i j l then 1 else 0) ∧
        ((∃ t' : LabelledTrees mr (LabelledDependency.len q lengths b) q.d3, LabAvoids (F b) t') → LabAvoids (F b) t) := by
  have h' : LabelledDependency.Valid mr (forbidArc q F) lengths := by
    obtain ⟨a1, a2, a3, a4, a5, a6⟩ := h
    exact ⟨a1, a2, a3, a4, a5, a6⟩
  have ht : ∀ b i j a, (forbidArc q F).get b i j a ≠ ⊤ := fun b i j a => forbid_top _ _
  have hbot : ∀ b i j a, (forbidArc q F).get b i j a ≠ ⊥ ↔ ¬ F b i j a := fun b i j a => forbid_bot _ _
  rw [DepTree.gumbelE, LabelledDependency.conv_eq _ h']
  obtain ⟨E, h1, h2, h3⟩ := (DepTreeProofs.batchDP4 mr ((DepTree.negBig : ℝ) : EReal) (forbidArc q F) lengths h'.toValid h'.rank).picked hT fun e => by
    unfold DepTreeProofs.atQ
    split_ifs
    exacts [EReal.coe_ne_top _, ht _ _ _ _]
  refine ⟨E, h1, h2, fun b hb => ⟨(h3 b hb).1, fun u hu => ?_⟩⟩
  obtain ⟨t, h4, h5⟩ := (h3 b hb).2 u hu
  have havoid : ∀ t : LabelledTrees mr (LabelledDependency.len q lengths b) q.d3,
      (∀ e ∈ DepTreeProofs.labParts true b t, DepTreeProofs.atQ ((DepTree.negBig : ℝ) : EReal) (forbidArc q F) e ≠ ⊥) ↔ LabAvoids (F b) t := by
    intro t
    rw [labAvoids_iff]
    constructor
    · intro hh k
      exact (hbot _ _ _ _).1 (hh _ (Multiset.mem_map_of_mem _ (Finset.mem_univ k)))
    · intro hh e he
      obtain ⟨k, -, rfl⟩ := Multiset.mem_map.1 he
      exact (hbot _ _ _ _).2 (hh k)
  refine ⟨t, fun i j l => (h4 _).trans (LabelledDependency.count_parts b t i j l), ?_⟩
  rintro ⟨t', ht'⟩
  exact (havoid t).1 (h5 ⟨t', (havoid t').2 ht'⟩)

/-! ### `LinearChainCRF` and `SemiMarkovCRF` -/

/-- **C128, `LinearChainCRF`.** -/
theorem chain_spec (p : T4 ℝ) (lengths : Option (List ℕ)) (h : LinearChain.Valid p lengths) (F : ℕ → ℕ → ℕ → ℕ → Prop) {temp : ℝ} (hT : 0 < temp) :
    ∃ E : Draws, Dist.gumbelE LinearChain.algo (forbid4 p F) lengths temp = .ok E ∧ E.length = p.d0 ∧ ∀ b (hb : b < E.length), E[b].Nonempty ∧
      ∀ u ∈ E[b], ∀ n < LinearChain.numEdges p lengths b, ∀ i j, F b n i j → u [b, n, i, j] = 0 := by
  classical
  have ht : ∀ b i j a, (forbid4 p F).get b i j a ≠ ⊤ := fun b i j a => forbid_top _ _
  have hlp := LinearChainProofs.logpartition_ok (Semirings.gumbelE temp)
    (LinearChain.algo.map (fun x : EReal × List ℕ => drawLeaf x.1 x.2) (LinearChain.algo.index (forbid4 p F))) lengths h.square h.edges h.lens
  refine ⟨_, (congrArg (Except.map fun vs : List Drawn => vs.map Drawn.events) hlp).trans rfl, ?_, fun b hb => ?_⟩
  · simp only [List.length_map, List.length_range]
    rfl
  · simp only [List.getElem_map, List.getElem_range]
    obtain ⟨h1, h2⟩ := InfGumbel.chain_row hT (C := p.d2) h.classes (forbid4 p F) ht (p.d1 + 1) (Nat.clog 2 p.d1) (lenOf (p.d1 + 1) lengths) b
    refine ⟨h1.2, fun u hu n hn i j hF => h2.2 h1.1.1 u hu _ ⟨b, n, i, j, rfl, ?_, if_pos hF⟩⟩
    unfold LinearChain.numEdges at hn
    omega

/-- **C128, `SemiMarkovCRF`.** -/
theorem semi_spec (p : T5 ℝ) (lengths : Option (List ℕ)) (h : SemiMarkov.Valid p lengths) (F : ℕ → ℕ → ℕ → ℕ → ℕ → Prop) {temp : ℝ} (hT : 0 < temp) :
    ∃ E : Draws, Dist.gumbelE SemiMarkov.algo (forbid5 p F) lengths temp = .ok E ∧ E.length = p.d0 ∧ ∀ b (hb : b < E.length), E[b].Nonempty ∧
      ∀ u ∈ E[b], ∀ n < SemiMarkov.steps p lengths b, ∀ k i j, F b n k i j → u [b, n, k, i, j] = 0 := by
  classical
  have ht : ∀ b n k i j, (forbid5 p F).get b n k i j ≠ ⊤ := fun b n k i j => forbid_top _ _
  have hK : 0 < p.d2 - 1 := SemiMarkov.hK h
  have h' : SemiMarkovProofs.Valid (SemiMarkov.algo.map (fun x : EReal × List ℕ => drawLeaf x.1 x.2) (SemiMarkov.algo.index (forbid5 p F))) lengths := by
    obtain ⟨a1, a2, a3, a4, a5, a6⟩ := h
    exact ⟨a1, a2, a3, a4, a5, a6⟩
  have hlp := SemiMarkovProofs.logpartition_ok (Semirings.gumbelE temp) (SemiMarkov.algo.map (fun x : EReal × List ℕ => drawLeaf x.1 x.2) (SemiMarkov.algo.index (forbid5 p F))) lengths h' hK
  refine ⟨_, (congrArg (Except.map fun vs : List Drawn => vs.map Drawn.events) hlp).trans rfl, ?_, fun b hb => ?_⟩
  · simp only [List.length_map, List.length_range]
    rfl
  · have hb0 : b < p.d0 := by simp only [List.length_map, List.length_range] at hb; exact hb
    simp only [List.getElem_map, List.getElem_range]
    obtain ⟨h1, h2⟩ := InfGumbel.semi_row hT (C := p.d3) hK h'.classes (forbid5 p F) ht (p.d1 + 1) (Nat.clog 2 p.d1)
      (fun b => (LinearChain.lensOr p.d0 (p.d1 + 1) lengths).getD b 0) b
    refine ⟨h1.2, fun u hu n hn k i j hF => h2.2 h1.1.1 u hu _ ⟨b, n, k, i, j, rfl, ?_, if_pos hF⟩⟩
    simp only [SemiMarkovProofs.lensOr_getD lengths b hb0]
    unfold SemiMarkov.steps at hn
    omega

/-! ### The hypotheses are met -/

/-- Where `sample` raises because an entry below the diagonal is forbidden, `gumbel_crf` returns a tree. -/
example : CKYCRF.sampleE (forbid4 TreeCRF.sample fun b i j _ => b = 0 ∧ i = 2 ∧ j = 0) (some [3, 2]) = .error .runtime ∧
    ∃ E, Dist.gumbelE CKYCRF.algo (forbid4 TreeCRF.sample fun b i j _ => b = 0 ∧ i = 2 ∧ j = 0) (some [3, 2]) 1 = .ok E ∧ E.length = 2 := by
  refine ⟨(Props.InfSample.tree_spec TreeCRF.sample _ TreeCRF.sample_valid _).1 ⟨0, by decide, 2, by decide, 0, by decide, fun _ _ => ⟨rfl, rfl, rfl⟩⟩, ?_⟩
  obtain ⟨E, h1, h2, -⟩ := tree_spec TreeCRF.sample _ TreeCRF.sample_valid (fun b i j _ => b = 0 ∧ i = 2 ∧ j = 0) one_pos
  exact ⟨E, h1, h2⟩

/-- Forbidding the arc from the first to the second word makes `sample` raise; `gumbel_crf` returns a tree without it. -/
example : DepTree.sampleE true (forbidArc Dependency.sample fun _ i j _ => i = 0 ∧ j = 1) (some [3, 2]) = .error .runtime ∧
    ∃ E : Draws, DepTree.gumbelE true (forbidArc Dependency.sample fun _ i j _ => i = 0 ∧ j = 1) (some [3, 2]) 1 = .ok E ∧ ∃ h : 1 < E.length,
      E[1].Nonempty ∧ ∀ u ∈ E[1], u [1, 0, 1] = 0 := by
  refine ⟨(Props.InfSample.dependency_spec true Dependency.sample _ (Dependency.sample_valid true) _).1 ⟨0, by decide, Or.inr ⟨0, by decide, Or.inl ⟨rfl, rfl⟩⟩⟩, ?_⟩
  obtain ⟨E, h1, h2, h3⟩ := dependency_spec true Dependency.sample _ (Dependency.sample_valid true) (fun _ i j _ => i = 0 ∧ j = 1) one_pos
  have h : 1 < E.length := by rw [h2]; decide
  refine ⟨E, h1, h, (h3 1 h).1, fun u hu => ?_⟩
  obtain ⟨t, h4, h5⟩ := (h3 1 h).2 u hu
  rw [h4, if_neg]
  refine fun hc => h5 ?_ 0 1 hc ⟨rfl, rfl⟩
  have hD : ∀ y, Dominates (fun _ => 0 : Heads 2) 0 y := fun y => ⟨1, by simp [headOf]⟩
  refine ⟨⟨fun _ => 0, fun k => hD _, fun k y _ => hD y, by simp⟩, (depAvoids_iff _ _).2 fun k => ?_⟩
  simp only [arcCell]
  rintro ⟨h7, h8⟩
  simp only [Fin.coe_ofNat_eq_mod, Nat.zero_mod, if_true] at h7 h8
  omega

/-- With labels and one label of every arc forbidden, `gumbel_crf` returns a tree. -/
example (mr : Bool) : ∃ E : Draws, DepTree.gumbelE mr (forbidArc LabelledDependency.sample fun _ _ _ l => l = 0) (some [3, 2]) (1 / 2) = .ok E ∧ E.length = 2 := by
  obtain ⟨E, h1, h2, -⟩ := labelled_spec mr LabelledDependency.sample _ (LabelledDependency.sample_valid mr) (fun _ _ _ l => l = 0) (temp := 1 / 2) (by norm_num)
  exact ⟨E, h1, h2⟩

/-- With the segments of length 2 out of label 1 forbidden, `gumbel_crf` never returns one. -/
example : ∃ E : Draws, Dist.gumbelE SemiMarkov.algo (forbid5 SemiMarkov.sample SemiInfinity.banned) (some [4, 3]) 1 = .ok E ∧ E.length = 2 ∧
    ∀ b (hb : b < E.length), E[b].Nonempty ∧ ∀ u ∈ E[b], ∀ n < SemiMarkov.steps SemiMarkov.sample (some [4, 3]) b, ∀ k i j, SemiInfinity.banned b n k i j → u [b, n, k, i, j] = 0 :=
  semi_spec SemiMarkov.sample _ SemiMarkov.sample_valid SemiInfinity.banned one_pos

/-- With every transition forbidden, `gumbel_crf` of a chain returns an event without any transition. -/
example : ∃ E : Draws, Dist.gumbelE LinearChain.algo (forbid4 LinearChain.sample fun _ _ _ _ => True) (some [3, 2]) 1 = .ok E ∧ ∃ h : 0 < E.length,
    E[0].Nonempty ∧ ∀ u ∈ E[0], ∀ n < 2, ∀ i j, u [0, n, i, j] = 0 := by
  obtain ⟨E, h1, h2, h3⟩ := chain_spec LinearChain.sample _ LinearChain.sample_valid (fun _ _ _ _ => True) one_pos
  have h : 0 < E.length := by rw [h2]; decide
  exact ⟨E, h1, h, (h3 0 h).1, fun u hu n hn i j => (h3 0 h).2 u hu n hn i j trivial⟩

end Props.InfGumbel
