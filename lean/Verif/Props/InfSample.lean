import Verif.Proofs.InfSample
import Verif.Props.InfArgmax

/-! C121: `sample` with potentials `-inf`.

Forbidden parts have potential `-inf`.  `torch.multinomial` raises if a probability is NaN, and it is called for all cells of a table at once, so a sum all of whose entries are `-inf`
raises even if no structure uses it.
* `TreeCRF`: raises iff all labels of one entry `(i, j)` of the table of any row are forbidden; entries below the diagonal and past the row's length count too.
* `DependencyCRF`: raises iff an arc between neighbours, in either direction, or the root arc of the first word is forbidden in some row; with labels, iff all labels of some arc are.
* Otherwise the draws are exactly the structures without forbidden parts.
* `LinearChainCRF` and `SemiMarkovCRF` never raise, and never draw a forbidden part; if nothing is allowed they draw an event that is no structure. -/

open Finset Spec Generic
open Props.Conditional (forbid4 forbidArc TreeAvoids DepAvoids LabAvoids depAvoids_iff labAvoids_iff)
open Props.SemiInfinity (forbid5)

noncomputable section
namespace Props.InfSample

/-- The events that can be drawn for each row; `u e` says how often entry `e` of the potentials is used. -/
abbrev Draws := List (Set (List ℕ →₀ ℕ))

theorem forbid_top (c : Prop) [Decidable c] (x : ℝ) : (if c then (⊥ : EReal) else (x : EReal)) ≠ ⊤ := by
  split_ifs
  exacts [bot_ne_top, EReal.coe_ne_top _]

theorem forbid_bot (c : Prop) [Decidable c] (x : ℝ) : (if c then (⊥ : EReal) else (x : EReal)) ≠ ⊥ ↔ ¬ c := by
  split_ifs with h <;> simp [h]

/-! ### `TreeCRF` -/

/-- **C121, `TreeCRF`.** -/
theorem tree_spec (p : T4 ℝ) (lengths : Option (List ℕ)) (h : TreeCRF.Valid p lengths) (F : ℕ → ℕ → ℕ → ℕ → Prop) :
    ((∃ b < p.d0, ∃ i < p.d1, ∃ j < p.d1, ∀ a < p.d3, F b i j a) → CKYCRF.sampleE (forbid4 p F) lengths = .error .runtime) ∧
    ((∀ b < p.d0, ∀ i < p.d1, ∀ j < p.d1, ∃ a < p.d3, ¬ F b i j a) →
      ∃ E : Draws, CKYCRF.sampleE (forbid4 p F) lengths = .ok E ∧ E.length = p.d0 ∧ ∀ b (hb : b < E.length),
        (∀ u ∈ E[b], ∃ t : Trees p.d3 (TreeCRF.len p lengths b), TreeAvoids (F b) t ∧
          ∀ i j (a : Fin p.d3), u [b, i, j, (a : ℕ)] = if (i, j, a) ∈ t.1.spans 0 then 1 else 0) ∧
        ∀ t : Trees p.d3 (TreeCRF.len p lengths b), TreeAvoids (F b) t → ∃ u ∈ E[b],
          ∀ i j (a : Fin p.d3), u [b, i, j, (a : ℕ)] = if (i, j, a) ∈ t.1.spans 0 then 1 else 0) := by
  classical
  have ht : ∀ b i j a, (forbid4 p F).get b i j a ≠ ⊤ := fun b i j a => forbid_top _ _
  have hok := InfSample.tree_ok (p := forbid4 p F) h.square h.words h.labels ht
  have hbot : ∀ b i j a, (forbid4 p F).get b i j a ≠ ⊥ ↔ ¬ F b i j a := fun b i j a => forbid_bot _ _
  simp only [hbot] at hok
  have hval : CKYCRFProofs.Valid (forbid4 p F) lengths := ⟨h.square, h.words, h.labels, h.lens⟩
  obtain ⟨vs, h1, h2, h3⟩ := (CKYCRFProofs.batchDP (forbid4 p F) lengths hval).drawn fun e => ht _ _ _ _
  have h1' : CKYCRF.logpartition Semirings.drawE (CKYCRF.algo.map (fun x : EReal × List ℕ => drawLeaf x.1 x.2) (CKYCRF.algo.index (forbid4 p F))) lengths = .ok vs := h1
  have hrun : CKYCRF.sampleE (forbid4 p F) lengths = if CKYCRF.sampleOk (CKYCRF.algo.map (fun x : EReal × List ℕ => drawLeaf x.1 x.2) (CKYCRF.algo.index (forbid4 p F)))
      then .ok (vs.map Drawn.events) else .error .runtime := by
    rw [CKYCRF.sampleE, h1']
    rfl
  have heq := h1'.symm.trans (CKYCRFProofs.logpartition_ok Semirings.drawE (CKYCRF.algo.map (fun x : EReal × List ℕ => drawLeaf x.1 x.2) (CKYCRF.algo.index (forbid4 p F)))
    lengths ⟨h.square, h.words, h.labels, h.lens⟩)
  injection heq with heq
  constructor
  · rintro ⟨b, hb, i, hi, j, hj, hF⟩
    rw [hrun, if_neg]
    intro hc
    obtain ⟨a, ha, hn⟩ := hok.1 hc b hb i hi j hj
    exact hn (hF a ha)
  · intro hF
    have hs := hok.2 hF
    refine ⟨_, hrun.trans (if_pos hs), (List.length_map _).trans h2, fun b hb => ?_⟩
    have hb' : b < vs.length := by rwa [List.length_map] at hb
    have hb0 : b < p.d0 := by rw [h2] at hb'; exact hb'
    have hv : vs[b].val ≠ ⊥ := by
      simp only [heq, List.getElem_map, List.getElem_range]
      have := CKYCRFProofs.len_in h.words h.lens b hb0
      exact InfSample.tree_live (p := forbid4 p F) h.square h.words h.labels ht hs hb0 (show lenOf p.d1 lengths b - 1 < p.d1 by omega)
    have key := h3 b hb' hv
    have hcount : ∀ (t : Trees p.d3 (TreeCRF.len p lengths b)) i j (a : Fin p.d3), (CKYCRFProofs.treeParts b t).count [b, i, j, (a : ℕ)] = if (i, j, a) ∈ t.1.spans 0 then 1 else 0 :=
      fun t i j a => TreeCRF.count_parts (L := TreeCRF.len p lengths b) b t i j a
    have havoid : ∀ t : Trees p.d3 (TreeCRF.len p lengths b), (∀ e ∈ CKYCRFProofs.treeParts b t, CKYCRFProofs.at4 (forbid4 p F) e ≠ ⊥) ↔ TreeAvoids (F b) t := by
      intro t
      constructor
      · intro hh i j a hm
        exact (hbot b i j a).1 (hh [b, i, j, (a : ℕ)] (Multiset.mem_coe.2 (List.mem_map.2 ⟨(i, j, a), hm, rfl⟩)))
      · intro hh e he
        obtain ⟨⟨i, j, a⟩, hm, rfl⟩ := List.mem_map.1 (Multiset.mem_coe.1 he)
        exact (hbot b i j a).2 (hh i j a hm)
    simp only [List.getElem_map]
    constructor
    · intro u hu
      obtain ⟨t, ht1, ht2⟩ := (key u).1 hu
      exact ⟨t, (havoid t).1 ht1, fun i j a => (ht2 _).trans (hcount t i j a)⟩
    · intro t hta
      refine ⟨Multiset.toFinsupp (CKYCRFProofs.treeParts b t), (key _).2 ⟨t, (havoid t).2 hta, fun e => Multiset.toFinsupp_apply _ _⟩, fun i j a => ?_⟩
      rw [Multiset.toFinsupp_apply]
      exact hcount t i j a

/-! ### `DependencyCRF` -/

open Classical in
/-- **C121, `DependencyCRF` without labels.** -/
theorem dependency_spec (mr : Bool) (q : DepTree.Arcs ℝ) (lengths : Option (List ℕ)) (h : Dependency.Valid mr q lengths) (F : ℕ → ℕ → ℕ → ℕ → Prop) :
    ((∃ b < q.d0, (0 < Dependency.len q lengths b ∧ F b 0 0 0) ∨ ∃ j, j + 1 < Dependency.len q lengths b ∧ (F b j (j + 1) 0 ∨ F b (j + 1) j 0)) →
      DepTree.sampleE mr (forbidArc q F) lengths = .error .runtime) ∧
    ((∀ b < q.d0, (0 < Dependency.len q lengths b → ¬ F b 0 0 0) ∧ ∀ j, j + 1 < Dependency.len q lengths b → ¬ F b j (j + 1) 0 ∧ ¬ F b (j + 1) j 0) →
      ∃ E : Draws, DepTree.sampleE mr (forbidArc q F) lengths = .ok E ∧ E.length = q.d0 ∧ ∀ b (hb : b < E.length),
        (∀ u ∈ E[b], ∃ t : ProjTrees mr (Dependency.len q lengths b), DepAvoids (F b) t ∧ ∀ i j, u [b, i, j] = if HasArc t.1 i j then 1 else 0) ∧
        ∀ t : ProjTrees mr (Dependency.len q lengths b), DepAvoids (F b) t → ∃ u ∈ E[b], ∀ i j, u [b, i, j] = if HasArc t.1 i j then 1 else 0) := by
  have h' : Dependency.Valid mr (forbidArc q F) lengths := by
    obtain ⟨a1, a2, a3, a4, a5⟩ := h
    exact ⟨a1, a2, a3, a4, a5⟩
  have ht : ∀ b i j a, (forbidArc q F).get b i j a ≠ ⊤ := fun b i j a => forbid_top _ _
  have hok := InfSample.dep_ok mr (neg := DepTree.negBig) h'.toValid h'.rank ht
  have hbot : ∀ b i j a, (forbidArc q F).get b i j a ≠ ⊥ ↔ ¬ F b i j a := fun b i j a => forbid_bot _ _
  simp only [hbot] at hok
  obtain ⟨vs, h1, h2, h3⟩ := (DepTreeProofs.batchDP3 mr ((DepTree.negBig : ℝ) : EReal) (forbidArc q F) lengths h'.toValid h'.rank).drawn fun e => by
    unfold DepTreeProofs.atQ
    split_ifs
    exacts [EReal.coe_ne_top _, ht _ _ _ _]
  have h1' : DepTree.logpartition mr Semirings.drawE (InfSample.drawArcs mr (DepTreeProofs.conv ((DepTree.negBig : ℝ) : EReal) (forbidArc q F))) lengths = .ok vs := h1
  have hrun : DepTree.sampleE mr (forbidArc q F) lengths =
      if DepTree.sampleOk mr (InfSample.drawArcs mr (DepTreeProofs.conv ((DepTree.negBig : ℝ) : EReal) (forbidArc q F))) (DepTree.lensOr q.d0 (q.d1 + 1) lengths)
      then .ok (vs.map Drawn.events) else .error .runtime := by
    rw [DepTree.sampleE, Dependency.conv_eq _ h']
    simp only [bind, Except.bind]
    erw [h1']
    rfl
  have heq := h1'.symm.trans (DepTreeProofs.logpartition_ok mr Semirings.drawE (InfSample.drawArcs mr (DepTreeProofs.conv ((DepTree.negBig : ℝ) : EReal) (forbidArc q F))) q.d1
    lengths rfl (congrArg (· + 1) h.square.symm) h.batch h.words fun l hl => ⟨(h.lens l hl).1, fun x hx => ((h.lens l hl).2 x hx).1⟩)
  injection heq with heq
  constructor
  · rintro ⟨b, hb, hF⟩
    rw [hrun, if_neg]
    intro hc
    obtain ⟨c1, c2⟩ := hok.1 hc b hb
    rcases hF with ⟨hF1, hF2⟩ | ⟨j, hj, hF⟩
    · exact c1 hF1 hF2
    · exact hF.elim (c2 j hj).1 (c2 j hj).2
  · intro hF
    have hs := hok.2 hF
    refine ⟨_, hrun.trans (if_pos hs), (List.length_map _).trans h2, fun b hb => ?_⟩
    have hb' : b < vs.length := by rwa [List.length_map] at hb
    have hb0 : b < q.d0 := by rw [h2] at hb'; exact hb'
    have hv : vs[b].val ≠ ⊥ := by
      simp only [heq, List.getElem_map, List.getElem_range]
      exact InfSample.dep_live mr (neg := DepTree.negBig) h'.toValid (Or.inl h'.rank) ht hs hb0
    have key := h3 b hb' hv
    have havoid : ∀ t : ProjTrees mr (Dependency.len q lengths b),
        (∀ e ∈ DepTreeProofs.depParts b t, DepTreeProofs.atQ ((DepTree.negBig : ℝ) : EReal) (forbidArc q F) e ≠ ⊥) ↔ DepAvoids (F b) t := by
      intro t
      rw [depAvoids_iff]
      constructor
      · intro hh k
        exact (hbot _ _ _ _).1 (hh _ (Multiset.mem_map_of_mem _ (Finset.mem_univ k)))
      · intro hh e he
        obtain ⟨k, -, rfl⟩ := Multiset.mem_map.1 he
        exact (hbot _ _ _ _).2 (hh k)
    simp only [List.getElem_map]
    constructor
    · intro u hu
      obtain ⟨t, ht1, ht2⟩ := (key u).1 hu
      exact ⟨t, (havoid t).1 ht1, fun i j => (ht2 _).trans (Dependency.count_parts b t i j)⟩
    · intro t hta
      refine ⟨Multiset.toFinsupp (DepTreeProofs.depParts b t), (key _).2 ⟨t, (havoid t).2 hta, fun e => Multiset.toFinsupp_apply _ _⟩, fun i j => ?_⟩
      rw [Multiset.toFinsupp_apply]
      exact Dependency.count_parts b t i j

open Classical in
/-- **C121, `DependencyCRF` with labels.** -/
theorem labelled_spec (mr : Bool) (q : DepTree.Arcs ℝ) (lengths : Option (List ℕ)) (h : LabelledDependency.Valid mr q lengths) (F : ℕ → ℕ → ℕ → ℕ → Prop) :
    ((∃ b < q.d0, ∃ i < LabelledDependency.len q lengths b, ∃ j < LabelledDependency.len q lengths b, ∀ l < q.d3, F b i j l) →
      DepTree.sampleE mr (forbidArc q F) lengths = .error .runtime) ∧
    ((∀ b < q.d0, ∀ i < LabelledDependency.len q lengths b, ∀ j < LabelledDependency.len q lengths b, ∃ l < q.d3, ¬ F b i j l) →
      ∃ E : Draws, DepTree.sampleE mr (forbidArc q F) lengths = .ok E ∧ E.length = q.d0 ∧ ∀ b (hb : b < E.length),
        (∀ u ∈ E[b], ∃ t : LabelledTrees mr (LabelledDependency.len q lengths b) q.d3, LabAvoids (F b) t ∧ ∀ i j l, u [b, i, j, l] = if HasLabArc t i j l then 1 else 0) ∧
        ∀ t : LabelledTrees mr (LabelledDependency.len q lengths b) q.d3, LabAvoids (F b) t → ∃ u ∈ E[b], ∀ i j l, u [b, i, j, l] = if HasLabArc t i j l then 1 else 0) := by
  have h' : LabelledDependency.Valid mr (forbidArc q F) lengths := by
    obtain ⟨a1, a2, a3, a4, a5, a6⟩ := h
    exact ⟨a1, a2, a3, a4, a5, a6⟩
  have ht : ∀ b i j a, (forbidArc q F).get b i j a ≠ ⊤ := fun b i j a => forbid_top _ _
  have hok := InfSample.lab_ok mr (neg := DepTree.negBig) h'.toValid h'.rank ht
  have hbot : ∀ b i j a, (forbidArc q F).get b i j a ≠ ⊥ ↔ ¬ F b i j a := fun b i j a => forbid_bot _ _
  simp only [hbot] at hok
  obtain ⟨vs, h1, h2, h3⟩ := (DepTreeProofs.batchDP4 mr ((DepTree.negBig : ℝ) : EReal) (forbidArc q F) lengths h'.toValid h'.rank).drawn fun e => by
    unfold DepTreeProofs.atQ
    split_ifs
    exacts [EReal.coe_ne_top _, ht _ _ _ _]
  have h1' : DepTree.logpartition mr Semirings.drawE (InfSample.drawArcs mr (DepTreeProofs.conv ((DepTree.negBig : ℝ) : EReal) (forbidArc q F))) lengths = .ok vs := h1
  have hrun : DepTree.sampleE mr (forbidArc q F) lengths =
      if DepTree.sampleOk mr (InfSample.drawArcs mr (DepTreeProofs.conv ((DepTree.negBig : ℝ) : EReal) (forbidArc q F))) (DepTree.lensOr q.d0 (q.d1 + 1) lengths)
      then .ok (vs.map Drawn.events) else .error .runtime := by
    rw [DepTree.sampleE, LabelledDependency.conv_eq _ h']
    simp only [bind, Except.bind]
    erw [h1']
    rfl
  have heq := h1'.symm.trans (DepTreeProofs.logpartition_ok mr Semirings.drawE (InfSample.drawArcs mr (DepTreeProofs.conv ((DepTree.negBig : ℝ) : EReal) (forbidArc q F))) q.d1
    lengths rfl (congrArg (· + 1) h.square.symm) h.batch h.words fun l hl => ⟨(h.lens l hl).1, fun x hx => ((h.lens l hl).2 x hx).1⟩)
  injection heq with heq
  constructor
  · rintro ⟨b, hb, i, hi, j, hj, hF⟩
    rw [hrun, if_neg]
    intro hc
    obtain ⟨l, hl, hn⟩ := hok.1 hc b hb i hi j hj
    exact hn (hF l hl)
  · intro hF
    have hs := hok.2 hF
    refine ⟨_, hrun.trans (if_pos hs), (List.length_map _).trans h2, fun b hb => ?_⟩
    have hb' : b < vs.length := by rwa [List.length_map] at hb
    have hb0 : b < q.d0 := by rw [h2] at hb'; exact hb'
    have hv : vs[b].val ≠ ⊥ := by
      simp only [heq, List.getElem_map, List.getElem_range]
      exact InfSample.dep_live mr (neg := DepTree.negBig) h'.toValid (Or.inr h'.rank) ht hs hb0
    have key := h3 b hb' hv
    have havoid : ∀ t : LabelledTrees mr (LabelledDependency.len q lengths b) q.d3,
        (∀ e ∈ DepTreeProofs.labParts true b t, DepTreeProofs.atQ ((DepTree.negBig : ℝ) : EReal) (forbidArc q F) e ≠ ⊥) ↔ LabAvoids (F b) t := by
      intro t
      rw [labAvoids_iff]
      constructor
      · intro hh k
        exact (hbot _ _ _ _).1 (hh _ (Multiset.mem_map_of_mem _ (Finset.mem_univ k)))
      · intro hh e he
        obtain ⟨k, -, rfl⟩ := Multiset.mem_map.1 he
        exact (hbot _ _ _ _).2 (hh k)
    simp only [List.getElem_map]
    constructor
    · intro u hu
      obtain ⟨t, ht1, ht2⟩ := (key u).1 hu
      exact ⟨t, (havoid t).1 ht1, fun i j l => (ht2 _).trans (LabelledDependency.count_parts b t i j l)⟩
    · intro t hta
      refine ⟨Multiset.toFinsupp (DepTreeProofs.labParts true b t), (key _).2 ⟨t, (havoid t).2 hta, fun e => Multiset.toFinsupp_apply _ _⟩, fun i j l => ?_⟩
      rw [Multiset.toFinsupp_apply]
      exact LabelledDependency.count_parts b t i j l

/-! ### `LinearChainCRF` and `SemiMarkovCRF` -/

/-- **C121, `LinearChainCRF`.** -/
theorem chain_spec (p : T4 ℝ) (lengths : Option (List ℕ)) (h : LinearChain.Valid p lengths) (F : ℕ → ℕ → ℕ → ℕ → Prop) :
    ∃ E : Draws, LinearChain.sampleE (forbid4 p F) lengths = .ok E ∧ E.length = p.d0 ∧ ∀ b (hb : b < E.length), E[b].Nonempty ∧
      ∀ u ∈ E[b], ∀ n < LinearChain.numEdges p lengths b, ∀ i j, F b n i j → u [b, n, i, j] = 0 := by
  classical
  have ht : ∀ b i j a, (forbid4 p F).get b i j a ≠ ⊤ := fun b i j a => forbid_top _ _
  have hlp := LinearChainProofs.logpartition_ok Semirings.drawE
    (LinearChain.algo.map (fun x : EReal × List ℕ => drawLeaf x.1 x.2) (LinearChain.algo.index (forbid4 p F))) lengths h.square h.edges h.lens
  obtain ⟨lens, hlens⟩ : ∃ lens, LinearChain.checkPotentials (LinearChain.algo.map (fun x : EReal × List ℕ => drawLeaf x.1 x.2) (LinearChain.algo.index (forbid4 p F))) lengths = .ok lens := by
    cases hc : LinearChain.checkPotentials (LinearChain.algo.map (fun x : EReal × List ℕ => drawLeaf x.1 x.2) (LinearChain.algo.index (forbid4 p F))) lengths with
    | error e =>
      simp only [LinearChain.logpartition, hc, bind, Except.bind] at hlp
      cases hlp
    | ok lens => exact ⟨lens, rfl⟩
  have hbin : Struct.binLength p.d1 = .ok (Nat.clog 2 p.d1, 2 ^ Nat.clog 2 p.d1) := if_neg h.edges.ne'
  refine ⟨((List.range p.d0).map fun b => LinearChain.core Semirings.drawE (C := p.d2) (p.d1 + 1) (Nat.clog 2 p.d1) (lenOf (p.d1 + 1) lengths)
      (fun b n i j => drawLeaf ((forbid4 p F).get b n i j) [b, n, i, j]) b).map Drawn.events, ?_, ?_, ?_⟩
  · simp only [LinearChain.sampleE, hlp, hlens, bind, Except.bind]
    erw [hbin]
    dsimp only
    rw [if_pos]
    · rfl
    · intro b _
      exact (InfSample.chain_row (C := p.d2) h.classes (forbid4 p F) ht (p.d1 + 1) (Nat.clog 2 p.d1) (fun b => lens.getD b 0) b).1
  · simp
  · intro b hb
    simp only [List.getElem_map, List.getElem_range]
    obtain ⟨-, h1, h2⟩ := InfSample.chain_row (C := p.d2) h.classes (forbid4 p F) ht (p.d1 + 1) (Nat.clog 2 p.d1) (lenOf (p.d1 + 1) lengths) b
    refine ⟨h1.2, fun u hu n hn i j hF => h2.2 h1.1.2.1 u hu _ ⟨b, n, i, j, rfl, ?_, if_pos hF⟩⟩
    unfold LinearChain.numEdges at hn
    omega

/-- **C121, `SemiMarkovCRF`.** -/
theorem semi_spec (p : T5 ℝ) (lengths : Option (List ℕ)) (h : SemiMarkov.Valid p lengths) (F : ℕ → ℕ → ℕ → ℕ → ℕ → Prop) :
    ∃ E : Draws, SemiMarkov.sampleE (forbid5 p F) lengths = .ok E ∧ E.length = p.d0 ∧ ∀ b (hb : b < E.length), E[b].Nonempty ∧
      ∀ u ∈ E[b], ∀ n < SemiMarkov.steps p lengths b, ∀ k i j, F b n k i j → u [b, n, k, i, j] = 0 := by
  classical
  have ht : ∀ b n k i j, (forbid5 p F).get b n k i j ≠ ⊤ := fun b n k i j => forbid_top _ _
  have hK : 0 < p.d2 - 1 := SemiMarkov.hK h
  have h' : SemiMarkovProofs.Valid (SemiMarkov.algo.map (fun x : EReal × List ℕ => drawLeaf x.1 x.2) (SemiMarkov.algo.index (forbid5 p F))) lengths := by
    obtain ⟨a1, a2, a3, a4, a5, a6⟩ := h
    exact ⟨a1, a2, a3, a4, a5, a6⟩
  have hlp := SemiMarkovProofs.logpartition_ok Semirings.drawE (SemiMarkov.algo.map (fun x : EReal × List ℕ => drawLeaf x.1 x.2) (SemiMarkov.algo.index (forbid5 p F))) lengths h' hK
  have hlens := SemiMarkovProofs.checkPotentials_ok _ lengths h'
  have hbin : Struct.binLength p.d1 = .ok (Nat.clog 2 p.d1, 2 ^ Nat.clog 2 p.d1) := if_neg (by have := h'.positions; exact Nat.pos_iff_ne_zero.1 this)
  have hrow := fun b => InfSample.semi_row (C := p.d3) hK h'.classes (forbid5 p F) ht (p.d1 + 1) (Nat.clog 2 p.d1)
    (fun b => (LinearChain.lensOr p.d0 (p.d1 + 1) lengths).getD b 0) b
  refine ⟨((List.range p.d0).map fun b => SemiMarkov.core Semirings.drawE p.d3 hK (p.d1 + 1) (Nat.clog 2 p.d1) (fun b => (LinearChain.lensOr p.d0 (p.d1 + 1) lengths).getD b 0)
      (fun b n k i j => drawLeaf ((forbid5 p F).get b n k i j) [b, n, k, i, j]) b).map Drawn.events, ?_, ?_, ?_⟩
  · simp only [SemiMarkov.sampleE, hlp, hlens, bind, Except.bind]
    erw [hbin]
    dsimp only
    rw [if_pos]
    · rfl
    · intro _ b _
      exact (hrow b).1
  · simp
  · intro b hb
    simp only [List.getElem_map, List.getElem_range]
    obtain ⟨-, h1, h2⟩ := hrow b
    refine ⟨h1.2, fun u hu n hn k i j hF => h2.2 h1.1.2.1 u hu _ ⟨b, n, k, i, j, rfl, ?_, if_pos hF⟩⟩
    have hb0 : b < p.d0 := by simpa using hb
    simp only [SemiMarkovProofs.lensOr_getD lengths b hb0]
    unfold SemiMarkov.steps at hn
    omega

/-! ### The hypotheses are met -/

/-- Forbidding the entry `(2, 0)` of row 0, which is below the diagonal so that no tree has it, makes `sample` raise. -/
example : CKYCRF.sampleE (forbid4 TreeCRF.sample fun b i j _ => b = 0 ∧ i = 2 ∧ j = 0) (some [3, 2]) = .error .runtime :=
  (tree_spec TreeCRF.sample _ TreeCRF.sample_valid _).1 ⟨0, by decide, 2, by decide, 0, by decide, fun _ _ => ⟨rfl, rfl, rfl⟩⟩

/-- Forbidding label 0 everywhere does not. -/
example : ∃ E, CKYCRF.sampleE (forbid4 TreeCRF.sample fun _ _ _ a => a = 0) (some [3, 2]) = .ok E ∧ E.length = 2 := by
  obtain ⟨E, h1, h2, -⟩ := (tree_spec TreeCRF.sample _ TreeCRF.sample_valid fun _ _ _ a => a = 0).2 fun b _ i _ j _ => ⟨1, by decide, by decide⟩
  exact ⟨E, h1, h2⟩

/-- Forbidding the arc from the first to the second word makes `sample` raise, although there are other trees. -/
example (mr : Bool) : DepTree.sampleE mr (forbidArc Dependency.sample fun _ i j _ => i = 0 ∧ j = 1) (some [3, 2]) = .error .runtime :=
  (dependency_spec mr Dependency.sample _ (Dependency.sample_valid mr) _).1 ⟨0, by decide, Or.inr ⟨0, by decide, Or.inl ⟨rfl, rfl⟩⟩⟩

/-- Forbidding the arc from the first to the third word does not. -/
example (mr : Bool) : ∃ E, DepTree.sampleE mr (forbidArc Dependency.sample fun _ i j _ => i = 0 ∧ j = 2) (some [3, 2]) = .ok E ∧ E.length = 2 := by
  obtain ⟨E, h1, h2, -⟩ := (dependency_spec mr Dependency.sample _ (Dependency.sample_valid mr) fun _ i j _ => i = 0 ∧ j = 2).2 fun b _ =>
    ⟨fun _ => by omega, fun j _ => ⟨by omega, by omega⟩⟩
  exact ⟨E, h1, h2⟩

/-- With labels, forbidding one label of every arc does not make `sample` raise, and forbidding both labels of the arc from the first to the third word
does, although there are trees without it. -/
example (mr : Bool) : (∃ E, DepTree.sampleE mr (forbidArc LabelledDependency.sample fun _ _ _ l => l = 0) (some [3, 2]) = .ok E ∧ E.length = 2) ∧
    DepTree.sampleE mr (forbidArc LabelledDependency.sample fun _ i j _ => i = 0 ∧ j = 2) (some [3, 2]) = .error .runtime := by
  obtain ⟨E, h1, h2, -⟩ := (labelled_spec mr LabelledDependency.sample _ (LabelledDependency.sample_valid mr) fun _ _ _ l => l = 0).2 fun b _ i _ j _ => ⟨1, by decide, by decide⟩
  exact ⟨⟨E, h1, h2⟩, (labelled_spec mr LabelledDependency.sample _ (LabelledDependency.sample_valid mr) _).1 ⟨0, by decide, 0, by decide, 2, by decide, fun _ _ => ⟨rfl, rfl⟩⟩⟩

/-- With every transition forbidden, `sample` of a chain returns an event without any transition. -/
example : ∃ E : Draws, LinearChain.sampleE (forbid4 LinearChain.sample fun _ _ _ _ => True) (some [3, 2]) = .ok E ∧ ∃ h : 0 < E.length,
    E[0].Nonempty ∧ ∀ u ∈ E[0], ∀ n < 2, ∀ i j, u [0, n, i, j] = 0 := by
  obtain ⟨E, h1, h2, h3⟩ := chain_spec LinearChain.sample _ LinearChain.sample_valid fun _ _ _ _ => True
  have h : 0 < E.length := by rw [h2]; decide
  exact ⟨E, h1, h, (h3 0 h).1, fun u hu n hn i j => (h3 0 h).2 u hu n hn i j trivial⟩

/-- With the segments of length 2 out of label 1 forbidden, none is drawn. -/
example : ∃ E : Draws, SemiMarkov.sampleE (forbid5 SemiMarkov.sample SemiInfinity.banned) (some [4, 3]) = .ok E ∧ ∃ h : 1 < E.length,
    E[1].Nonempty ∧ ∀ u ∈ E[1], u [1, 0, 2, 0, 1] = 0 := by
  obtain ⟨E, h1, h2, h3⟩ := semi_spec SemiMarkov.sample _ SemiMarkov.sample_valid SemiInfinity.banned
  have h : 1 < E.length := by rw [h2]; decide
  exact ⟨E, h1, h, (h3 1 h).1, fun u hu => (h3 1 h).2 u hu 0 (by decide) 2 0 1 ⟨rfl, rfl⟩⟩

end Props.InfSample
