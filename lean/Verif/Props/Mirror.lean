import Verif.Proofs.Mirror
import Verif.Props.Dependency
import Verif.Props.LabelledDependency
import Verif.Props.SentCFG
import Verif.Props.TreeCRF

/-! Property theorems C107: it does not matter in which direction a sentence is read.  The tables of the reversed sentences are in `Spec/Mirror.lean`. -/

open Finset Spec Generic

noncomputable section
namespace Props.Mirror

/-! ### TreeCRF -/

section tree
variable (lengths : Option (List ℕ))

/-- **C107.** The value of a batch of reversed sentences is the value of the batch, in every commutative semiring. -/
theorem tree_any_semiring {R : Type} [CommSemiring R] (p : T4 R) (h : TreeCRF.Valid p lengths) :
    CKYCRF.logpartition (Semirings.std R) (mirrorSpans p lengths) lengths = CKYCRF.logpartition (Semirings.std R) p lengths :=
  relabel_any (CKYCRFProofs.batchDP p lengths h) (CKYCRFProofs.batchDP (mirrorSpans p lengths) lengths (_root_.Mirror.mirrorSpans_valid h))
    fun b _ => _root_.Mirror.tree_relabel p lengths b

/-- **C107.** `partition`, `max` and `entropy` of `TreeCRF` are those of the reversed sentences. -/
theorem tree_queries (p : T4 ℝ) (h : TreeCRF.Valid p lengths) :
    Dist.partition CKYCRF.algo (mirrorSpans p lengths) lengths = Dist.partition CKYCRF.algo p lengths ∧
    Dist.max CKYCRF.algo (mirrorSpans p lengths) lengths = Dist.max CKYCRF.algo p lengths ∧
    Dist.entropy CKYCRF.algo (mirrorSpans p lengths) lengths = Dist.entropy CKYCRF.algo p lengths := by
  have D := CKYCRFProofs.batchDP p lengths h
  have D' := CKYCRFProofs.batchDP (mirrorSpans p lengths) lengths (_root_.Mirror.mirrorSpans_valid h)
  exact ⟨relabel_partition D D' fun b _ => _root_.Mirror.tree_relabel p lengths b, relabel_max D D' fun b _ => _root_.Mirror.tree_relabel p lengths b,
    relabel_entropy D D' fun b _ => _root_.Mirror.tree_relabel p lengths b⟩

/-- **C107.** ... so is `kmax`, for potentials far from the stand-in ... -/
theorem tree_kmax (p : T4 ℝ) (h : TreeCRF.Valid p lengths) {M : ℝ} (hM : TreeCRF.SmallPotentials p lengths M) {k : ℕ} (hk : 0 < k)
    (hc : ∀ b < p.d0, k ≤ Fintype.card (Trees p.d3 (TreeCRF.len p lengths b))) :
    Dist.kmax CKYCRF.algo (mirrorSpans p lengths) lengths k = Dist.kmax CKYCRF.algo p lengths k :=
  relabel_kmax (CKYCRFProofs.batchDP p lengths h) (CKYCRFProofs.batchDP (mirrorSpans p lengths) lengths (_root_.Mirror.mirrorSpans_valid h))
    (fun b _ => _root_.Mirror.tree_relabel p lengths b) (fun b hb => TreeCRF.small h hM b hb) hk hc

/-- **C107.** ... and `count`, also with forbidden spans ... -/
theorem tree_count (p : T4 EReal) (h : TreeCRF.Valid p lengths) :
    Dist.count CKYCRF.algo lengths (mirrorSpans p lengths) = Dist.count CKYCRF.algo lengths p :=
  relabel_count (CKYCRFProofs.batchDP p lengths h) (CKYCRFProofs.batchDP (mirrorSpans p lengths) lengths (_root_.Mirror.mirrorSpans_valid h))
    fun b _ => _root_.Mirror.tree_relabel p lengths b

/-- **C107.** ... and the marginal of a span is the marginal of the mirrored span. -/
theorem tree_marginals (p : T4 ℝ) (h : TreeCRF.Valid p lengths) :
    ∃ μ μ', Dist.marginals CKYCRF.algo p lengths = .ok μ ∧ Dist.marginals CKYCRF.algo (mirrorSpans p lengths) lengths = .ok μ' ∧
      ∀ b < p.d0, ∀ i j, i ≤ j → j < TreeCRF.len p lengths b → ∀ a < p.d3,
        μ' [b, TreeCRF.len p lengths b - 1 - j, TreeCRF.len p lengths b - 1 - i, a] = μ [b, i, j, a] := by
  obtain ⟨μ, μ', h1, h2, h3⟩ := relabel_marginals (CKYCRFProofs.batchDP p lengths h)
    (CKYCRFProofs.batchDP (mirrorSpans p lengths) lengths (_root_.Mirror.mirrorSpans_valid h)) fun b _ => _root_.Mirror.tree_relabel p lengths b
  exact ⟨μ, μ', h1, h2, fun b hb i j hij hj a ha => h3 b hb [b, i, j, a] ⟨i, j, a, rfl, hij, hj, ha⟩⟩

end tree

/-! ### DependencyCRF, with and without labels, one or several roots -/

section dep
variable (mr : Bool) (lengths : Option (List ℕ))

/-- What the theorems assume: a table of rank 3 or 4 (with at least one label), square, with at least one row; with a single root, at least one word in
every row. -/
abbrev DepValid {γ : Type} (q : DepTree.Arcs γ) (lengths : Option (List ℕ)) : Prop := DepTreeProofs.Valid mr q lengths

theorem conv_ok {γ : Type} {mr : Bool} {lengths : Option (List ℕ)} (neg : γ) {q : DepTree.Arcs γ} (h : DepValid mr q lengths) :
    DepTree.convert neg q = .ok (DepTreeProofs.conv neg q) := DepTreeProofs.convert_ok neg h.rank h.square

/-- **C107.** In every commutative semiring. -/
theorem dep_any_semiring {R : Type} [CommSemiring R] (neg : R) (q : DepTree.Arcs R) (h : DepValid mr q lengths) :
    DepTree.sum mr (Semirings.std R) neg (mirrorArcs q lengths) lengths = DepTree.sum mr (Semirings.std R) neg q lengths := by
  rw [DepTree.sum, DepTree.sum, conv_ok neg h, conv_ok neg (_root_.Mirror.mirrorArcs_valid h)]
  exact relabel_any (DepTreeProofs.batchDP mr neg q lengths h)
    (DepTreeProofs.batchDP mr neg (mirrorArcs q lengths) lengths (_root_.Mirror.mirrorArcs_valid h)) fun b _ => _root_.Mirror.lab_relabel mr neg q lengths b

/-- **C107.** `partition`, `max` and `entropy` of `DependencyCRF` are those of the reversed sentences. -/
theorem dep_queries (q : DepTree.Arcs ℝ) (h : DepValid mr q lengths) :
    DepTree.partition mr (mirrorArcs q lengths) lengths = DepTree.partition mr q lengths ∧
    DepTree.max mr (mirrorArcs q lengths) lengths = DepTree.max mr q lengths ∧
    DepTree.entropy mr (mirrorArcs q lengths) lengths = DepTree.entropy mr q lengths := by
  have D := DepTreeProofs.batchDP mr DepTree.negBig q lengths h
  have D' := DepTreeProofs.batchDP mr DepTree.negBig (mirrorArcs q lengths) lengths (_root_.Mirror.mirrorArcs_valid h)
  have e := conv_ok DepTree.negBig h
  have e' := conv_ok DepTree.negBig (_root_.Mirror.mirrorArcs_valid h)
  refine ⟨?_, ?_, ?_⟩
  · rw [DepTree.partition, DepTree.partition, e, e']
    exact relabel_partition D D' fun b _ => _root_.Mirror.lab_relabel mr DepTree.negBig q lengths b
  · rw [DepTree.max, DepTree.max, e, e']
    exact relabel_max D D' fun b _ => _root_.Mirror.lab_relabel mr DepTree.negBig q lengths b
  · rw [DepTree.entropy, DepTree.entropy, e, e']
    exact relabel_entropy D D' fun b _ => _root_.Mirror.lab_relabel mr DepTree.negBig q lengths b

/-- **C107.** ... so is `count` ... -/
theorem dep_count (q : DepTree.Arcs EReal) (h : DepValid mr q lengths) :
    DepTree.count mr lengths (mirrorArcs q lengths) = DepTree.count mr lengths q :=
  dep_any_semiring mr lengths DepTree.negBig (⟨q.rank, q.d0, q.d1, q.d2, q.d3, fun b i j l => if q.get b i j l = ⊥ then (0 : ℝ) else 1⟩ : DepTree.Arcs ℝ)
    ⟨h.rank, h.square, h.labels, h.batch, h.words, h.lens⟩

/-- **C107.** ... `kmax`, for potentials far from the stand-in ... -/
theorem dep_kmax (q : DepTree.Arcs ℝ) (h : DepValid mr q lengths) {M : ℝ} (hM0 : 0 ≤ M)
    (hM : ∀ b < q.d0, ∀ i j l, i < lenOf q.d1 lengths b → j < lenOf q.d1 lengths b → l < q.labels → |q.get b i j l| ≤ M)
    (hs : 2 * (q.d1 + 1) * M < 100000) {k : ℕ} (hk : 0 < k) (hc : ∀ b < q.d0, k ≤ Fintype.card (LabelledTrees mr (lenOf q.d1 lengths b) q.labels)) :
    DepTree.kmax mr (mirrorArcs q lengths) lengths k = DepTree.kmax mr q lengths k := by
  rw [DepTree.kmax, DepTree.kmax, conv_ok DepTree.negBig h, conv_ok DepTree.negBig (_root_.Mirror.mirrorArcs_valid h)]
  refine relabel_kmax (n := fun _ => q.d1 + 1) (M := fun _ => M) (DepTreeProofs.batchDP mr DepTree.negBig q lengths h)
    (DepTreeProofs.batchDP mr DepTree.negBig (mirrorArcs q lengths) lengths (_root_.Mirror.mirrorArcs_valid h))
    (fun b _ => _root_.Mirror.lab_relabel mr DepTree.negBig q lengths b) (fun b hb => ?_) hk hc
  have hd : (0 : ℝ) ≤ q.d1 := Nat.cast_nonneg _
  refine ⟨hM0, fun e he => ?_, fun y => ?_, fun y => y.elim, by push_cast; exact hs, by nlinarith⟩
  · obtain ⟨i, j, l, rfl, h1, h2, h3⟩ := _root_.Mirror.entry_cell he
    rw [DepTreeProofs.atQ_cell]
    · exact hM b hb i j l h1 h2 h3
    · by_cases hq : q.labeled
      · exact Or.inl hq
      · right
        simp only [DepTree.Arcs.labels, if_neg hq] at h3
        omega
  · rw [DepTreeProofs.labParts, Multiset.card_map]
    have := (DepTreeProofs.len_le h hb).1
    simp
    omega

/-- **C107.** ... and the marginal of an arc is the marginal of the mirrored arc; the root arcs stay on the diagonal. -/
theorem dep_marginals (q : DepTree.Arcs ℝ) (h : DepValid mr q lengths) :
    ∃ μ μ', DepTree.marginals mr q lengths = .ok μ ∧ DepTree.marginals mr (mirrorArcs q lengths) lengths = .ok μ' ∧
      ∀ b < q.d0, ∀ i < lenOf q.d1 lengths b, ∀ j < lenOf q.d1 lengths b,
        (q.rank = 3 → μ' [b, lenOf q.d1 lengths b - 1 - i, lenOf q.d1 lengths b - 1 - j] = μ [b, i, j]) ∧
        (q.rank = 4 → ∀ l < q.d3, μ' [b, lenOf q.d1 lengths b - 1 - i, lenOf q.d1 lengths b - 1 - j, l] = μ [b, i, j, l]) := by
  rw [DepTree.marginals, DepTree.marginals, conv_ok DepTree.negBig h, conv_ok DepTree.negBig (_root_.Mirror.mirrorArcs_valid h)]
  obtain ⟨μ, μ', h1, h2, h3⟩ := relabel_marginals (DepTreeProofs.batchDP mr DepTree.negBig q lengths h)
    (DepTreeProofs.batchDP mr DepTree.negBig (mirrorArcs q lengths) lengths (_root_.Mirror.mirrorArcs_valid h))
    fun b _ => _root_.Mirror.lab_relabel mr DepTree.negBig q lengths b
  refine ⟨μ, μ', h1, h2, fun b hb i hi j hj => ⟨fun h3' => ?_, fun h4 l hl => ?_⟩⟩
  · have := h3 b hb _ (_root_.Mirror.cell_entry (lab := decide q.labeled) (b := b) (l := 0) hi hj h.labels)
    rw [DepTreeProofs.not_labeled h3'] at this
    exact this
  · have := h3 b hb _ (_root_.Mirror.cell_entry (lab := decide q.labeled) (b := b) (l := l) hi hj (by rw [DepTreeProofs.labels_four h4]; exact hl))
    rw [DepTreeProofs.is_labeled h4] at this
    exact this

end dep

/-! ### SentCFG -/

section grammar
variable (lengths : Option (List ℕ))

/-- **C107.** In every commutative semiring. -/
theorem cfg_any_semiring {R : Type} [CommSemiring R] (p : CKY.Scores R) (h : SentCFG.Valid p lengths) :
    CKY.logpartition (Semirings.std R) (mirrorGrammar p lengths) lengths = CKY.logpartition (Semirings.std R) p lengths := by
  have D' := CKYProofs.batchDP (mirrorGrammar p lengths) lengths (_root_.Mirror.mirrorGrammar_valid h.toProofs)
  have H := fun b (_ : b < p.batch) => _root_.Mirror.grammar_relabel p lengths b
  have e : (mirrorGrammar p lengths).mark.isSome = p.mark.isSome := by simp [mirrorGrammar]
  rw [e] at D'
  exact relabel_any (CKYProofs.batchDP p lengths h.toProofs) D' H

/-- **C107.** `partition`, `max` and `entropy` of `SentCFG` are those of the reversed sentences under the grammar whose rules have their children exchanged;
exactly, including the effect of the stand-in for minus infinity, and for rows of any length. -/
theorem cfg_queries (p : CKY.Scores ℝ) (h : SentCFG.Valid p lengths) :
    Dist.partition CKY.algo (mirrorGrammar p lengths) lengths = Dist.partition CKY.algo p lengths ∧
    Dist.max CKY.algo (mirrorGrammar p lengths) lengths = Dist.max CKY.algo p lengths ∧
    Dist.entropy CKY.algo (mirrorGrammar p lengths) lengths = Dist.entropy CKY.algo p lengths := by
  have D := CKYProofs.batchDP p lengths h.toProofs
  have D' := CKYProofs.batchDP (mirrorGrammar p lengths) lengths (_root_.Mirror.mirrorGrammar_valid h.toProofs)
  have H := fun b (_ : b < p.batch) => _root_.Mirror.grammar_relabel p lengths b
  have e : (mirrorGrammar p lengths).mark.isSome = p.mark.isSome := by simp [mirrorGrammar]
  rw [e] at D'
  exact ⟨relabel_partition D D' H, relabel_max D D' H, relabel_entropy D D' H⟩

/-- **C107.** ... so is `kmax`, for scores far from the stand-in ... -/
theorem cfg_kmax (p : CKY.Scores ℝ) (h : SentCFG.Valid p lengths) {B : ℝ} (hB : SentCFG.Bounded p lengths B) (hsmall : 4 * p.N * B < 100000) {k : ℕ} (hk : 0 < k)
    (hc : ∀ b < p.batch, k ≤ Fintype.card (SentCFG.Der p lengths b)) :
    Dist.kmax CKY.algo (mirrorGrammar p lengths) lengths k = Dist.kmax CKY.algo p lengths k := by
  have D' := CKYProofs.batchDP (mirrorGrammar p lengths) lengths (_root_.Mirror.mirrorGrammar_valid h.toProofs)
  have H := fun b (_ : b < p.batch) => _root_.Mirror.grammar_relabel p lengths b
  have e : (mirrorGrammar p lengths).mark.isSome = p.mark.isSome := by simp [mirrorGrammar]
  rw [e] at D'
  exact relabel_kmax (CKYProofs.batchDP p lengths h.toProofs) D' H (fun b hb => SentCFG.small_plain h hB hsmall b hb) hk hc

/-- **C107.** ... and `count` ... -/
theorem cfg_count (p : CKY.Scores EReal) (h : SentCFG.Valid p lengths) :
    Dist.count CKY.algo lengths (mirrorGrammar p lengths) = Dist.count CKY.algo lengths p := by
  have D' := CKYProofs.batchDP (mirrorGrammar p lengths) lengths (_root_.Mirror.mirrorGrammar_valid h.toProofs)
  have H := fun b (_ : b < p.batch) => _root_.Mirror.grammar_relabel p lengths b
  have e : (mirrorGrammar p lengths).mark.isSome = p.mark.isSome := by simp [mirrorGrammar]
  rw [e] at D'
  exact relabel_count (CKYProofs.batchDP p lengths h.toProofs) D' H

/-- **C107.** ... and `marginals`: the words and constituents are mirrored, the rules have their children exchanged, the roots stay. -/
theorem cfg_marginals (p : CKY.Scores ℝ) (h : SentCFG.Valid p lengths) (hN : p.N ≠ 1) :
    ∃ μ μ', CKY.marginals p lengths = .ok μ ∧ CKY.marginals (mirrorGrammar p lengths) lengths = .ok μ' ∧ ∀ b < p.batch,
      (∀ n < SentCFG.len p lengths b, ∀ t < p.T, μ'.term b (SentCFG.len p lengths b - 1 - n) t = μ.term b n t) ∧
      (∀ X < p.NT, ∀ y < p.NT + p.T, ∀ z < p.NT + p.T, μ'.rule b X z y = μ.rule b X y z) ∧
      (∀ X < p.NT, μ'.root b X = μ.root b X) ∧
      (∀ w i, i + w + 1 < SentCFG.len p lengths b → ∀ X < p.NT, μ'.spans b w (SentCFG.len p lengths b - 1 - (i + w + 1)) X = μ.spans b w i X) := by
  have D := CKYProofs.batchDP (CKY.marked p) lengths h.marked
  have e : CKY.marked (mirrorGrammar p lengths) = mirrorGrammar (CKY.marked p) lengths := rfl
  have D' := CKYProofs.batchDP (mirrorGrammar (CKY.marked p) lengths) lengths (_root_.Mirror.mirrorGrammar_valid h.marked)
  have H := fun b (_ : b < p.batch) => _root_.Mirror.grammar_relabel (CKY.marked p) lengths b
  obtain ⟨μ, μ', h1, h2, h3⟩ := relabel_marginals D D' H
  refine ⟨CKY.arrange p.N μ, CKY.arrange p.N μ', ?_, ?_, fun b hb => ⟨fun n hn t ht => ?_, fun X hX y hy z hz => ?_, fun X hX => ?_, fun w i hi X hX => ?_⟩⟩
  · rw [CKY.marginals, if_neg hN, h1]; rfl
  · rw [CKY.marginals, if_neg (show (mirrorGrammar p lengths).N ≠ 1 from hN), e, h2]; rfl
  · exact h3 b hb [b, 0, n, t] (Or.inl ⟨n, t, rfl, hn, ht⟩)
  · exact h3 b hb [b, 1, X, y, z] (Or.inr (Or.inl ⟨X, y, z, rfl, hX, hy, hz⟩))
  · exact h3 b hb [b, 2, X] (Or.inr (Or.inr (Or.inl ⟨X, rfl, hX⟩)))
  · have hlen : SentCFG.len p lengths b ≤ p.N := SentCFG.len_le h b hb
    have := h3 b hb [b, 3, w, i, X] (Or.inr (Or.inr (Or.inr ⟨rfl, w, i, X, rfl, hi, hX⟩)))
    simp only [CKY.arrange, CKY.arrangeSpans]
    rw [if_pos (by omega), if_pos (by omega), ← this]
    show μ' [b, 3, w, _, X] = μ' [b, 3, w, SentCFG.len p lengths b - 1 - (w + 1) - i, X]
    rw [show SentCFG.len p lengths b - 1 - (i + w + 1) = SentCFG.len p lengths b - 1 - (w + 1) - i from by omega]

end grammar

/-! ### Concrete cases -/

/-- The hypotheses are met by the samples of the other files, and the mirrored tables are different. -/
example : TreeCRF.Valid TreeCRF.sample (some [3, 2]) ∧
    (mirrorSpans TreeCRF.sample (some [3, 2])).get 0 0 1 0 ≠ TreeCRF.sample.get 0 0 1 0 :=
  ⟨TreeCRF.sample_valid, by norm_num [mirrorSpans, TreeCRF.sample, lenOf]⟩

example (mr : Bool) : DepValid mr Dependency.sample (some [3, 2]) ∧ DepValid mr LabelledDependency.sample (some [3, 2]) ∧
    (mirrorArcs Dependency.sample (some [3, 2])).get 0 0 1 0 ≠ Dependency.sample.get 0 0 1 0 :=
  ⟨(Dependency.sample_valid mr).toValid, (LabelledDependency.sample_valid mr).toValid, by norm_num [mirrorArcs, Dependency.sample, lenOf]⟩

example : SentCFG.Valid SentCFG.sample (some [3, 2]) ∧
    (mirrorGrammar SentCFG.sample (some [3, 2])).rule 0 0 1 2 ≠ SentCFG.sample.rule 0 0 1 2 :=
  ⟨SentCFG.sample_valid, by norm_num [mirrorGrammar, SentCFG.sample]⟩

end Props.Mirror
