import Verif.Props.TreeCRF
import Verif.Props.SentCFG
import Verif.Props.Dependency
import Verif.Props.SemiMarkov
import Verif.Props.LinearChainValue

/-! Property theorems about batch rows of length 0 (an empty sentence in a batch): C77.

The claim is that the value of such a row does not depend on any potential. It holds for `DependencyCRF`, `LinearChainCRF` and `SemiMarkovCRF`;
it is false for `TreeCRF` and `SentCFG`, which read the entry `lengths - 1 = -1`, the last one. -/

open Finset Spec

noncomputable section
namespace Props.EmptyRows

variable {α : Type}

/-- The row of a list of results. -/
def rowIs (r : Except PyErr (List α)) (b : ℕ) (v : α) : Prop := ∃ vs, r = .ok vs ∧ vs[b]? = some v

theorem foldl_acr (S : SR α) (s N : ℕ) (arc : ℕ → ℕ → ℕ → α) (b i : ℕ) (l : List ℕ) (st : DepTree.Charts α) :
    (l.foldl (fun st k => DepTree.step S s N arc st (k + 1)) st).acr b i 0 = st.acr b i 0 := by
  induction l generalizing st with
  | nil => rfl
  | cons k l ih =>
    rw [List.foldl_cons, ih]
    simp only [DepTree.step, DepTree.stepC, DepTree.stepI, DepTree.writeA]
    rw [if_neg (by omega)]

theorem foldl_root (S : SR α) (N : ℕ) (span : ℕ → ℕ → α) (b i : ℕ) (l : List ℕ) (st : DepTree.Charts α) :
    (l.foldl (fun st k => DepTree.rootStep S N span st (k + 1)) st).acr b i 0 = st.acr b i 0 := by
  induction l generalizing st with
  | nil => rfl
  | cons k l ih =>
    rw [List.foldl_cons, ih]
    simp only [DepTree.rootStep]
    rw [if_neg (by omega)]

/-- **C77.** A row of length 0 of `DependencyCRF` has the value `one` in every semiring, in both root modes, with and without labels, whatever the
potentials are. -/
theorem dependency_empty_row_partial (multiroot : Bool) (S : SR α) (p : DepTree.Arcs α) (l : List ℕ) (hsq : p.d1 = p.d2) (hl : l.length = p.d0)
    (hle : ∀ x ∈ l, x < p.d1) (h2 : multiroot = false → 2 ≤ p.d1) (b : ℕ) (hb : l[b]? = some 0) :
    rowIs (DepTree.logpartition multiroot S p (some l)) b S.one := by
  have hb' : b < p.d0 := by rw [← hl]; exact (List.getElem?_eq_some_iff.1 hb).1
  have hne : l ≠ [] := by rintro rfl; simp at hb
  refine ⟨(List.range p.d0).map fun b => DepTree.final multiroot S p.d1 (DepTree.arcScores S p l) b (l.getD b 0), ?_, ?_⟩
  · unfold DepTree.logpartition
    dsimp only
    rw [if_neg (by simpa using hsq), if_neg (show ¬ DepTree.lensOr p.d0 p.d1 (some l) = [] from hne),
      if_neg (by rintro ⟨x, hx, h⟩; have := hle x hx; omega),
      if_neg (show ¬ (DepTree.lensOr p.d0 p.d1 (some l)).length < p.d0 from by simp only [DepTree.lensOr]; omega),
      if_neg (by rintro ⟨h, h'⟩; have := h2 h; omega),
      if_neg (by
        rintro (h | ⟨x, hx, h⟩)
        · simp only [DepTree.lensOr] at h; omega
        · have := hle x hx; omega)]
    rfl
  have hg : l.getD b 0 = 0 := by rw [List.getD_eq_getElem?_getD, hb]; rfl
  rw [List.getElem?_map, List.getElem?_range hb']
  simp only [Option.map_some, hg, Option.some.injEq, DepTree.final]
  cases multiroot
  · simp only [Bool.false_eq_true, if_false, DepTree.rootCharts, DepTree.charts]
    rw [foldl_root, foldl_acr]
    simp [DepTree.init, SR.fill]
  · simp only [if_true, DepTree.charts]
    rw [foldl_acr]
    simp [DepTree.init, SR.fill]

/-- **C77.** A row of length 0 of `LinearChainCRF` has, in every commutative semiring, the value of a row of length 1: the number of classes,
whatever the potentials are. -/
theorem chain_empty_row_partial {R : Type} [CommSemiring R] (p : T4 R) (l : List ℕ) (h : Props.LinearChain.Valid p (some l)) (b : ℕ) (hb : l[b]? = some 0) :
    rowIs (_root_.LinearChain.logpartition (Semirings.std R) p (some l)) b (p.d2 : R) := by
  obtain ⟨vs, h1, h2, h3⟩ := Props.LinearChain.sum_any_semiring p (some l) h
  have hb' : b < vs.length := by rw [h2, ← h.lens.1]; exact (List.getElem?_eq_some_iff.1 hb).1
  refine ⟨vs, h1, ?_⟩
  have hs : Props.LinearChain.numEdges p (some l) b = 0 := by simp [Props.LinearChain.numEdges, lenOf, List.getD_eq_getElem?_getD, hb]
  have key : ∀ (L C : ℕ) (w : ℕ → Fin C → Fin C → R), L = 0 → ∑ y : Tags L C, seqProd w y = (C : R) := by
    rintro _ C w rfl; simp [seqProd, Tags]
  rw [List.getElem?_eq_getElem hb', h3 b hb', key _ _ _ hs]

/-- **C77.** A row of length 0 of `SemiMarkovCRF` has, in every commutative semiring, the value of a row of length 1: the number of classes. -/
theorem semimarkov_empty_row_partial {R : Type} [CommSemiring R] (p : T5 R) (l : List ℕ) (h : Props.SemiMarkov.Valid p (some l)) (b : ℕ) (hb : l[b]? = some 0) :
    rowIs (_root_.SemiMarkov.logpartition (Semirings.std R) p (some l)) b (p.d3 : R) := by
  obtain ⟨vs, h1, h2, h3⟩ := Props.SemiMarkov.empty_row p (some l) h
  have hb' : b < vs.length := by rw [h2, ← h.lens.1]; exact (List.getElem?_eq_some_iff.1 hb).1
  refine ⟨vs, h1, ?_⟩
  rw [List.getElem?_eq_getElem hb', h3 b hb' (by simp [Props.SemiMarkov.steps, lenOf, List.getD_eq_getElem?_getD, hb])]

theorem le_set (b : ℕ) {l : List ℕ} (hb : l[b]? = some 0) (N : ℕ) : (∀ x ∈ l.set b N, x ≤ N) ↔ ∀ x ∈ l, x ≤ N := by
  constructor
  · intro h x hx
    obtain ⟨k, hk, rfl⟩ := List.mem_iff_getElem.1 hx
    by_cases hkb : k = b
    · subst hkb
      rw [List.getElem?_eq_getElem hk] at hb
      rw [Option.some.inj hb]; exact Nat.zero_le _
    · exact h _ (List.mem_iff_getElem.2 ⟨k, by simpa using hk, by simp [List.getElem_set, Ne.symm hkb]⟩)
  · intro h x hx
    rcases List.mem_or_eq_of_mem_set hx with h' | h'
    · exact h x h'
    · exact h'.le

theorem last_getD (b : ℕ) {l : List ℕ} (hb : l[b]? = some 0) {N : ℕ} (hN : N ≠ 0) (k : ℕ) :
    CKYCRF.lastIndex N ((l.set b N).getD k 0) = CKYCRF.lastIndex N (l.getD k 0) := by
  by_cases hk : k = b
  · subst hk
    have := (List.getElem?_eq_some_iff.1 hb).1
    rw [List.getD_eq_getElem?_getD, List.getD_eq_getElem?_getD, hb, List.getElem?_set_self this]
    simp [CKYCRF.lastIndex]
  · simp [List.getD_eq_getElem?_getD, List.getElem?_set, Ne.symm hk]

theorem map_last (b : ℕ) {l : List ℕ} (hb : l[b]? = some 0) {N : ℕ} (hN : N ≠ 0) (f : ℕ → α) :
    (l.set b N).map (fun x => f (CKYCRF.lastIndex N x)) = l.map fun x => f (CKYCRF.lastIndex N x) := by
  refine List.ext_getElem (by simp) fun k h1 h2 => ?_
  have hk : k < l.length := by simpa using h2
  have := last_getD b hb hN k
  rw [List.getD_eq_getElem _ _ (by simpa using hk), List.getD_eq_getElem _ _ hk] at this
  simp only [List.getElem_map, this]

/-- **C77**, the part that fails. A row of length 0 of `TreeCRF` has, in every semiring, the value of the same row at full length `N`. -/
theorem tree_empty_row (S : SR α) (p : T4 α) (l : List ℕ) (b : ℕ) (hb : l[b]? = some 0) :
    CKYCRF.logpartition S p (some l) = CKYCRF.logpartition S p (some (l.set b p.d1)) := by
  unfold CKYCRF.logpartition
  by_cases h1 : p.d1 ≠ p.d2
  · rw [if_pos h1, if_pos h1]
  by_cases h2 : p.d1 = 0
  · rw [if_neg h1, if_neg h1, if_pos h2, if_pos h2]
  rw [if_neg h1, if_neg h1, if_neg h2, if_neg h2]
  simp only [CKYCRF.lensOr, CKYCRF.gather, List.length_set, le_set b hb, last_getD b hb h2]
  rw [map_last b hb h2]
  congr

/-- **C77**, the part that fails. A row of length 0 of `SentCFG` has, in every semiring, the value of the same row at full length `N`. -/
theorem sentcfg_empty_row (S : SR α) (p : CKY.Scores α) (l : List ℕ) (b : ℕ) (hb : l[b]? = some 0) :
    CKY.logpartition S p (some l) = CKY.logpartition S p (some (l.set b p.N)) := by
  unfold CKY.logpartition
  by_cases h1 : p.S ≠ p.NT + p.T ∨ p.NT = 0 ∨ p.T = 0 ∨ p.batch = 0
  · rw [if_pos h1, if_pos h1]
  by_cases h2 : p.N = 0
  · rw [if_neg h1, if_neg h1, if_pos h2, if_pos h2]
  rw [if_neg h1, if_neg h1, if_neg h2, if_neg h2]
  simp only [CKYCRF.lensOr, List.length_set, le_set b hb, CKY.logZ, CKY.top, last_getD b hb h2]
  congr

/-- One row of one word, or of two words, with constant potentials. -/
def flatTree (v : ℝ) : T4 ℝ := ⟨2, 1, 1, 1, fun _ _ _ _ => v⟩

/-- **C77** is false of `TreeCRF`: two tables of the same shape give the empty row (the second one) different values. -/
theorem tree_empty_row_false : ¬ ∀ (p q : T4 ℝ) (l : List ℕ), Props.TreeCRF.Valid p none → (p.d0, p.d1, p.d2, p.d3) = (q.d0, q.d1, q.d2, q.d3) →
    l.length = p.d0 → (∀ x ∈ l, x ≤ p.d1) → ∀ b, l[b]? = some 0 → ∀ v w, rowIs (Dist.max CKYCRF.algo p (some l)) b v →
      rowIs (Dist.max CKYCRF.algo q (some l)) b w → v = w := by
  intro h
  have hv : ∀ v : ℝ, rowIs (Dist.max CKYCRF.algo (flatTree v) (some [1, 0])) 1 v := by
    intro v
    refine ⟨[v, v], ?_, rfl⟩
    simp [Dist.max, CKYCRF.algo, CKYCRF.logpartition, CKYCRF.gather, CKYCRF.lensOr, CKYCRF.lastIndex, flatTree, CKYCRF.charts, CKYCRF.init,
      CKYCRF.reduced, Semirings.max, Semirings.listMax, List.range_succ]
  have := h (flatTree 0) (flatTree 1) [1, 0] ⟨rfl, by simp [flatTree], by simp [flatTree], trivial⟩ rfl rfl (by simp [flatTree]) 1 rfl 0 1 (hv 0) (hv 1)
  norm_num at this

/-- Non-vacuity: a batch of three words and an empty row meets the hypotheses of the theorems above. -/
example : Props.LinearChain.Valid (⟨2, 2, 2, 2, fun b n i j => (b + n + i + j : ℕ)⟩ : T4 ℕ) (some [3, 0]) ∧ ([3, 0] : List ℕ)[1]? = some 0 ∧
    Props.SemiMarkov.Valid (⟨2, 2, 3, 2, 2, fun b n k i j => (b + n + k + i + j : ℕ)⟩ : T5 ℕ) (some [3, 0]) :=
  ⟨⟨rfl, by decide, by decide, rfl, by decide, by decide⟩, rfl, ⟨by decide, rfl, by decide, by decide, by decide, rfl, by decide, by decide⟩⟩

example : ((⟨3, 2, 4, 4, 1, fun b h m _ => (b + h - m : ℝ)⟩ : DepTree.Arcs ℝ).d1 = 4 ∧ ∀ x ∈ ([3, 0] : List ℕ), x < 4) := ⟨rfl, by decide⟩

end Props.EmptyRows
