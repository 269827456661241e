import Verif.Proofs.Derivative
import Verif.Props.TreeCRF
import Verif.Props.SemiMarkov
import Verif.Props.Dependency
import Verif.Props.LabelledDependency
import Verif.Props.SentCFG

/-! Property theorems C61: what `marginals` returns is the derivative of what `partition` returns.  The code obtains it from `torch.autograd.grad`; here the
derivative is the one of real analysis, of the function "potentials ↦ `partition`" (`Spec.HasRowDeriv`). -/

open Finset Spec Generic

noncomputable section
namespace Props.Gradient

/-! ### `TreeCRF` -/

/-- The potentials with entry `(b, i, j, a)` moved by `t`. -/
def nudge4 (p : T4 ℝ) (b i j a : ℕ) (t : ℝ) : T4 ℝ :=
  ⟨p.d0, p.d1, p.d2, p.d3, fun b' i' j' a' => p.get b' i' j' a' + if b' = b ∧ i' = i ∧ j' = j ∧ a' = a then t else 0⟩

/-- Nothing moved. -/
theorem nudge4_zero (p : T4 ℝ) (b i j a : ℕ) : nudge4 p b i j a 0 = p := by simp [nudge4]

/-- **C61, `TreeCRF`.** Every entry of `marginals` is the derivative of `partition` with respect to that potential; the other rows of `partition` do not
change. -/
theorem tree_marginals (p : T4 ℝ) (lengths : Option (List ℕ)) (h : TreeCRF.Valid p lengths) : ∃ μ, Dist.marginals CKYCRF.algo p lengths = .ok μ ∧
    ∀ b < p.d0, ∀ i j a, ∀ b' < p.d0, HasRowDeriv (fun t => Dist.partition CKYCRF.algo (nudge4 p b i j a t) lengths) b' (if b' = b then μ [b, i, j, a] else 0) := by
  obtain ⟨μ, hμ, -⟩ := (CKYCRFProofs.batchDP p lengths h).marginals_eq
  refine ⟨μ, hμ, fun b hb i j a b' hb' => ?_⟩
  have D : ∀ t, BatchDP CKYCRF.algo (nudge4 p b i j a t) lengths p.d0 (CKYCRFProofs.at4 (nudge4 p b i j a t)) (CKYCRFProofs.Entry p.d1 p.d3 lengths)
      (ι := fun b => Trees p.d3 (lenOf p.d1 lengths b)) (π := fun _ => Empty) (fun b => CKYCRFProofs.treeParts b) (fun _ _ => 0) (fun _ y => y.elim) :=
    fun t => CKYCRFProofs.batchDP (nudge4 p b i j a t) lengths ⟨h.square, h.words, h.labels, h.lens⟩
  refine BatchDP.marginals_deriv D (e := [b, i, j, a]) ?_ (by rw [nudge4_zero]; exact hμ) b hb rfl (fun y : Empty => y.elim) b' hb'
  rintro t b1 - e ⟨i', j', a', rfl, -⟩
  simp [CKYCRFProofs.at4, nudge4]

example : ∃ μ, Dist.marginals CKYCRF.algo TreeCRF.sample (some [3, 2]) = .ok μ ∧
    HasRowDeriv (fun t => Dist.partition CKYCRF.algo (nudge4 TreeCRF.sample 1 0 1 1 t) (some [3, 2])) 1 (μ [1, 0, 1, 1]) := by
  obtain ⟨μ, h1, h2⟩ := tree_marginals TreeCRF.sample _ TreeCRF.sample_valid
  exact ⟨μ, h1, by simpa using h2 1 (by decide) 0 1 1 1 (by decide)⟩

/-! ### `SemiMarkovCRF` -/

/-- The potentials with entry `(b, n, k, c, c')` moved by `t`. -/
def nudge5 (p : T5 ℝ) (b n k c c' : ℕ) (t : ℝ) : T5 ℝ :=
  ⟨p.d0, p.d1, p.d2, p.d3, p.d4, fun b1 n1 k1 c1 c2 => p.get b1 n1 k1 c1 c2 + if b1 = b ∧ n1 = n ∧ k1 = k ∧ c1 = c ∧ c2 = c' then t else 0⟩

theorem nudge5_zero (p : T5 ℝ) (b n k c c' : ℕ) : nudge5 p b n k c c' 0 = p := by simp [nudge5]

theorem not_masked (K1 C N L b n k c c' : ℕ) (i j : Fin (K1 * C)) (m : ℕ) (hn : n < L) : Atom.masked [b, n, k, c, c'] ∉ SemiMarkovProofs.cell K1 C N L b m i j := by
  unfold SemiMarkovProofs.cell SemiMarkovProofs.entry
  split_ifs <;> simp <;> omega

/-- **C61, `SemiMarkovCRF`.** Every entry of `marginals` at a step of the row is the derivative of `partition` with respect to that potential.  Potentials of
steps past the end of the row do not change `partition`. -/
theorem semimarkov_marginals (p : T5 ℝ) (lengths : Option (List ℕ)) (h : SemiMarkov.Valid p lengths) : ∃ μ, Dist.marginals _root_.SemiMarkov.algo p lengths = .ok μ ∧
    ∀ b < p.d0, ∀ n k c c', ∀ b' < p.d0, HasRowDeriv (fun t => Dist.partition _root_.SemiMarkov.algo (nudge5 p b n k c c' t) lengths) b'
      (if b' = b ∧ n < SemiMarkov.steps p lengths b then μ [b, n, k, c, c'] else 0) := by
  have hK := SemiMarkov.hK h
  obtain ⟨μ, hμ, -⟩ := (SemiMarkovProofs.batchDP p lengths h hK).marginals_eq
  refine ⟨μ, hμ, fun b hb n k c c' b' hb' => ?_⟩
  have D : ∀ t, BatchDP _root_.SemiMarkov.algo (nudge5 p b n k c c' t) lengths p.d0 (SemiMarkovProofs.at5 (nudge5 p b n k c c' t))
      (SemiMarkovProofs.Entry p lengths) (ι := fun b => Segmentation p.d2 p.d3 (SemiMarkovProofs.steps p lengths b)) (π := SemiMarkovProofs.Ph p lengths hK)
      (fun b => SemiMarkovProofs.segParts b) (fun _ y => 2 ^ Nat.clog 2 p.d1 - y.2.1.length) (fun _ => AtomChain.Phantom.atoms) :=
    fun t => SemiMarkovProofs.batchDP (nudge5 p b n k c c' t) lengths ⟨h.rows, h.square, h.classes, h.positions, h.segs, h.lens⟩ hK
  have hd : ∀ t, ∀ b1 < p.d0, ∀ e, SemiMarkovProofs.Entry p lengths b1 e → SemiMarkovProofs.at5 (nudge5 p b n k c c' t) e =
      SemiMarkovProofs.at5 (nudge5 p b n k c c' 0) e + t * if e = [b, n, k, c, c'] then 1 else 0 := by
    rintro t b1 - e ⟨n', k', c1, c2, rfl, -⟩
    simp [SemiMarkovProofs.at5, nudge5, SemiMarkovProofs.entry]
  by_cases hn : n < SemiMarkov.steps p lengths b
  · simp only [hn, and_true]
    refine BatchDP.marginals_deriv D hd (by rw [nudge5_zero]; exact hμ) b hb rfl ?_ b' hb'
    intro y hy
    unfold AtomChain.Phantom.atoms AtomChain.Path.atoms at hy
    obtain ⟨m, -, h1⟩ := Multiset.mem_map.1 hy
    exact not_masked _ _ _ _ _ _ _ _ _ _ _ _ hn (h1 ▸ y.1.atom_mem m)
  · rw [if_neg (fun hc => hn hc.2)]
    refine BatchDP.unused_deriv D hd ?_ b' hb'
    rintro b1 - ⟨n', k', c1, c2, he, h1, -⟩
    simp only [SemiMarkovProofs.entry, List.cons.injEq] at he
    rw [← he.1, ← he.2.1] at h1
    exact hn h1

example : ∃ μ, Dist.marginals _root_.SemiMarkov.algo SemiMarkov.sample (some [4, 3]) = .ok μ ∧
    HasRowDeriv (fun t => Dist.partition _root_.SemiMarkov.algo (nudge5 SemiMarkov.sample 1 0 2 1 0 t) (some [4, 3])) 1 (μ [1, 0, 2, 1, 0]) := by
  obtain ⟨μ, h1, h2⟩ := semimarkov_marginals SemiMarkov.sample _ SemiMarkov.sample_valid
  have := h2 1 (by decide) 0 2 1 0 1 (by decide)
  rw [if_pos ⟨rfl, by decide⟩] at this
  exact ⟨μ, h1, this⟩

/-! ### `DependencyCRF` -/

/-- The potentials with entry `(b, i, j, l)` moved by `t` (`l = 0` for unlabelled arcs). -/
def nudgeArc (q : DepTree.Arcs ℝ) (b i j l : ℕ) (t : ℝ) : DepTree.Arcs ℝ :=
  ⟨q.rank, q.d0, q.d1, q.d2, q.d3, fun b' i' j' l' => q.get b' i' j' l' + if b' = b ∧ i' = i ∧ j' = j ∧ l' = l then t else 0⟩

theorem nudgeArc_zero (q : DepTree.Arcs ℝ) (b i j l : ℕ) : nudgeArc q b i j l 0 = q := by simp [nudgeArc]

theorem arc_marginals (mr : Bool) (q : DepTree.Arcs ℝ) (lengths : Option (List ℕ)) (h : DepTreeProofs.Valid mr q lengths) :
    ∃ μ, DepTree.marginals mr q lengths = .ok μ ∧ ∀ b < q.d0, ∀ i j l, (q.labeled ∨ l = 0) → ∀ b' < q.d0,
      HasRowDeriv (fun t => DepTree.partition mr (nudgeArc q b i j l t) lengths) b' (if b' = b then μ (DepTreeProofs.cellTag (decide q.labeled) b i j l) else 0) := by
  have hv : ∀ q' : DepTree.Arcs ℝ, q'.rank = q.rank → q'.d1 = q.d1 → q'.d2 = q.d2 → DepTree.convert DepTree.negBig q' = .ok (DepTreeProofs.conv DepTree.negBig q') :=
    fun q' h1 h2 h3 => DepTreeProofs.convert_ok _ (by rw [h1]; exact h.rank) (by rw [h2, h3]; exact h.square)
  obtain ⟨μ, hμ, -⟩ := (DepTreeProofs.batchDP mr DepTree.negBig q lengths h).marginals_eq
  refine ⟨μ, by rw [DepTree.marginals, hv q rfl rfl rfl]; exact hμ, fun b hb i j l hl b' hb' => ?_⟩
  have D : ∀ t, BatchDP (DepTree.algo mr) (DepTreeProofs.conv DepTree.negBig (nudgeArc q b i j l t)) lengths q.d0
      (DepTreeProofs.atQ DepTree.negBig (nudgeArc q b i j l t)) (fun b => DepTreeProofs.Entry (decide q.labeled) q.labels (lenOf q.d1 lengths b) b)
      (ι := fun b => LabelledTrees mr (lenOf q.d1 lengths b) q.labels) (π := fun _ => Empty) (fun b => DepTreeProofs.labParts (decide q.labeled) b)
      (fun b _ => DepTreeProofs.onesOf mr (lenOf q.d1 lengths b)) (fun _ y => y.elim) :=
    fun t => DepTreeProofs.batchDP mr DepTree.negBig (nudgeArc q b i j l t) lengths ⟨h.rank, h.square, h.labels, h.batch, h.words, h.lens⟩
  have h1 := BatchDP.marginals_deriv D (e := DepTreeProofs.cellTag (decide q.labeled) b i j l) (μ := μ) ?_ (by rw [nudgeArc_zero]; exact hμ) b hb rfl (fun y : Empty => y.elim) b' hb'
  · obtain ⟨F, h2, h3⟩ := h1
    refine ⟨F, fun t => ?_, h3⟩
    rw [← h2 t]
    beta_reduce
    rw [DepTree.partition, hv (nudgeArc q b i j l t) rfl rfl rfl]
    rfl
  · rintro t b1 - e ⟨h', k, l', rfl, -, -, -, hl'⟩
    have hl' : q.labeled ∨ l' = 0 := by
      by_cases hq : q.labeled
      · exact Or.inl hq
      · right
        rcases h.rank with h3 | h4
        · have hl' : l' < q.labels := hl'
          rw [DepTreeProofs.labels_one h3] at hl'; omega
        · exact absurd h4 hq
    have e1 := DepTreeProofs.atQ_cell DepTree.negBig (nudgeArc q b i j l t) b1 (arcCell h' k).1 (arcCell h' k).2 l' hl'
    have e2 := DepTreeProofs.atQ_cell DepTree.negBig (nudgeArc q b i j l 0) b1 (arcCell h' k).1 (arcCell h' k).2 l' hl'
    refine e1.trans (Eq.trans ?_ (congrArg (· + _) e2.symm))
    have e3 : DepTreeProofs.cellTag (decide q.labeled) b1 (arcCell h' k).1 (arcCell h' k).2 l' =
        DepTreeProofs.cellTag (decide q.labeled) b i j l ↔ b1 = b ∧ (arcCell h' k).1 = i ∧ (arcCell h' k).2 = j ∧ l' = l := by
      by_cases hq : q.labeled
      · simp [DepTreeProofs.cellTag, hq]
      · simp [DepTreeProofs.cellTag, hq, hl'.resolve_left hq, hl.resolve_left hq]
    simp [nudgeArc, e3]

/-- **C61, `DependencyCRF`.** Every entry of `marginals` is the derivative of `partition` with respect to that potential: the diagonal entries belong to the
root arcs. -/
theorem dependency_marginals (mr : Bool) (q : DepTree.Arcs ℝ) (lengths : Option (List ℕ)) (h : Dependency.Valid mr q lengths) :
    ∃ μ, DepTree.marginals mr q lengths = .ok μ ∧ ∀ b < q.d0, ∀ i j, ∀ b' < q.d0,
      HasRowDeriv (fun t => DepTree.partition mr (nudgeArc q b i j 0 t) lengths) b' (if b' = b then μ [b, i, j] else 0) := by
  obtain ⟨μ, h1, h2⟩ := arc_marginals mr q lengths h.toValid
  refine ⟨μ, h1, fun b hb i j b' hb' => ?_⟩
  have := h2 b hb i j 0 (Or.inr rfl) b' hb'
  rwa [DepTreeProofs.cellTag, DepTreeProofs.not_labeled h.rank] at this

example (mr : Bool) : ∃ μ, DepTree.marginals mr Dependency.sample (some [3, 2]) = .ok μ ∧
    HasRowDeriv (fun t => DepTree.partition mr (nudgeArc Dependency.sample 0 2 1 0 t) (some [3, 2])) 0 (μ [0, 2, 1]) := by
  obtain ⟨μ, h1, h2⟩ := dependency_marginals mr Dependency.sample _ (Dependency.sample_valid mr)
  exact ⟨μ, h1, by simpa using h2 0 (by decide) 2 1 0 (by decide)⟩

/-- **C61, `DependencyCRF` with labels.** -/
theorem labelled_marginals (mr : Bool) (q : DepTree.Arcs ℝ) (lengths : Option (List ℕ)) (h : LabelledDependency.Valid mr q lengths) :
    ∃ μ, DepTree.marginals mr q lengths = .ok μ ∧ ∀ b < q.d0, ∀ i j l, ∀ b' < q.d0,
      HasRowDeriv (fun t => DepTree.partition mr (nudgeArc q b i j l t) lengths) b' (if b' = b then μ [b, i, j, l] else 0) := by
  obtain ⟨μ, h1, h2⟩ := arc_marginals mr q lengths h.toValid
  refine ⟨μ, h1, fun b hb i j l b' hb' => ?_⟩
  have := h2 b hb i j l (Or.inl h.rank) b' hb'
  rwa [DepTreeProofs.cellTag, DepTreeProofs.is_labeled h.rank] at this

example (mr : Bool) : ∃ μ, DepTree.marginals mr LabelledDependency.sample (some [3, 2]) = .ok μ ∧
    HasRowDeriv (fun t => DepTree.partition mr (nudgeArc LabelledDependency.sample 0 2 1 1 t) (some [3, 2])) 0 (μ [0, 2, 1, 1]) := by
  obtain ⟨μ, h1, h2⟩ := labelled_marginals mr LabelledDependency.sample _ (LabelledDependency.sample_valid mr)
  exact ⟨μ, h1, by simpa using h2 0 (by decide) 2 1 1 0 (by decide)⟩

/-! ### `SentCFG` -/

/-- The leaves that `marginals` adds do not change the value. -/
theorem marked_partition (p : CKY.Scores ℝ) (lengths : Option (List ℕ)) (h : p.mark = none) :
    Dist.partition CKY.algo (CKY.marked p) lengths = Dist.partition CKY.algo p lengths := by
  have h0 : CKY.step Semirings.log (CKY.marked p) = CKY.step Semirings.log p := by
    funext st w
    have : ∀ b i X, CKY.touch Semirings.log (CKY.marked p) w b i X (CKY.spanOf Semirings.log (CKY.marked p) st w b i X) =
        CKY.touch Semirings.log p w b i X (CKY.spanOf Semirings.log p st w b i X) := by
      intro b i X
      rw [CKY.touch, CKY.touch, h]
      change _ + (0 : ℝ) = _
      rw [add_zero]
      rfl
    unfold CKY.step
    simp only [this]
    rfl
  have h1 : CKY.charts Semirings.log (CKY.marked p) = CKY.charts Semirings.log p := by
    unfold CKY.charts
    rw [h0]
    rfl
  have h2 : CKY.logZ Semirings.log (CKY.marked p) = CKY.logZ Semirings.log p := by
    funext lens c b
    unfold CKY.logZ CKY.top
    rw [h1]
    rfl
  change CKY.logpartition Semirings.log (CKY.marked p) lengths = CKY.logpartition Semirings.log p lengths
  unfold CKY.logpartition
  rw [h2]
  rfl

/-- The scores with the terminal score `(b, n, t)` moved by `x`. -/
def nudgeTerm (p : CKY.Scores ℝ) (b n t : ℕ) (x : ℝ) : CKY.Scores ℝ :=
  { p with term := fun b' n' t' => p.term b' n' t' + if b' = b ∧ n' = n ∧ t' = t then x else 0 }

/-- The scores with the rule score `(b, X, y, z)` moved by `x`. -/
def nudgeRule (p : CKY.Scores ℝ) (b X y z : ℕ) (x : ℝ) : CKY.Scores ℝ :=
  { p with rule := fun b' X' y' z' => p.rule b' X' y' z' + if b' = b ∧ X' = X ∧ y' = y ∧ z' = z then x else 0 }

/-- The scores with the root score `(b, X)` moved by `x`. -/
def nudgeRoot (p : CKY.Scores ℝ) (b X : ℕ) (x : ℝ) : CKY.Scores ℝ :=
  { p with root := fun b' X' => p.root b' X' + if b' = b ∧ X' = X then x else 0 }

theorem cfg_one {p : CKY.Scores ℝ} {lengths : Option (List ℕ)} (h : SentCFG.Valid p lengths) {μ : List ℕ → ℝ}
    (hμ : Dist.marginals CKY.algo (CKY.marked p) lengths = .ok μ) (term : ℝ → ℕ → ℕ → ℕ → ℝ) (rule : ℝ → ℕ → ℕ → ℕ → ℕ → ℝ) (root : ℝ → ℕ → ℕ → ℝ) (e : List ℕ)
    (h0 : term 0 = p.term ∧ rule 0 = p.rule ∧ root 0 = p.root)
    (h1 : ∀ x b n t, term x b n t = p.term b n t + x * if [b, 0, n, t] = e then 1 else 0)
    (h2 : ∀ x b X y z, rule x b X y z = p.rule b X y z + x * if [b, 1, X, y, z] = e then 1 else 0)
    (h3 : ∀ x b X, root x b X = p.root b X + x * if [b, 2, X] = e then 1 else 0)
    (h4 : ∀ b w i X, [b, 3, w, i, X] ≠ e) (b : ℕ) (hb : b < p.batch) (he : e.head? = some b) (b' : ℕ) (hb' : b' < p.batch) :
    HasRowDeriv (fun x => Dist.partition CKY.algo { p with term := term x, rule := rule x, root := root x } lengths) b' (if b' = b then μ e else 0) := by
  have D : ∀ x, BatchDP CKY.algo (CKY.marked { p with term := term x, rule := rule x, root := root x }) lengths p.batch
      (CKYProofs.atS (CKY.marked { p with term := term x, rule := rule x, root := root x })) (CKYProofs.Entry p.N p.NT p.T true lengths)
      (ι := fun b => Derivs p.NT p.T (lenOf p.N lengths b)) (π := fun b => CKYProofs.Ph p.NT p.T (lenOf p.N lengths b)) (fun b => CKYProofs.derivParts true b)
      (fun _ _ => 0) (fun b => CKYProofs.phAtoms true b) :=
    fun x => CKYProofs.batchDP (CKY.marked { p with term := term x, rule := rule x, root := root x }) lengths
    ⟨h.symbols, h.nonterminals, h.preterminals, h.rows, h.words, h.lens⟩
  have e0 : ({ p with term := term 0, rule := rule 0, root := root 0 } : CKY.Scores ℝ) = p := by rw [h0.1, h0.2.1, h0.2.2]
  have h5 := BatchDP.marginals_deriv D (e := e) (μ := μ) ?_ (by rw [e0]; exact hμ) b hb he ?_ b' hb'
  · obtain ⟨F, h6, h7⟩ := h5
    refine ⟨F, fun x => ?_, h7⟩
    rw [← h6 x]
    beta_reduce
    rw [marked_partition { p with term := term x, rule := rule x, root := root x } lengths h.plain]
  · rintro x b1 - e' (⟨n, t, rfl, -⟩ | ⟨X, y, z, rfl, -⟩ | ⟨X, rfl, -⟩ | ⟨-, w, i, X, rfl, -⟩)
    · change term x b1 n t = term 0 b1 n t + _
      rw [h1, h0.1]
    · change rule x b1 X y z = rule 0 b1 X y z + _
      rw [h2, h0.2.1]
    · change root x b1 X = root 0 b1 X + _
      rw [h3, h0.2.2]
    · rw [if_neg (h4 _ _ _ _)]
      simp [CKYProofs.atS, CKY.marked]
  · intro y hy
    rw [CKYProofs.phAtoms, Multiset.mem_add] at hy
    rcases hy with hy | hy
    · simp at hy
    · exact CKYProofs.atoms_masked _ _ _ _ _ hy

/-- **C61, `SentCFG`.** The tables of terminals, rules and roots that `marginals` returns are the derivatives of `partition` with respect to those scores. -/
theorem cfg_marginals (p : CKY.Scores ℝ) (lengths : Option (List ℕ)) (h : SentCFG.Valid p lengths) (hN : p.N ≠ 1) :
    ∃ M, CKY.marginals p lengths = .ok M ∧ ∀ b < p.batch, ∀ b' < p.batch,
      (∀ n t, HasRowDeriv (fun x => Dist.partition CKY.algo (nudgeTerm p b n t x) lengths) b' (if b' = b then M.term b n t else 0)) ∧
      (∀ X y z, HasRowDeriv (fun x => Dist.partition CKY.algo (nudgeRule p b X y z x) lengths) b' (if b' = b then M.rule b X y z else 0)) ∧
      (∀ X, HasRowDeriv (fun x => Dist.partition CKY.algo (nudgeRoot p b X x) lengths) b' (if b' = b then M.root b X else 0)) := by
  obtain ⟨μ, hμ, -⟩ := (CKYProofs.batchDP (CKY.marked p) lengths h.marked).marginals_eq
  refine ⟨CKY.arrange p.N μ, by rw [CKY.marginals, if_neg hN, hμ]; rfl, fun b hb b' hb' => ⟨fun n t => ?_, fun X y z => ?_, fun X => ?_⟩⟩
  · refine cfg_one h hμ (fun x b' n' t' => p.term b' n' t' + if b' = b ∧ n' = n ∧ t' = t then x else 0) (fun _ => p.rule) (fun _ => p.root) [b, 0, n, t]
      ?_ ?_ ?_ ?_ ?_ b hb rfl b' hb' <;> simp
  · refine cfg_one h hμ (fun _ => p.term) (fun x b' X' y' z' => p.rule b' X' y' z' + if b' = b ∧ X' = X ∧ y' = y ∧ z' = z then x else 0) (fun _ => p.root) [b, 1, X, y, z]
      ?_ ?_ ?_ ?_ ?_ b hb rfl b' hb' <;> simp
  · refine cfg_one h hμ (fun _ => p.term) (fun _ => p.rule) (fun x b' X' => p.root b' X' + if b' = b ∧ X' = X then x else 0) [b, 2, X]
      ?_ ?_ ?_ ?_ ?_ b hb rfl b' hb' <;> simp

example : ∃ M, CKY.marginals SentCFG.sample (some [3, 2]) = .ok M ∧
    HasRowDeriv (fun x => Dist.partition CKY.algo (nudgeRule SentCFG.sample 1 0 1 2 x) (some [3, 2])) 1 (M.rule 1 0 1 2) := by
  obtain ⟨M, h1, h2⟩ := cfg_marginals SentCFG.sample _ SentCFG.sample_valid (by decide)
  exact ⟨M, h1, by simpa using (h2 1 (by decide) 1 (by decide)).2.1 0 1 2⟩

end Props.Gradient
