import Verif.Proofs.Covariance
import Verif.Props.Gradient

/-! Property theorems C71: the second derivatives.  What `marginals` returns changes with a potential by the covariance of the two parts under the posterior, and
what `entropy` returns by minus the covariance of the part with the score. -/

open Finset Spec Generic

noncomputable section
namespace Props.Covariance
open Props.Gradient

theorem ind_count {P : Prop} [Decidable P] {m : Multiset (List ℕ)} {e : List ℕ} (h : m.count e = if P then 1 else 0) : ((m.count e : ℕ) : ℝ) = ind P := by
  rw [h]
  unfold ind
  by_cases hP : P <;> simp [hP]

/-! ### `TreeCRF` -/

theorem tree_dp (p : T4 ℝ) (lengths : Option (List ℕ)) (h : TreeCRF.Valid p lengths) (b i j a : ℕ) (t : ℝ) :
    BatchDP CKYCRF.algo (nudge4 p b i j a t) lengths p.d0 (CKYCRFProofs.at4 (nudge4 p b i j a t)) (CKYCRFProofs.Entry p.d1 p.d3 lengths)
      (ι := fun b => Trees p.d3 (lenOf p.d1 lengths b)) (π := fun _ => Empty) (fun b => CKYCRFProofs.treeParts b) (fun _ _ => 0) (fun _ y => y.elim) :=
  CKYCRFProofs.batchDP (nudge4 p b i j a t) lengths ⟨h.square, h.words, h.labels, h.lens⟩

theorem tree_line (p : T4 ℝ) (lengths : Option (List ℕ)) (b i j a : ℕ) (t : ℝ) : ∀ b1 < p.d0, ∀ e, CKYCRFProofs.Entry p.d1 p.d3 lengths b1 e →
    CKYCRFProofs.at4 (nudge4 p b i j a t) e = CKYCRFProofs.at4 (nudge4 p b i j a 0) e + t * if e = [b, i, j, a] then 1 else 0 := by
  rintro b1 - e ⟨i', j', a', rfl, -⟩
  simp [CKYCRFProofs.at4, nudge4]

/-- **C71, `TreeCRF`, `marginals`.** Moving the potential of one labelled span moves the marginal of another by their covariance under the posterior, and does not
move the marginals of the other rows. -/
theorem tree_marginals_cov (p : T4 ℝ) (lengths : Option (List ℕ)) (h : TreeCRF.Valid p lengths) (b i j : ℕ) (a : Fin p.d3)
    (b' : ℕ) (hb' : b' < p.d0) (i' j' : ℕ) (a' : Fin p.d3) :
    HasEntryDeriv (fun t => Dist.marginals CKYCRF.algo (nudge4 p b i j a t) lengths) (· [b', i', j', a'])
      (if b' = b then Gibbs.cov (treeScore (TreeCRF.row p b) : Trees p.d3 (TreeCRF.len p lengths b) → ℝ) (fun y => ind ((i', j', a') ∈ y.1.spans 0))
        (fun y => ind ((i, j, a) ∈ y.1.spans 0)) else 0) := by
  by_cases hc : b' = b
  · subst hc
    have h1 := BatchDP.marginals_cov_exact (tree_dp p lengths h b' i j a) (tree_line p lengths b' i j a) b' hb' [b', i', j', a'] rfl
    rw [nudge4_zero, TreeCRF.realScore_eq] at h1
    rw [if_pos rfl]
    simp only [ind_count (TreeCRF.count_parts _ _ _ _ _)] at h1
    exact h1
  · rw [if_neg hc]
    exact BatchDP.marginals_cov_other (tree_dp p lengths h b i j a) (tree_line p lengths b i j a) b' hb' (by simpa using Ne.symm hc) _ rfl fun y => y.elim

/-- **C71, `TreeCRF`, `entropy`.** -/
theorem tree_entropy_cov (p : T4 ℝ) (lengths : Option (List ℕ)) (h : TreeCRF.Valid p lengths) (b i j : ℕ) (a : Fin p.d3) (b' : ℕ) (hb' : b' < p.d0) :
    HasRowDeriv (fun t => Dist.entropy CKYCRF.algo (nudge4 p b i j a t) lengths) b'
      (if b' = b then - Gibbs.cov (treeScore (TreeCRF.row p b) : Trees p.d3 (TreeCRF.len p lengths b) → ℝ) (treeScore (TreeCRF.row p b))
        (fun y => ind ((i, j, a) ∈ y.1.spans 0)) else 0) := by
  by_cases hc : b' = b
  · subst hc
    have h1 := BatchDP.entropy_cov_exact (tree_dp p lengths h b' i j a) (tree_line p lengths b' i j a) b' hb'
    rw [nudge4_zero, TreeCRF.realScore_eq] at h1
    rw [if_pos rfl]
    simp only [ind_count (TreeCRF.count_parts _ _ _ _ _)] at h1
    exact h1
  · rw [if_neg hc]
    exact BatchDP.entropy_cov_other (tree_dp p lengths h b i j a) (tree_line p lengths b i j a) b' hb' (by simpa using Ne.symm hc)

example : HasEntryDeriv (fun t => Dist.marginals CKYCRF.algo (nudge4 TreeCRF.sample 1 0 1 1 t) (some [3, 2])) (· [1, 0, 0, 0])
    (Gibbs.cov (treeScore (TreeCRF.row TreeCRF.sample 1) : Trees 2 2 → ℝ) (fun y => ind ((0, 0, 0) ∈ y.1.spans 0)) (fun y => ind ((0, 1, 1) ∈ y.1.spans 0))) :=
  tree_marginals_cov TreeCRF.sample _ TreeCRF.sample_valid 1 0 1 (⟨1, by decide⟩ : Fin 2) 1 (by decide) 0 0 (⟨0, by decide⟩ : Fin 2)

/-! ### `DependencyCRF` -/

theorem nudgeArc_valid {mr : Bool} {q : DepTree.Arcs ℝ} {lengths : Option (List ℕ)} (h : DepTreeProofs.Valid mr q lengths) (b i j l : ℕ) (t : ℝ) :
    DepTreeProofs.Valid mr (nudgeArc q b i j l t) lengths := ⟨h.rank, h.square, h.labels, h.batch, h.words, h.lens⟩

theorem nudgeArc_conv {mr : Bool} {q : DepTree.Arcs ℝ} {lengths : Option (List ℕ)} (h : DepTreeProofs.Valid mr q lengths) (b i j l : ℕ) (t : ℝ) :
    DepTree.convert DepTree.negBig (nudgeArc q b i j l t) = .ok (DepTreeProofs.conv DepTree.negBig (nudgeArc q b i j l t)) :=
  DepTreeProofs.convert_ok _ h.rank h.square

theorem arc_line {mr : Bool} {q : DepTree.Arcs ℝ} {lengths : Option (List ℕ)} (h : DepTreeProofs.Valid mr q lengths) (b i j l : ℕ) (hl : q.labeled ∨ l = 0) (t : ℝ) :
    ∀ b1 < q.d0, ∀ e, DepTreeProofs.Entry (decide q.labeled) q.labels (lenOf q.d1 lengths b1) b1 e →
      DepTreeProofs.atQ DepTree.negBig (nudgeArc q b i j l t) e = DepTreeProofs.atQ DepTree.negBig (nudgeArc q b i j l 0) e +
        t * if e = DepTreeProofs.cellTag (decide q.labeled) b i j l then 1 else 0 := by
  rintro b1 - e ⟨h', k, l', rfl, -, -, -, hl'⟩
  have hl' : q.labeled ∨ l' = 0 := by
    by_cases hq : q.labeled
    · exact Or.inl hq
    · right
      rcases h.rank with h3 | h4
      · have hl' : l' < q.labels := hl'
        rw [DepTreeProofs.labels_one h3] at hl'; omega
      · exact absurd h4 hq
  have e1 := DepTreeProofs.atQ_cell DepTree.negBig (nudgeArc q b i j l t) b1 (arcCell h' k).1 (arcCell h' k).2 l' hl'
  have e2 := DepTreeProofs.atQ_cell DepTree.negBig (nudgeArc q b i j l 0) b1 (arcCell h' k).1 (arcCell h' k).2 l' hl'
  refine e1.trans (Eq.trans ?_ (congrArg (· + _) e2.symm))
  have e3 : DepTreeProofs.cellTag (decide q.labeled) b1 (arcCell h' k).1 (arcCell h' k).2 l' =
      DepTreeProofs.cellTag (decide q.labeled) b i j l ↔ b1 = b ∧ (arcCell h' k).1 = i ∧ (arcCell h' k).2 = j ∧ l' = l := by
    by_cases hq : q.labeled
    · simp [DepTreeProofs.cellTag, hq]
    · simp [DepTreeProofs.cellTag, hq, hl'.resolve_left hq, hl.resolve_left hq]
  simp [nudgeArc, e3]

theorem dep_ind (b : ℕ) {mr : Bool} {n : ℕ} (y : ProjTrees mr n) (i j : ℕ) : (((DepTreeProofs.depParts b y).count [b, i, j] : ℕ) : ℝ) = ind (HasArc y.1 i j) := by
  classical
  exact ind_count ((Dependency.count_parts b y i j).trans (by congr))

theorem lab_ind (b : ℕ) {mr : Bool} {n L : ℕ} (y : LabelledTrees mr n L) (i j l : ℕ) :
    (((DepTreeProofs.labParts true b y).count [b, i, j, l] : ℕ) : ℝ) = ind (HasLabArc y i j l) := by
  classical
  exact ind_count ((LabelledDependency.count_parts b y i j l).trans (by congr))

theorem dep_line {mr : Bool} {q : DepTree.Arcs ℝ} {lengths : Option (List ℕ)} (h : Dependency.Valid mr q lengths) (b i j : ℕ) (t : ℝ) :
    ∀ b1 < q.d0, ∀ e, DepTreeProofs.Entry (decide q.labeled) q.labels (lenOf q.d1 lengths b1) b1 e →
      DepTreeProofs.atQ DepTree.negBig (nudgeArc q b i j 0 t) e = DepTreeProofs.atQ DepTree.negBig (nudgeArc q b i j 0 0) e + t * if e = [b, i, j] then 1 else 0 := by
  have := arc_line h.toValid b i j 0 (Or.inr rfl) t
  rwa [show DepTreeProofs.cellTag (decide q.labeled) b i j 0 = [b, i, j] by rw [DepTreeProofs.cellTag, DepTreeProofs.not_labeled h.rank]; rfl] at this

theorem dep_dp {mr : Bool} {q : DepTree.Arcs ℝ} {lengths : Option (List ℕ)} (h : Dependency.Valid mr q lengths) (b i j : ℕ) (t : ℝ) :
    BatchDP (DepTree.algo mr) (DepTreeProofs.conv DepTree.negBig (nudgeArc q b i j 0 t)) lengths q.d0
      (DepTreeProofs.atQ DepTree.negBig (nudgeArc q b i j 0 t)) (fun b => DepTreeProofs.Entry (decide q.labeled) q.labels (lenOf q.d1 lengths b) b)
      (ι := fun b => ProjTrees mr (lenOf q.d1 lengths b)) (π := fun _ => Empty) (fun b => DepTreeProofs.depParts b)
      (fun b _ => DepTreeProofs.onesOf mr (lenOf q.d1 lengths b)) (fun _ y => y.elim) :=
  DepTreeProofs.batchDP3 mr DepTree.negBig (nudgeArc q b i j 0 t) lengths (nudgeArc_valid h.toValid b i j 0 t) h.rank

/-- **C71, `DependencyCRF`, `marginals`.** -/
theorem dependency_marginals_cov (mr : Bool) (q : DepTree.Arcs ℝ) (lengths : Option (List ℕ)) (h : Dependency.Valid mr q lengths) (b i j : ℕ)
    (b' : ℕ) (hb' : b' < q.d0) (i' j' : ℕ) :
    HasEntryDeriv (fun t => DepTree.marginals mr (nudgeArc q b i j 0 t) lengths) (· [b', i', j'])
      (if b' = b then Gibbs.cov (fun y : ProjTrees mr (Dependency.len q lengths b) => depScore (Dependency.row q b) y.1)
        (fun y => ind (HasArc y.1 i' j')) (fun y => ind (HasArc y.1 i j)) else 0) := by
  have e : (fun t => DepTree.marginals mr (nudgeArc q b i j 0 t) lengths) =
      fun t => Dist.marginals (DepTree.algo mr) (DepTreeProofs.conv DepTree.negBig (nudgeArc q b i j 0 t)) lengths := by
    funext t
    rw [DepTree.marginals, nudgeArc_conv h.toValid]
    rfl
  rw [e]
  by_cases hc : b' = b
  · subst hc
    have h1 := BatchDP.marginals_cov_exact (dep_dp h b' i j) (dep_line h b' i j) b' hb' [b', i', j'] rfl
    rw [nudgeArc_zero, Dependency.realScore_eq] at h1
    rw [if_pos rfl]
    simp only [dep_ind] at h1
    exact h1
  · rw [if_neg hc]
    exact BatchDP.marginals_cov_other (dep_dp h b i j) (dep_line h b i j) b' hb' (by simpa using Ne.symm hc) _ rfl fun y => y.elim

/-- **C71, `DependencyCRF`, `entropy`.** -/
theorem dependency_entropy_cov (mr : Bool) (q : DepTree.Arcs ℝ) (lengths : Option (List ℕ)) (h : Dependency.Valid mr q lengths) (b i j : ℕ)
    (b' : ℕ) (hb' : b' < q.d0) :
    HasRowDeriv (fun t => DepTree.entropy mr (nudgeArc q b i j 0 t) lengths) b'
      (if b' = b then - Gibbs.cov (fun y : ProjTrees mr (Dependency.len q lengths b) => depScore (Dependency.row q b) y.1)
        (fun y => depScore (Dependency.row q b) y.1) (fun y => ind (HasArc y.1 i j)) else 0) := by
  have e : (fun t => DepTree.entropy mr (nudgeArc q b i j 0 t) lengths) =
      fun t => Dist.entropy (DepTree.algo mr) (DepTreeProofs.conv DepTree.negBig (nudgeArc q b i j 0 t)) lengths := by
    funext t
    rw [DepTree.entropy, nudgeArc_conv h.toValid]
    rfl
  rw [e]
  by_cases hc : b' = b
  · subst hc
    have h1 := BatchDP.entropy_cov_exact (dep_dp h b' i j) (dep_line h b' i j) b' hb'
    rw [nudgeArc_zero, Dependency.realScore_eq] at h1
    rw [if_pos rfl]
    simp only [dep_ind] at h1
    exact h1
  · rw [if_neg hc]
    exact BatchDP.entropy_cov_other (dep_dp h b i j) (dep_line h b i j) b' hb' (by simpa using Ne.symm hc)

example (mr : Bool) : HasEntryDeriv (fun t => DepTree.marginals mr (nudgeArc Dependency.sample 0 2 1 0 t) (some [3, 2])) (· [0, 0, 0])
    (Gibbs.cov (fun y : ProjTrees mr 3 => depScore (Dependency.row Dependency.sample 0) y.1) (fun y => ind (HasArc y.1 0 0)) (fun y => ind (HasArc y.1 2 1))) :=
  dependency_marginals_cov mr Dependency.sample _ (Dependency.sample_valid mr) 0 2 1 0 (by decide) 0 0

theorem lab_line {mr : Bool} {q : DepTree.Arcs ℝ} {lengths : Option (List ℕ)} (h : LabelledDependency.Valid mr q lengths) (b i j l : ℕ) (t : ℝ) :
    ∀ b1 < q.d0, ∀ e, DepTreeProofs.Entry true q.d3 (lenOf q.d1 lengths b1) b1 e →
      DepTreeProofs.atQ DepTree.negBig (nudgeArc q b i j l t) e = DepTreeProofs.atQ DepTree.negBig (nudgeArc q b i j l 0) e + t * if e = [b, i, j, l] then 1 else 0 := by
  have := arc_line h.toValid b i j l (Or.inl h.rank) t
  rwa [DepTreeProofs.cellTag, DepTreeProofs.is_labeled h.rank, DepTreeProofs.labels_four h.rank] at this

theorem lab_dp {mr : Bool} {q : DepTree.Arcs ℝ} {lengths : Option (List ℕ)} (h : LabelledDependency.Valid mr q lengths) (b i j l : ℕ) (t : ℝ) :
    BatchDP (DepTree.algo mr) (DepTreeProofs.conv DepTree.negBig (nudgeArc q b i j l t)) lengths q.d0
      (DepTreeProofs.atQ DepTree.negBig (nudgeArc q b i j l t)) (fun b => DepTreeProofs.Entry true q.d3 (lenOf q.d1 lengths b) b)
      (ι := fun b => LabelledTrees mr (lenOf q.d1 lengths b) q.d3) (π := fun _ => Empty) (fun b => DepTreeProofs.labParts true b)
      (fun b _ => DepTreeProofs.onesOf mr (lenOf q.d1 lengths b)) (fun _ y => y.elim) :=
  DepTreeProofs.batchDP4 mr DepTree.negBig (nudgeArc q b i j l t) lengths (nudgeArc_valid h.toValid b i j l t) h.rank

/-- **C71, `DependencyCRF` with labels, `marginals`.** -/
theorem labelled_marginals_cov (mr : Bool) (q : DepTree.Arcs ℝ) (lengths : Option (List ℕ)) (h : LabelledDependency.Valid mr q lengths) (b i j l : ℕ)
    (b' : ℕ) (hb' : b' < q.d0) (i' j' l' : ℕ) :
    HasEntryDeriv (fun t => DepTree.marginals mr (nudgeArc q b i j l t) lengths) (· [b', i', j', l'])
      (if b' = b then Gibbs.cov (labScore (LabelledDependency.row q b) : LabelledTrees mr (LabelledDependency.len q lengths b) q.d3 → ℝ)
        (fun y => ind (HasLabArc y i' j' l')) (fun y => ind (HasLabArc y i j l)) else 0) := by
  have e : (fun t => DepTree.marginals mr (nudgeArc q b i j l t) lengths) =
      fun t => Dist.marginals (DepTree.algo mr) (DepTreeProofs.conv DepTree.negBig (nudgeArc q b i j l t)) lengths := by
    funext t
    rw [DepTree.marginals, nudgeArc_conv h.toValid]
    rfl
  rw [e]
  by_cases hc : b' = b
  · subst hc
    have h1 := BatchDP.marginals_cov_exact (lab_dp h b' i j l) (lab_line h b' i j l) b' hb' [b', i', j', l'] rfl
    rw [nudgeArc_zero, LabelledDependency.realScore_eq DepTree.negBig q _ h.rank] at h1
    rw [if_pos rfl]
    simp only [lab_ind] at h1
    exact h1
  · rw [if_neg hc]
    exact BatchDP.marginals_cov_other (lab_dp h b i j l) (lab_line h b i j l) b' hb' (by simpa using Ne.symm hc) _ rfl fun y => y.elim

/-- **C71, `DependencyCRF` with labels, `entropy`.** -/
theorem labelled_entropy_cov (mr : Bool) (q : DepTree.Arcs ℝ) (lengths : Option (List ℕ)) (h : LabelledDependency.Valid mr q lengths) (b i j l : ℕ)
    (b' : ℕ) (hb' : b' < q.d0) :
    HasRowDeriv (fun t => DepTree.entropy mr (nudgeArc q b i j l t) lengths) b'
      (if b' = b then - Gibbs.cov (labScore (LabelledDependency.row q b) : LabelledTrees mr (LabelledDependency.len q lengths b) q.d3 → ℝ)
        (labScore (LabelledDependency.row q b)) (fun y => ind (HasLabArc y i j l)) else 0) := by
  have e : (fun t => DepTree.entropy mr (nudgeArc q b i j l t) lengths) =
      fun t => Dist.entropy (DepTree.algo mr) (DepTreeProofs.conv DepTree.negBig (nudgeArc q b i j l t)) lengths := by
    funext t
    rw [DepTree.entropy, nudgeArc_conv h.toValid]
    rfl
  rw [e]
  by_cases hc : b' = b
  · subst hc
    have h1 := BatchDP.entropy_cov_exact (lab_dp h b' i j l) (lab_line h b' i j l) b' hb'
    rw [nudgeArc_zero, LabelledDependency.realScore_eq DepTree.negBig q _ h.rank] at h1
    rw [if_pos rfl]
    simp only [lab_ind] at h1
    exact h1
  · rw [if_neg hc]
    exact BatchDP.entropy_cov_other (lab_dp h b i j l) (lab_line h b i j l) b' hb' (by simpa using Ne.symm hc)

example (mr : Bool) : HasEntryDeriv (fun t => DepTree.marginals mr (nudgeArc LabelledDependency.sample 0 2 1 1 t) (some [3, 2])) (· [0, 2, 1, 1])
    (Gibbs.cov (labScore (LabelledDependency.row LabelledDependency.sample 0) : LabelledTrees mr 3 2 → ℝ) (fun y => ind (HasLabArc y 2 1 1))
      (fun y => ind (HasLabArc y 2 1 1))) :=
  labelled_marginals_cov mr LabelledDependency.sample _ (LabelledDependency.sample_valid mr) 0 2 1 1 0 (by decide) 2 1 1

/-! ### `SemiMarkovCRF` -/

/-- **C71, `SemiMarkovCRF`, `marginals`.** At the steps of the row, moving the potential of a segment moves the marginal of another by their covariance under the
posterior, up to the error of the stand-in.  The matrix of these derivatives is symmetric, and no marginal falls when its own potential is raised. -/
theorem semimarkov_marginals_cov (p : T5 ℝ) (lengths : Option (List ℕ)) (h : SemiMarkov.Valid p lengths) {B : ℝ} (hB : SemiMarkov.Bounded p lengths B) (b : ℕ) (hb : b < p.d0) :
    ∃ J : ℕ × ℕ × Fin p.d3 × Fin p.d3 → ℕ × ℕ × Fin p.d3 × Fin p.d3 → ℝ, (∀ x y, J x y = J y x) ∧ (∀ x, 0 ≤ J x x) ∧
      ∀ n k, ∀ c c' : Fin p.d3, ∀ n' < SemiMarkov.steps p lengths b, ∀ k', ∀ d d' : Fin p.d3,
        HasEntryDeriv (fun t => Dist.marginals _root_.SemiMarkov.algo (nudge5 p b n k c c' t) lengths) (· [b, n', k', d, d']) (J (n', k', d, d') (n, k, c, c')) ∧
        |J (n', k', d, d') (n, k, c, c') - Gibbs.cov (segScore (SemiMarkov.row p b) : SemiMarkov.Seg p lengths b → ℝ)
          (fun y => ind ((n', k', d, d') ∈ segEdges 0 y.1 y.2.1)) (fun y => ind ((n, k, c, c') ∈ segEdges 0 y.1 y.2.1))| ≤ 3 * SemiMarkov.err p lengths B b := by
  have hK := SemiMarkov.hK h
  have D : ∀ n k c c' t, BatchDP _root_.SemiMarkov.algo (nudge5 p b n k c c' t) lengths p.d0 (SemiMarkovProofs.at5 (nudge5 p b n k c c' t))
      (SemiMarkovProofs.Entry p lengths) (ι := fun b => Segmentation p.d2 p.d3 (SemiMarkovProofs.steps p lengths b)) (π := SemiMarkovProofs.Ph p lengths hK)
      (fun b => SemiMarkovProofs.segParts b) (fun _ y => 2 ^ Nat.clog 2 p.d1 - y.2.1.length) (fun _ => AtomChain.Phantom.atoms) :=
    fun n k c c' t => SemiMarkovProofs.batchDP (nudge5 p b n k c c' t) lengths ⟨h.rows, h.square, h.classes, h.positions, h.segs, h.lens⟩ hK
  have hd : ∀ n k c c' t, ∀ b1 < p.d0, ∀ e, SemiMarkovProofs.Entry p lengths b1 e → SemiMarkovProofs.at5 (nudge5 p b n k c c' t) e =
      SemiMarkovProofs.at5 (nudge5 p b n k c c' 0) e + t * if e = [b, n, k, c, c'] then 1 else 0 := by
    rintro n k c c' t b1 - e ⟨n', k', c1, c2, rfl, -⟩
    simp [SemiMarkovProofs.at5, nudge5, SemiMarkovProofs.entry]
  have : Nonempty (Segmentation p.d2 p.d3 (SemiMarkovProofs.steps p lengths b) ⊕ SemiMarkovProofs.Ph p lengths hK b) :=
    (D 0 0 0 0 0).nonempty_all b hb
  refine ⟨fun x y => Gibbs.cov (tot (SemiMarkovProofs.segParts b) (AtomChain.Phantom.atoms : SemiMarkovProofs.Ph p lengths hK b → _) Semirings.negInf (SemiMarkovProofs.at5 p))
    (BatchDP.uses (ι := fun b => Segmentation p.d2 p.d3 (SemiMarkovProofs.steps p lengths b)) (π := SemiMarkovProofs.Ph p lengths hK) (b := b) (SemiMarkovProofs.segParts b)
      (fun y => 2 ^ Nat.clog 2 p.d1 - y.2.1.length) AtomChain.Phantom.atoms [b, x.1, x.2.1, x.2.2.1, x.2.2.2])
    (BatchDP.uses (ι := fun b => Segmentation p.d2 p.d3 (SemiMarkovProofs.steps p lengths b)) (π := SemiMarkovProofs.Ph p lengths hK) (b := b) (SemiMarkovProofs.segParts b)
      (fun y => 2 ^ Nat.clog 2 p.d1 - y.2.1.length) AtomChain.Phantom.atoms [b, y.1, y.2.1, y.2.2.1, y.2.2.2]),
    fun x y => Gibbs.cov_comm _ _ _, fun x => Gibbs.cov_self_nonneg _ _, fun n k c c' n' hn' k' d d' => ?_⟩
  have h1 := BatchDP.marginals_cov_leaky (D n k c c') (hd n k c c') (fun b _ => SemiMarkov.seg_nonempty h b) (M := 1)
    (fun b _ e y => by exact_mod_cast Multiset.nodup_iff_count_le_one.1 (SemiMarkovProofs.segParts_nodup b y) e)
    (fun b _ e y => by exact_mod_cast Multiset.nodup_iff_count_le_one.1 (SemiMarkov.links_nodup p lengths h b y) e) b hb [b, n', k', d, d'] rfl ?_
  · rw [nudge5_zero, SemiMarkov.realScore_eq] at h1
    simp only [ind_count (SemiMarkov.count_parts _ _ _ _ _ _)] at h1
    refine ⟨h1.1, h1.2.trans ?_⟩
    have := SemiMarkov.ex_le h hB b hb
    rw [one_pow, mul_one]
    exact mul_le_mul_of_nonneg_left this (by norm_num)
  · intro y hy
    unfold AtomChain.Phantom.atoms AtomChain.Path.atoms at hy
    obtain ⟨m, -, h1⟩ := Multiset.mem_map.1 hy
    exact not_masked _ _ _ _ _ _ _ _ _ _ _ _ hn' (h1 ▸ y.1.atom_mem m)

example : ∃ d, HasEntryDeriv (fun t => Dist.marginals _root_.SemiMarkov.algo (nudge5 SemiMarkov.sample 1 0 2 1 0 t) (some [4, 3])) (· [1, 0, 2, 1, 0]) d ∧ 0 ≤ d := by
  obtain ⟨J, -, h2, h3⟩ := semimarkov_marginals_cov SemiMarkov.sample _ SemiMarkov.sample_valid SemiMarkov.sample_bounded.1 1 (by decide)
  exact ⟨_, (h3 0 2 (⟨1, by decide⟩ : Fin 2) (⟨0, by decide⟩ : Fin 2) 0 (by decide) 2 (⟨1, by decide⟩ : Fin 2) (⟨0, by decide⟩ : Fin 2)).1, h2 _⟩

/-! ### `SentCFG` -/

/-- The scores of a grammar: a preterminal `t` at word `n`, a rule `X → y z`, a root symbol `X`. -/
inductive Part
  | term (n t : ℕ)
  | rule (X y z : ℕ)
  | root (X : ℕ)

/-- The scores with one of them moved by `x`. -/
def nudgePart (p : CKY.Scores ℝ) (b : ℕ) : Part → ℝ → CKY.Scores ℝ
  | .term n t, x => nudgeTerm p b n t x
  | .rule X y z, x => nudgeRule p b X y z x
  | .root X, x => nudgeRoot p b X x

/-- How often a derivation uses a score. -/
def partCount {NT T : ℕ} (d : Deriv NT T) : Part → ℕ
  | .term n t => (d.words 0).count (n, t)
  | .rule X y z => d.rules.count (X, y, z)
  | .root X => if d.sym = X then 1 else 0

/-- The entry of a result of `marginals` for a score. -/
def partEntry (b : ℕ) (M : CKY.Marginals) : Part → ℝ
  | .term n t => M.term b n t
  | .rule X y z => M.rule b X y z
  | .root X => M.root b X

/-- The name of the potential in the model. -/
def partTag (b : ℕ) : Part → List ℕ
  | .term n t => [b, 0, n, t]
  | .rule X y z => [b, 1, X, y, z]
  | .root X => [b, 2, X]

theorem partTag_head (b : ℕ) (s : Part) : (partTag b s).head? = some b := by cases s <;> rfl

theorem partTag_count (mk : Bool) (b : ℕ) {NT T L : ℕ} (d : Derivs NT T L) (s : Part) : (CKYProofs.derivParts mk b d).count (partTag b s) = partCount d.1 s := by
  cases s with
  | term n t => exact SentCFG.count_term mk b d n t
  | rule X y z => exact SentCFG.count_rule mk b d X y z
  | root X => exact SentCFG.count_root mk b d X

theorem cfg_dp {p : CKY.Scores ℝ} {lengths : Option (List ℕ)} (h : SentCFG.Valid p lengths) (b : ℕ) (s : Part) (x : ℝ) :
    BatchDP CKY.algo (CKY.marked (nudgePart p b s x)) lengths p.batch
      (CKYProofs.atS (CKY.marked (nudgePart p b s x))) (CKYProofs.Entry p.N p.NT p.T true lengths)
      (ι := fun b => Derivs p.NT p.T (lenOf p.N lengths b)) (π := fun b => CKYProofs.Ph p.NT p.T (lenOf p.N lengths b)) (fun b => CKYProofs.derivParts true b)
      (fun _ _ => 0) (fun b => CKYProofs.phAtoms true b) := by
  cases s <;> exact CKYProofs.batchDP (CKY.marked _) lengths ⟨h.symbols, h.nonterminals, h.preterminals, h.rows, h.words, h.lens⟩

theorem cfg_line (p : CKY.Scores ℝ) (lengths : Option (List ℕ)) (b : ℕ) (s : Part) (x : ℝ) :
    ∀ b1 < p.batch, ∀ e, CKYProofs.Entry p.N p.NT p.T true lengths b1 e → CKYProofs.atS (CKY.marked (nudgePart p b s x)) e =
      CKYProofs.atS (CKY.marked (nudgePart p b s 0)) e + x * if e = partTag b s then 1 else 0 := by
  rintro b1 - e' (⟨n, t, rfl, -⟩ | ⟨X, y, z, rfl, -⟩ | ⟨X, rfl, -⟩ | ⟨-, w, i, X, rfl, -⟩) <;> cases s <;>
    simp [CKYProofs.atS, CKY.marked, nudgePart, nudgeTerm, nudgeRule, nudgeRoot, partTag]

theorem nudgePart_zero (p : CKY.Scores ℝ) (b : ℕ) (s : Part) : nudgePart p b s 0 = p := by
  cases s <;> simp [nudgePart, nudgeTerm, nudgeRule, nudgeRoot]

theorem nudgePart_N (p : CKY.Scores ℝ) (b : ℕ) (s : Part) (x : ℝ) : (nudgePart p b s x).N = p.N := by cases s <;> rfl

/-- **C71, `SentCFG`, `marginals`.** Moving one score moves the expected number of uses of another by their covariance under the distribution over the derivations, up to
the error of the stand-in.  The matrix of these derivatives is symmetric, and no expected number falls when its own score is raised. -/
theorem cfg_marginals_cov (p : CKY.Scores ℝ) (lengths : Option (List ℕ)) (h : SentCFG.Valid p lengths) (hl : SentCFG.Long p lengths) {B : ℝ}
    (hB : SentCFG.Bounded p lengths B) (b : ℕ) (hb : b < p.batch) :
    ∃ J : Part → Part → ℝ, (∀ s s', J s s' = J s' s) ∧ (∀ s, 0 ≤ J s s) ∧ ∀ s s',
      HasEntryDeriv (fun x => CKY.marginals (nudgePart p b s x) lengths) (partEntry b · s') (J s' s) ∧
      |J s' s - Gibbs.cov (SentCFG.dscore p b : SentCFG.Der p lengths b → ℝ) (fun d => partCount d.1 s') (fun d => partCount d.1 s)| ≤
        3 * (SentCFG.err p lengths B b * (3 * p.N) ^ 2) := by
  have hcard : ∀ b < p.batch, 2 * SentCFG.len p lengths b + (SentCFG.len p lengths b - 1) ≤ 3 * p.N := fun b hb => by have := SentCFG.len_le h b hb; omega
  have hne : Nonempty (Derivs p.NT p.T (lenOf p.N lengths b) ⊕ CKYProofs.Ph p.NT p.T (lenOf p.N lengths b)) := (cfg_dp h b (.root 0) 0).nonempty_all b hb
  refine ⟨fun s s' => Gibbs.cov (tot (CKYProofs.derivParts true b) (CKYProofs.phAtoms true b) Semirings.negInf (CKYProofs.atS (CKY.marked p)))
    (BatchDP.uses (ι := fun b => Derivs p.NT p.T (lenOf p.N lengths b)) (π := fun b => CKYProofs.Ph p.NT p.T (lenOf p.N lengths b)) (b := b)
      (CKYProofs.derivParts true b) (fun _ => 0) (CKYProofs.phAtoms true b) (partTag b s))
    (BatchDP.uses (ι := fun b => Derivs p.NT p.T (lenOf p.N lengths b)) (π := fun b => CKYProofs.Ph p.NT p.T (lenOf p.N lengths b)) (b := b)
      (CKYProofs.derivParts true b) (fun _ => 0) (CKYProofs.phAtoms true b) (partTag b s')),
    fun x y => Gibbs.cov_comm _ _ _, fun x => Gibbs.cov_self_nonneg _ _, fun s s' => ?_⟩
  have h1 := BatchDP.marginals_cov_leaky (cfg_dp h b s) (cfg_line p lengths b s) (fun b hb => SentCFG.der_nonempty (p := p) h hl b hb) (M := 3 * p.N)
    (fun b hb e d => by
      have a1 := Multiset.count_le_card e (CKYProofs.derivParts true b d)
      rw [SentCFG.parts_card] at a1
      exact_mod_cast a1.trans (hcard b hb))
    (fun b hb e x => by
      have a1 := (Multiset.count_le_card e ((CKYProofs.phAtoms true b x).filterMap Atom.link)).trans (SentCFG.card_filterMap_le _ _)
      rw [SentCFG.phAtoms_card] at a1
      exact_mod_cast a1.trans (hcard b hb)) b hb (partTag b s') (partTag_head b s') ?_
  · rw [nudgePart_zero, SentCFG.realScore_marked] at h1
    simp only [partTag_count] at h1
    refine ⟨?_, h1.2.trans ?_⟩
    · obtain ⟨F, h2, h3⟩ := h1.1
      refine ⟨F, fun t => ?_, h3⟩
      obtain ⟨μ, h4, h5⟩ := h2 t
      refine ⟨CKY.arrange p.N μ, ?_, ?_⟩
      · beta_reduce
        rw [CKY.marginals, nudgePart_N, if_neg (SentCFG.N_ne h hl)]
        exact congrArg (Except.map (CKY.arrange p.N)) h4
      · rw [← h5]
        cases s' <;> rfl
    · have := SentCFG.ex_marked h hl hB b hb
      exact mul_le_mul_of_nonneg_left (mul_le_mul_of_nonneg_right this (by positivity)) (by norm_num)
  · intro y hy
    rw [CKYProofs.phAtoms, Multiset.mem_add] at hy
    rcases hy with hy | hy
    · simp at hy
    · exact CKYProofs.atoms_masked _ _ _ _ _ hy

example : ∃ d, HasEntryDeriv (fun x => CKY.marginals (nudgePart SentCFG.sample 1 (.rule 0 1 2) x) (some [3, 2])) (partEntry 1 · (.rule 0 1 2)) d ∧ 0 ≤ d := by
  obtain ⟨J, -, h2, h3⟩ := cfg_marginals_cov SentCFG.sample _ SentCFG.sample_valid SentCFG.sample_long SentCFG.sample_bounded.1 1 (by decide)
  exact ⟨_, (h3 _ _).1, h2 _⟩

end Props.Covariance
