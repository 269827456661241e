import Verif.Props.GradientChain
import Verif.Props.Gradient

/-! Property theorems C65: the gradient of `log_prob(value)` with respect to the potentials is `value - marginals`. -/

open Finset Spec

noncomputable section
namespace Props.LogProbGradient

/-- For every `t` the call `f t` returns a number, and its derivative at `t = 0` is `d`. -/
def HasNumDeriv (f : ℝ → Except PyErr ℝ) (d : ℝ) : Prop := ∃ F : ℝ → ℝ, (∀ t, f t = .ok (F t)) ∧ HasDerivAt F d 0

theorem sum_range_list {f : ℕ → ℝ} (n : ℕ) : ((List.range n).map f).sum = ∑ i ∈ range n, f i := by
  rw [← List.sum_toFinset _ List.nodup_range, List.toFinset_range]

theorem sum_flatMap {α : Type} (l : List α) (f : α → List ℝ) : (l.flatMap f).sum = (l.map fun a => (f a).sum).sum := by
  induction l with
  | nil => rfl
  | cons a l ih => rw [List.flatMap_cons, List.sum_append, ih, List.map_cons, List.sum_cons]

theorem score3 (a b c : ℕ) (f g : ℕ × ℕ × ℕ → ℝ) :
    Struct.score (((List.range a).flatMap fun i => (List.range b).flatMap fun j => (List.range c).map fun k => (i, j, k)).map f)
      (((List.range a).flatMap fun i => (List.range b).flatMap fun j => (List.range c).map fun k => (i, j, k)).map g) =
      ∑ i ∈ range a, ∑ j ∈ range b, ∑ k ∈ range c, f (i, j, k) * g (i, j, k) := by
  rw [Struct.score, List.zipWith_map, List.zipWith_self, List.map_flatMap, sum_flatMap, sum_range_list]
  refine sum_congr rfl fun i _ => ?_
  rw [List.map_flatMap, sum_flatMap, sum_range_list]
  refine sum_congr rfl fun j _ => ?_
  rw [List.map_map, sum_range_list]
  rfl

theorem score4 (a b c d : ℕ) (f g : ℕ × ℕ × ℕ × ℕ → ℝ) :
    Struct.score (((List.range a).flatMap fun i => (List.range b).flatMap fun j => (List.range c).flatMap fun k => (List.range d).map fun l => (i, j, k, l)).map f)
      (((List.range a).flatMap fun i => (List.range b).flatMap fun j => (List.range c).flatMap fun k => (List.range d).map fun l => (i, j, k, l)).map g) =
      ∑ i ∈ range a, ∑ j ∈ range b, ∑ k ∈ range c, ∑ l ∈ range d, f (i, j, k, l) * g (i, j, k, l) := by
  rw [Struct.score, List.zipWith_map, List.zipWith_self, List.map_flatMap, sum_flatMap, sum_range_list]
  refine sum_congr rfl fun i _ => ?_
  rw [List.map_flatMap, sum_flatMap, sum_range_list]
  refine sum_congr rfl fun j _ => ?_
  rw [List.map_flatMap, sum_flatMap, sum_range_list]
  refine sum_congr rfl fun k _ => ?_
  rw [List.map_map, sum_range_list]
  rfl

/-- The score is linear in the potentials. -/
theorem score3_deriv (a b c : ℕ) (f v : ℕ → ℕ → ℕ → ℝ) {i0 j0 k0 : ℕ} (hi : i0 < a) (hj : j0 < b) (hk : k0 < c) :
    HasDerivAt (fun t => ∑ i ∈ range a, ∑ j ∈ range b, ∑ k ∈ range c, (f i j k + if i = i0 ∧ j = j0 ∧ k = k0 then t else 0) * v i j k) (v i0 j0 k0) 0 := by
  have e : ∀ t : ℝ, ∑ i ∈ range a, ∑ j ∈ range b, ∑ k ∈ range c, (f i j k + if i = i0 ∧ j = j0 ∧ k = k0 then t else 0) * v i j k =
      ∑ i ∈ range a, ∑ j ∈ range b, ∑ k ∈ range c, f i j k * v i j k + t * v i0 j0 k0 := by
    intro t
    simp only [add_mul, sum_add_distrib, ite_and, ite_mul, zero_mul]
    congr 1
    simp only [sum_ite_irrel, sum_const_zero, sum_ite_eq', mem_range, hi, hj, hk, if_true]
  simp only [e]
  simpa using ((hasDerivAt_id (0 : ℝ)).mul_const (v i0 j0 k0)).const_add (∑ i ∈ range a, ∑ j ∈ range b, ∑ k ∈ range c, f i j k * v i j k)

theorem score4_deriv (a b c d : ℕ) (f v : ℕ → ℕ → ℕ → ℕ → ℝ) {i0 j0 k0 l0 : ℕ} (hi : i0 < a) (hj : j0 < b) (hk : k0 < c) (hl : l0 < d) :
    HasDerivAt (fun t => ∑ i ∈ range a, ∑ j ∈ range b, ∑ k ∈ range c, ∑ l ∈ range d, (f i j k l + if i = i0 ∧ j = j0 ∧ k = k0 ∧ l = l0 then t else 0) * v i j k l)
      (v i0 j0 k0 l0) 0 := by
  have e : ∀ t : ℝ, ∑ i ∈ range a, ∑ j ∈ range b, ∑ k ∈ range c, ∑ l ∈ range d, (f i j k l + if i = i0 ∧ j = j0 ∧ k = k0 ∧ l = l0 then t else 0) * v i j k l =
      ∑ i ∈ range a, ∑ j ∈ range b, ∑ k ∈ range c, ∑ l ∈ range d, f i j k l * v i j k l + t * v i0 j0 k0 l0 := by
    intro t
    simp only [add_mul, sum_add_distrib, ite_and, ite_mul, zero_mul]
    congr 1
    simp only [sum_ite_irrel, sum_const_zero, sum_ite_eq', mem_range, hi, hj, hk, hl, if_true]
  simp only [e]
  simpa using ((hasDerivAt_id (0 : ℝ)).mul_const (v i0 j0 k0 l0)).const_add (∑ i ∈ range a, ∑ j ∈ range b, ∑ k ∈ range c, ∑ l ∈ range d, f i j k l * v i j k l)

/-- `score - partition`. -/
theorem of_row {f : ℝ → Except PyErr (List ℝ)} {b : ℕ} {m : ℝ} (h : HasRowDeriv f b m) {s : ℝ → ℝ} {v : ℝ} (hs : HasDerivAt s v 0) :
    HasNumDeriv (fun t => do let z ← f t; .ok (s t - z.getD b 0)) (v - m) := by
  obtain ⟨F, h1, h2⟩ := h
  refine ⟨fun t => s t - F t, fun t => ?_, hs.fun_sub h2⟩
  have := h1 t
  rcases hf : f t with e | vs
  · rw [hf] at this; simp [rowValue] at this
  · rw [hf] at this
    have h3 : vs[b]? = some (F t) := this
    beta_reduce
    rw [hf]
    show Except.ok (s t - vs.getD b 0) = _
    rw [List.getD_eq_getElem?_getD, h3]
    rfl

/-- **C65, `LinearChainCRF`.** For every row `b`, every tensor `value` and every edge `(n, i, j)` of the row: the derivative of `log_prob(value)` with respect to the
potential is `value - marginals`. -/
theorem chain_logProb_grad (p : T4 ℝ) (lengths : Option (List ℕ)) (h : LinearChain.Valid p lengths) : ∃ μ, Dist.marginals _root_.LinearChain.algo p lengths = .ok μ ∧
    ∀ b < p.d0, ∀ value : ℕ → ℕ → ℕ → ℝ, ∀ n < LinearChain.numEdges p lengths b, ∀ i < p.d2, ∀ j < p.d2,
      HasNumDeriv (fun t => _root_.LinearChain.logProb (GradientChain.nudge p b n i j t) lengths b value) (value n i j - μ [b, n, i, j]) := by
  obtain ⟨μ, h1, h2⟩ := GradientChain.marginals_deriv p lengths h
  refine ⟨μ, h1, fun b hb value n hn i hi j hj => ?_⟩
  have h3 := h2 b hb n ⟨i, hi⟩ ⟨j, hj⟩ b hb
  rw [if_pos ⟨rfl, hn⟩] at h3
  have hn' : n < p.d1 := lt_of_lt_of_le hn (by have := LinearChainProofs.lenOf_le h.lens b; unfold LinearChain.numEdges; omega)
  have hs := score3_deriv p.d1 p.d2 p.d3 (fun n i j => p.get b n i j) value hn' hi (h.square ▸ hj)
  have := of_row h3 hs
  refine (iff_of_eq (congrArg (fun f => HasNumDeriv f _) (funext fun t => ?_))).mp this
  unfold _root_.LinearChain.logProb
  dsimp only
  rw [score3]
  simp only [GradientChain.nudge, true_and]

/-- **C65, `TreeCRF`.** -/
theorem tree_logProb_grad (p : T4 ℝ) (lengths : Option (List ℕ)) (h : TreeCRF.Valid p lengths) : ∃ μ, Dist.marginals CKYCRF.algo p lengths = .ok μ ∧
    ∀ b < p.d0, ∀ value : ℕ → ℕ → ℕ → ℝ, ∀ i < p.d1, ∀ j < p.d1, ∀ a < p.d3,
      HasNumDeriv (fun t => CKYCRF.logProb (Gradient.nudge4 p b i j a t) lengths b value) (value i j a - μ [b, i, j, a]) := by
  obtain ⟨μ, h1, h2⟩ := Gradient.tree_marginals p lengths h
  refine ⟨μ, h1, fun b hb value i hi j hj a ha => ?_⟩
  have h3 := h2 b hb i j a b hb
  rw [if_pos rfl] at h3
  have hs := score3_deriv p.d1 p.d2 p.d3 (fun n i j => p.get b n i j) value hi (h.square ▸ hj) ha
  have := of_row h3 hs
  refine (iff_of_eq (congrArg (fun f => HasNumDeriv f _) (funext fun t => ?_))).mp this
  unfold CKYCRF.logProb
  dsimp only
  rw [score3]
  simp only [Gradient.nudge4, true_and]

/-- **C65, `SemiMarkovCRF`.** -/
theorem semimarkov_logProb_grad (p : T5 ℝ) (lengths : Option (List ℕ)) (h : SemiMarkov.Valid p lengths) : ∃ μ, Dist.marginals _root_.SemiMarkov.algo p lengths = .ok μ ∧
    ∀ b < p.d0, ∀ value : ℕ → ℕ → ℕ → ℕ → ℝ, ∀ n < SemiMarkov.steps p lengths b, ∀ k < p.d2, ∀ i < p.d3, ∀ j < p.d3,
      HasNumDeriv (fun t => _root_.SemiMarkov.logProb (Gradient.nudge5 p b n k i j t) lengths b value) (value n k i j - μ [b, n, k, i, j]) := by
  obtain ⟨μ, h1, h2⟩ := Gradient.semimarkov_marginals p lengths h
  refine ⟨μ, h1, fun b hb value n hn k hk i hi j hj => ?_⟩
  have hn' : n < p.d1 := lt_of_lt_of_le hn (by have := LinearChainProofs.lenOf_le h.lens b; unfold SemiMarkov.steps; omega)
  have h3 := h2 b hb n k i j b hb
  rw [if_pos ⟨rfl, hn⟩] at h3
  have hs := score4_deriv p.d1 p.d2 p.d3 p.d4 (fun n k i j => p.get b n k i j) value hn' hk hi (h.square ▸ hj)
  have := of_row h3 hs
  refine (iff_of_eq (congrArg (fun f => HasNumDeriv f _) (funext fun t => ?_))).mp this
  unfold _root_.SemiMarkov.logProb
  dsimp only
  rw [score4]
  simp only [Gradient.nudge5, true_and]

/-- **C65, `DependencyCRF`.** -/
theorem dependency_logProb_grad (mr : Bool) (q : DepTree.Arcs ℝ) (lengths : Option (List ℕ)) (h : Dependency.Valid mr q lengths) :
    ∃ μ, DepTree.marginals mr q lengths = .ok μ ∧ ∀ b < q.d0, ∀ value : ℕ → ℕ → ℕ → ℝ, ∀ i < q.d1, ∀ j < q.d1,
      HasNumDeriv (fun t => DepTree.logProb mr (Gradient.nudgeArc q b i j 0 t) lengths b value) (value i j 0 - μ [b, i, j]) := by
  obtain ⟨μ, h1, h2⟩ := Gradient.dependency_marginals mr q lengths h
  refine ⟨μ, h1, fun b hb value i hi j hj => ?_⟩
  have h3 := h2 b hb i j b hb
  rw [if_pos rfl] at h3
  have hs := score3_deriv q.d1 q.d2 q.labels (fun n i j => q.get b n i j) value hi (h.square ▸ hj) (k0 := 0) (by rw [DepTreeProofs.labels_one h.rank]; exact Nat.one_pos)
  have := of_row h3 hs
  refine (iff_of_eq (congrArg (fun f => HasNumDeriv f _) (funext fun t => ?_))).mp this
  unfold DepTree.logProb
  dsimp only
  rw [score3]
  simp only [Gradient.nudgeArc, true_and]
  rfl

/-- **C65, `DependencyCRF` with labels.** -/
theorem labelled_logProb_grad (mr : Bool) (q : DepTree.Arcs ℝ) (lengths : Option (List ℕ)) (h : LabelledDependency.Valid mr q lengths) :
    ∃ μ, DepTree.marginals mr q lengths = .ok μ ∧ ∀ b < q.d0, ∀ value : ℕ → ℕ → ℕ → ℝ, ∀ i < q.d1, ∀ j < q.d1, ∀ l < q.labels,
      HasNumDeriv (fun t => DepTree.logProb mr (Gradient.nudgeArc q b i j l t) lengths b value) (value i j l - μ [b, i, j, l]) := by
  obtain ⟨μ, h1, h2⟩ := Gradient.labelled_marginals mr q lengths h
  refine ⟨μ, h1, fun b hb value i hi j hj l hl => ?_⟩
  have h3 := h2 b hb i j l b hb
  rw [if_pos rfl] at h3
  have hs := score3_deriv q.d1 q.d2 q.labels (fun n i j => q.get b n i j) value hi (h.square ▸ hj) hl
  have := of_row h3 hs
  refine (iff_of_eq (congrArg (fun f => HasNumDeriv f _) (funext fun t => ?_))).mp this
  unfold DepTree.logProb
  dsimp only
  rw [score3]
  simp only [Gradient.nudgeArc, true_and]
  rfl

example : ∃ μ, Dist.marginals _root_.LinearChain.algo LinearChain.sample (some [3, 2]) = .ok μ ∧ ∀ value,
    HasNumDeriv (fun t => _root_.LinearChain.logProb (GradientChain.nudge LinearChain.sample 1 0 1 0 t) (some [3, 2]) 1 value) (value 0 1 0 - μ [1, 0, 1, 0]) := by
  obtain ⟨μ, h1, h2⟩ := chain_logProb_grad LinearChain.sample _ LinearChain.sample_valid
  exact ⟨μ, h1, fun value => h2 1 (by decide) value 0 (by decide) 1 (by decide) 0 (by decide)⟩

example : ∃ μ, Dist.marginals CKYCRF.algo TreeCRF.sample (some [3, 2]) = .ok μ ∧ ∀ value,
    HasNumDeriv (fun t => CKYCRF.logProb (Gradient.nudge4 TreeCRF.sample 1 0 1 1 t) (some [3, 2]) 1 value) (value 0 1 1 - μ [1, 0, 1, 1]) := by
  obtain ⟨μ, h1, h2⟩ := tree_logProb_grad TreeCRF.sample _ TreeCRF.sample_valid
  exact ⟨μ, h1, fun value => h2 1 (by decide) value 0 (by decide) 1 (by decide) 1 (by decide)⟩

example (mr : Bool) : ∃ μ, DepTree.marginals mr LabelledDependency.sample (some [3, 2]) = .ok μ ∧ ∀ value,
    HasNumDeriv (fun t => DepTree.logProb mr (Gradient.nudgeArc LabelledDependency.sample 0 2 1 1 t) (some [3, 2]) 0 value) (value 2 1 1 - μ [0, 2, 1, 1]) := by
  obtain ⟨μ, h1, h2⟩ := labelled_logProb_grad mr LabelledDependency.sample _ (LabelledDependency.sample_valid mr)
  exact ⟨μ, h1, fun value => h2 0 (by decide) value 2 (by decide) 1 (by decide) 1 (by decide)⟩

end Props.LogProbGradient
