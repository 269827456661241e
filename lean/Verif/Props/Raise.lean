import Verif.Props.Likelihood

/-! Property theorems C140: raising the potential of a part.  Its marginal does not fall, and `partition` rises by at least the old and at most the new marginal times the
raise. -/

open Finset Spec Generic

noncomputable section
namespace Props.Raise
open Props.Likelihood

/-- The table with the entry `(b, i, j, a)` raised by `δ`. -/
def raised (f : ℕ → ℕ → ℕ → ℕ → ℝ) (b i j a : ℕ) (δ : ℝ) (b' i' j' a' : ℕ) : ℝ := if b' = b ∧ i' = i ∧ j' = j ∧ a' = a then f b' i' j' a' + δ else f b' i' j' a'

/-- The same for tables with one more index. -/
def raised5 (f : ℕ → ℕ → ℕ → ℕ → ℕ → ℝ) (b n k i j : ℕ) (δ : ℝ) (b' n' k' i' j' : ℕ) : ℝ :=
  if b' = b ∧ n' = n ∧ k' = k ∧ i' = i ∧ j' = j then f b' n' k' i' j' + δ else f b' n' k' i' j'

/-- What is claimed about a row with `partition` `z` and marginal `m` before, `z'` and `m'` after. -/
def Rises (δ z z' m m' : ℝ) : Prop := m ≤ m' ∧ m * δ ≤ z' - z ∧ z' - z ≤ m' * δ

theorem rises {δ z z' m m' : ℝ} (hδ : 0 < δ) (h1 : z + m * δ ≤ z') (h2 : z' + m' * (-δ) ≤ z) : Rises δ z z' m m' :=
  ⟨le_of_mul_le_mul_right (by linarith) hδ, by linarith, by linarith⟩

theorem sum_point3 {A B C i j k : ℕ} (hi : i < A) (hj : j < B) (hk : k < C) (m d : ℕ → ℕ → ℕ → ℝ) (hd : ∀ i' j' k', ¬ (i' = i ∧ j' = j ∧ k' = k) → d i' j' k' = 0) :
    ∑ i' ∈ range A, ∑ j' ∈ range B, ∑ k' ∈ range C, m i' j' k' * d i' j' k' = m i j k * d i j k := by
  rw [← sum3 A B C fun i' j' k' => m i' j' k' * d i' j' k']
  exact sum_eq_single_of_mem (i, j, k) (mem3.2 ⟨hi, hj, hk⟩) fun x _ hx => by rw [hd _ _ _ fun h => hx (by ext <;> simp [h]), mul_zero]

theorem sum_point4 {A B C D i j k l : ℕ} (hi : i < A) (hj : j < B) (hk : k < C) (hl : l < D) (m d : ℕ → ℕ → ℕ → ℕ → ℝ)
    (hd : ∀ i' j' k' l', ¬ (i' = i ∧ j' = j ∧ k' = k ∧ l' = l) → d i' j' k' l' = 0) :
    ∑ i' ∈ range A, ∑ j' ∈ range B, ∑ k' ∈ range C, ∑ l' ∈ range D, m i' j' k' l' * d i' j' k' l' = m i j k l * d i j k l := by
  rw [← sum4 A B C D fun i' j' k' l' => m i' j' k' l' * d i' j' k' l']
  exact sum_eq_single_of_mem (i, j, k, l) (mem4.2 ⟨hi, hj, hk, hl⟩) fun x _ hx => by rw [hd _ _ _ _ fun h => hx (by ext <;> simp [h]), mul_zero]

/-- **C140, `TreeCRF`.** -/
theorem tree_raise (p : T4 ℝ) (lengths : Option (List ℕ)) (h : TreeCRF.Valid p lengths) (b i j a : ℕ) (hb : b < p.d0) (hi : i < p.d1) (hj : j < p.d2) (ha : a < p.d3)
    (δ : ℝ) (hδ : 0 < δ) : ∃ μ ν z z', Dist.marginals CKYCRF.algo p lengths = .ok μ ∧ Dist.marginals CKYCRF.algo { p with get := raised p.get b i j a δ } lengths = .ok ν ∧
      rowValue (Dist.partition CKYCRF.algo p lengths) b = some z ∧ rowValue (Dist.partition CKYCRF.algo { p with get := raised p.get b i j a δ } lengths) b = some z' ∧
      Rises δ z z' (μ [b, i, j, a]) (ν [b, i, j, a]) := by
  obtain ⟨μ, hμ, tp⟩ := tree_tangent p lengths h
  obtain ⟨ν, hν, tg⟩ := tree_tangent ({ p with get := raised p.get b i j a δ } : T4 ℝ) lengths ⟨h.square, h.words, h.labels, h.lens⟩
  obtain ⟨z, z', e1, e2, e3⟩ := tp b hb (raised p.get b i j a δ)
  obtain ⟨y', y, f1, f2, f3⟩ := tg b hb p.get
  obtain rfl : z' = y' := Option.some.inj (e2.symm.trans f1)
  obtain rfl : z = y := Option.some.inj (e1.symm.trans f2)
  refine ⟨μ, ν, z, z', hμ, hν, e1, e2, rises hδ ?_ ?_⟩
  · rw [sum_point3 hi hj ha (fun i j a => μ [b, i, j, a]) (fun i' j' a' => raised p.get b i j a δ b i' j' a' - p.get b i' j' a')
      fun i' j' a' hn => by rw [raised, if_neg fun hc => hn hc.2, sub_self]] at e3
    simpa [raised] using e3
  · rw [sum_point3 hi hj ha (fun i j a => ν [b, i, j, a]) (fun i' j' a' => p.get b i' j' a' - raised p.get b i j a δ b i' j' a')
      fun i' j' a' hn => by rw [raised, if_neg fun hc => hn hc.2, sub_self]] at f3
    simpa [raised] using f3

/-- **C140, `LinearChainCRF`**, for the edges of the row. -/
theorem chain_raise (p : T4 ℝ) (lengths : Option (List ℕ)) (h : LinearChain.Valid p lengths) (b n i j : ℕ) (hb : b < p.d0) (hn : n < LinearChain.numEdges p lengths b)
    (hi : i < p.d2) (hj : j < p.d3) (δ : ℝ) (hδ : 0 < δ) :
    ∃ μ ν z z', Dist.marginals _root_.LinearChain.algo p lengths = .ok μ ∧ Dist.marginals _root_.LinearChain.algo { p with get := raised p.get b n i j δ } lengths = .ok ν ∧
      rowValue (Dist.partition _root_.LinearChain.algo p lengths) b = some z ∧
      rowValue (Dist.partition _root_.LinearChain.algo { p with get := raised p.get b n i j δ } lengths) b = some z' ∧
      Rises δ z z' (μ [b, n, i, j]) (ν [b, n, i, j]) := by
  obtain ⟨μ, hμ, tp⟩ := chain_tangent p lengths h
  obtain ⟨ν, hν, tg⟩ := chain_tangent ({ p with get := raised p.get b n i j δ } : T4 ℝ) lengths ⟨h.square, h.edges, h.classes, h.lens⟩
  obtain ⟨z, z', e1, e2, e3⟩ := tp b hb (raised p.get b n i j δ)
  obtain ⟨y', y, f1, f2, f3⟩ := tg b hb p.get
  obtain rfl : z' = y' := Option.some.inj (e2.symm.trans f1)
  obtain rfl : z = y := Option.some.inj (e1.symm.trans f2)
  refine ⟨μ, ν, z, z', hμ, hν, e1, e2, rises hδ ?_ ?_⟩
  · rw [sum_point3 hn hi hj (fun n i j => μ [b, n, i, j]) (fun n' i' j' => raised p.get b n i j δ b n' i' j' - p.get b n' i' j')
      fun n' i' j' hc => by rw [raised, if_neg fun hc' => hc hc'.2, sub_self]] at e3
    simpa [raised] using e3
  · have f3 : z' + ∑ n' ∈ range (LinearChain.numEdges p lengths b), ∑ i' ∈ range p.d2, ∑ j' ∈ range p.d3,
      ν [b, n', i', j'] * (p.get b n' i' j' - raised p.get b n i j δ b n' i' j') ≤ z := f3
    rw [sum_point3 hn hi hj (fun n i j => ν [b, n, i, j]) (fun n' i' j' => p.get b n' i' j' - raised p.get b n i j δ b n' i' j')
      fun n' i' j' hc => by rw [raised, if_neg fun hc' => hc hc'.2, sub_self]] at f3
    simpa [raised] using f3

/-- **C140, `SemiMarkovCRF`**, for the steps of the row. -/
theorem semimarkov_raise (p : T5 ℝ) (lengths : Option (List ℕ)) (h : SemiMarkov.Valid p lengths) (b n k i j : ℕ) (hb : b < p.d0) (hn : n < SemiMarkov.steps p lengths b)
    (hk : k < p.d2) (hi : i < p.d3) (hj : j < p.d4) (δ : ℝ) (hδ : 0 < δ) :
    ∃ μ ν z z', Dist.marginals _root_.SemiMarkov.algo p lengths = .ok μ ∧ Dist.marginals _root_.SemiMarkov.algo { p with get := raised5 p.get b n k i j δ } lengths = .ok ν ∧
      rowValue (Dist.partition _root_.SemiMarkov.algo p lengths) b = some z ∧
      rowValue (Dist.partition _root_.SemiMarkov.algo { p with get := raised5 p.get b n k i j δ } lengths) b = some z' ∧
      Rises δ z z' (μ [b, n, k, i, j]) (ν [b, n, k, i, j]) := by
  obtain ⟨μ, hμ, tp⟩ := semimarkov_tangent p lengths h
  obtain ⟨ν, hν, tg⟩ := semimarkov_tangent ({ p with get := raised5 p.get b n k i j δ } : T5 ℝ) lengths ⟨h.rows, h.square, h.classes, h.positions, h.segs, h.lens⟩
  obtain ⟨z, z', e1, e2, e3⟩ := tp b hb (raised5 p.get b n k i j δ)
  obtain ⟨y', y, f1, f2, f3⟩ := tg b hb p.get
  obtain rfl : z' = y' := Option.some.inj (e2.symm.trans f1)
  obtain rfl : z = y := Option.some.inj (e1.symm.trans f2)
  refine ⟨μ, ν, z, z', hμ, hν, e1, e2, rises hδ ?_ ?_⟩
  · rw [sum_point4 hn hk hi hj (fun n k i j => μ [b, n, k, i, j]) (fun n' k' i' j' => raised5 p.get b n k i j δ b n' k' i' j' - p.get b n' k' i' j')
      fun n' k' i' j' hc => by rw [raised5, if_neg fun hc' => hc hc'.2, sub_self]] at e3
    simpa [raised5] using e3
  · have f3 : z' + ∑ n' ∈ range (SemiMarkov.steps p lengths b), ∑ k' ∈ range p.d2, ∑ i' ∈ range p.d3, ∑ j' ∈ range p.d4,
      ν [b, n', k', i', j'] * (p.get b n' k' i' j' - raised5 p.get b n k i j δ b n' k' i' j') ≤ z := f3
    rw [sum_point4 hn hk hi hj (fun n k i j => ν [b, n, k, i, j]) (fun n' k' i' j' => p.get b n' k' i' j' - raised5 p.get b n k i j δ b n' k' i' j')
      fun n' k' i' j' hc => by rw [raised5, if_neg fun hc' => hc hc'.2, sub_self]] at f3
    simpa [raised5] using f3

/-- **C140, `DependencyCRF`.** -/
theorem dependency_raise (mr : Bool) (q : DepTree.Arcs ℝ) (lengths : Option (List ℕ)) (h : Dependency.Valid mr q lengths) (b i j : ℕ) (hb : b < q.d0) (hi : i < q.d1) (hj : j < q.d2)
    (δ : ℝ) (hδ : 0 < δ) : ∃ μ ν z z', DepTree.marginals mr q lengths = .ok μ ∧ DepTree.marginals mr { q with get := raised q.get b i j 0 δ } lengths = .ok ν ∧
      rowValue (DepTree.partition mr q lengths) b = some z ∧ rowValue (DepTree.partition mr { q with get := raised q.get b i j 0 δ } lengths) b = some z' ∧
      Rises δ z z' (μ [b, i, j]) (ν [b, i, j]) := by
  obtain ⟨μ, hμ, tp⟩ := dependency_tangent mr q lengths h
  obtain ⟨ν, hν, tg⟩ := dependency_tangent mr ({ q with get := raised q.get b i j 0 δ } : DepTree.Arcs ℝ) lengths { h with }
  obtain ⟨z, z', e1, e2, e3⟩ := tp b hb (raised q.get b i j 0 δ)
  obtain ⟨y', y, f1, f2, f3⟩ := tg b hb q.get
  obtain rfl : z' = y' := Option.some.inj (e2.symm.trans f1)
  obtain rfl : z = y := Option.some.inj (e1.symm.trans f2)
  refine ⟨μ, ν, z, z', hμ, hν, e1, e2, rises hδ ?_ ?_⟩
  · have s := sum_point3 hi hj one_pos (fun i j _ => μ [b, i, j]) (fun i' j' k' => if k' = 0 then raised q.get b i j 0 δ b i' j' 0 - q.get b i' j' 0 else 0)
      fun i' j' k' hc => by
        split_ifs with hk
        · rw [raised, if_neg fun hc' => hc ⟨hc'.2.1, hc'.2.2.1, hk⟩, sub_self]
        · rfl
    simp only [sum_range_one, if_true] at s
    rw [s] at e3
    simpa [raised] using e3
  · have s := sum_point3 hi hj one_pos (fun i j _ => ν [b, i, j]) (fun i' j' k' => if k' = 0 then q.get b i' j' 0 - raised q.get b i j 0 δ b i' j' 0 else 0)
      fun i' j' k' hc => by
        split_ifs with hk
        · rw [raised, if_neg fun hc' => hc ⟨hc'.2.1, hc'.2.2.1, hk⟩, sub_self]
        · rfl
    simp only [sum_range_one, if_true] at s
    have f3 : z' + ∑ i' ∈ range q.d1, ∑ j' ∈ range q.d2, ν [b, i', j'] * (q.get b i' j' 0 - raised q.get b i j 0 δ b i' j' 0) ≤ z := f3
    rw [s] at f3
    simpa [raised] using f3

/-- **C140, `DependencyCRF` with labels.** -/
theorem labelled_raise (mr : Bool) (q : DepTree.Arcs ℝ) (lengths : Option (List ℕ)) (h : LabelledDependency.Valid mr q lengths) (b i j l : ℕ) (hb : b < q.d0) (hi : i < q.d1)
    (hj : j < q.d2) (hl : l < q.labels) (δ : ℝ) (hδ : 0 < δ) :
    ∃ μ ν z z', DepTree.marginals mr q lengths = .ok μ ∧ DepTree.marginals mr { q with get := raised q.get b i j l δ } lengths = .ok ν ∧
      rowValue (DepTree.partition mr q lengths) b = some z ∧ rowValue (DepTree.partition mr { q with get := raised q.get b i j l δ } lengths) b = some z' ∧
      Rises δ z z' (μ [b, i, j, l]) (ν [b, i, j, l]) := by
  obtain ⟨μ, hμ, tp⟩ := labelled_tangent mr q lengths h
  obtain ⟨ν, hν, tg⟩ := labelled_tangent mr ({ q with get := raised q.get b i j l δ } : DepTree.Arcs ℝ) lengths { h with }
  obtain ⟨z, z', e1, e2, e3⟩ := tp b hb (raised q.get b i j l δ)
  obtain ⟨y', y, f1, f2, f3⟩ := tg b hb q.get
  obtain rfl : z' = y' := Option.some.inj (e2.symm.trans f1)
  obtain rfl : z = y := Option.some.inj (e1.symm.trans f2)
  refine ⟨μ, ν, z, z', hμ, hν, e1, e2, rises hδ ?_ ?_⟩
  · rw [sum_point3 hi hj hl (fun i j a => μ [b, i, j, a]) (fun i' j' a' => raised q.get b i j l δ b i' j' a' - q.get b i' j' a')
      fun i' j' a' hn => by rw [raised, if_neg fun hc => hn hc.2, sub_self]] at e3
    simpa [raised] using e3
  · have f3 : z' + ∑ i' ∈ range q.d1, ∑ j' ∈ range q.d2, ∑ l' ∈ range q.labels, ν [b, i', j', l'] * (q.get b i' j' l' - raised q.get b i j l δ b i' j' l') ≤ z := f3
    rw [sum_point3 hi hj hl (fun i j a => ν [b, i, j, a]) (fun i' j' a' => q.get b i' j' a' - raised q.get b i j l δ b i' j' a')
      fun i' j' a' hn => by rw [raised, if_neg fun hc => hn hc.2, sub_self]] at f3
    simpa [raised] using f3

/-! ## Concrete cases -/

example : ∃ μ ν z z', Dist.marginals CKYCRF.algo TreeCRF.sample (some [3, 2]) = .ok μ ∧
    Dist.marginals CKYCRF.algo { TreeCRF.sample with get := raised TreeCRF.sample.get 1 0 1 0 2 } (some [3, 2]) = .ok ν ∧
    rowValue (Dist.partition CKYCRF.algo TreeCRF.sample (some [3, 2])) 1 = some z ∧
    rowValue (Dist.partition CKYCRF.algo { TreeCRF.sample with get := raised TreeCRF.sample.get 1 0 1 0 2 } (some [3, 2])) 1 = some z' ∧ Rises 2 z z' (μ [1, 0, 1, 0]) (ν [1, 0, 1, 0]) :=
  tree_raise TreeCRF.sample (some [3, 2]) TreeCRF.sample_valid 1 0 1 0 (by decide) (by decide) (by decide) (by decide) 2 two_pos

example := chain_raise LinearChain.sample (some [3, 2]) LinearChain.sample_valid 1 0 1 0 (by decide) (by decide) (by decide) (by decide) 2 two_pos

example := semimarkov_raise SemiMarkov.sample (some [4, 3]) SemiMarkov.sample_valid 1 0 1 1 0 (by decide) (by decide) (by decide) (by decide) (by decide) 2 two_pos

example (mr : Bool) := dependency_raise mr Dependency.sample (some [3, 2]) (Dependency.sample_valid mr) 1 0 1 (by decide) (by decide) (by decide) 2 two_pos

example (mr : Bool) := labelled_raise mr LabelledDependency.sample (some [3, 2]) (LabelledDependency.sample_valid mr) 1 0 1 0 (by decide) (by decide) (by decide) (by decide) 2 two_pos

end Props.Raise
