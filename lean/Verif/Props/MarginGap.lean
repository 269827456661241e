import Verif.Props.Margin

/-! Property theorems C143: the margin read off `kmax(2)`. -/

open Finset Spec Generic

noncomputable section
namespace Props.Margin

/-- The gap between the two best scores is a margin of the best structure. -/
theorem margin_of_kbest {ι : Type} {s : ι → ℝ} {ys : List ι} {z₁ z₂ R : ℝ} (h : IsKBest s 2 ys) (e : [z₁, z₂] = ys.map s) (hgap : R < z₁ - z₂) :
    ∃ t, ∀ y, y ≠ t → s y + R < s t := by
  match ys, h, e with
  | [], _, e => cases e
  | [_], _, e => cases e
  | t :: u :: [], h, e =>
    simp only [List.map_cons, List.map_nil, List.cons.injEq, and_true] at e
    refine ⟨t, fun y hy => ?_⟩
    have : s y ≤ s u := by
      by_cases hu : y = u
      · rw [hu]
      · exact h.best y (by simp [hy, hu]) u (by simp)
    linarith [e.1, e.2]
  | _ :: _ :: _ :: _, _, e => simp at e

/-- Conversely, a margin of the best structure is a gap between the two best scores. -/
theorem gap_of_margin {ι : Type} {s : ι → ℝ} {ys : List ι} {R : ℝ} (hR : 0 ≤ R) (h : IsKBest s 2 ys) {t : ι} (ht : ∀ y, y ≠ t → s y + R < s t) :
    ∃ z₁ z₂, ys.map s = [z₁, z₂] ∧ R < z₁ - z₂ := by
  obtain ⟨y, u, rfl⟩ := List.length_eq_two.1 h.length
  have hd : y ≠ u := by simpa using h.distinct
  have hs : s u ≤ s y := by simpa using h.sorted
  have hy : y = t := by
    by_contra hne
    have h1 := ht y hne
    by_cases hu : u = t
    · rw [hu] at hs
      linarith
    · linarith [h.best t (by simp [Ne.symm hne, Ne.symm hu]) y (by simp)]
  subst hy
  exact ⟨s y, s u, rfl, by linarith [ht u (Ne.symm hd)]⟩

/-- The row of a list of results. -/
theorem row_of {α : Type} {vs ws : List α} {b : ℕ} {x : α} (e : vs = ws) (h : ws[b]? = some x) : ∃ hb : b < vs.length, x = vs[b] := by
  subst e
  obtain ⟨hb, e⟩ := List.getElem?_eq_some_iff.1 h
  exact ⟨hb, e.symm⟩

/-- **C143, `TreeCRF`.** If the two results of `kmax(2)` for row `b` differ by more than `2 (2 n - 1) δ`, then `argmax` of the row is the same for all potentials `g` within `δ`. -/
theorem tree_gap_stable (p : T4 ℝ) (lengths : Option (List ℕ)) (h : TreeCRF.Valid p lengths) {M : ℝ} (hM : TreeCRF.SmallPotentials p lengths M)
    (hc : ∀ b < p.d0, 2 ≤ Fintype.card (Trees p.d3 (TreeCRF.len p lengths b)))
    {pick pick' : List (Autograd.Grad (List ℕ)) → Autograd.Grad (List ℕ)} (hp : Autograd.IsArgmax Prod.fst pick) (hp' : Autograd.IsArgmax Prod.fst pick')
    (b : ℕ) (hb : b < p.d0) (g : ℕ → ℕ → ℕ → ℕ → ℝ) (δ : ℝ) (hδ : 0 ≤ δ)
    (hg : ∀ i j a, i ≤ j → j < TreeCRF.len p lengths b → a < p.d3 → |g b i j a - p.get b i j a| ≤ δ)
    {vs : List (List ℝ)} (hk : Dist.kmax CKYCRF.algo p lengths 2 = .ok vs) {z₁ z₂ : ℝ} (hz : vs[b]? = some [z₁, z₂]) (hgap : 2 * ((2 * TreeCRF.len p lengths b - 1 : ℕ) * δ) < z₁ - z₂) :
    ∃ μ ν, Dist.argmax CKYCRF.algo p lengths pick = .ok μ ∧ Dist.argmax CKYCRF.algo { p with get := g } lengths pick' = .ok ν ∧
      ∀ i j, ∀ a < p.d3, μ [b, i, j, a] = ν [b, i, j, a] := by
  obtain ⟨ws, w1, -, w2⟩ := TreeCRF.kmax_spec p lengths h hM two_pos hc
  obtain ⟨hb', e⟩ := row_of (Except.ok.inj (w1.symm.trans hk)) hz
  obtain ⟨ts, t1, t2⟩ := w2 b hb'
  obtain ⟨t, ht⟩ := margin_of_kbest t1 (e.trans t2) hgap
  obtain ⟨μ, ν, h1, h2, h3⟩ := tree_argmax_stable p lengths h hp hp' b hb g δ hδ hg t ht
  exact ⟨μ, ν, h1, h2, fun i j a ha => (h3 i j ⟨a, ha⟩).1.trans (h3 i j ⟨a, ha⟩).2.symm⟩

/-- **C143, `DependencyCRF`.** If the two results of `kmax(2)` for row `b` differ by more than `2 n δ`, then `argmax` of the row is the same for all potentials `g` within `δ`. -/
theorem dependency_gap_stable (mr : Bool) (q : DepTree.Arcs ℝ) (lengths : Option (List ℕ)) (h : Dependency.Valid mr q lengths) {M : ℝ} (hM : Dependency.SmallPotentials q lengths M)
    (hc : ∀ b < q.d0, 2 ≤ Fintype.card (ProjTrees mr (Dependency.len q lengths b)))
    {pick pick' : List (Autograd.Grad (List ℕ)) → Autograd.Grad (List ℕ)} (hp : Autograd.IsArgmax Prod.fst pick) (hp' : Autograd.IsArgmax Prod.fst pick')
    (b : ℕ) (hb : b < q.d0) (g : ℕ → ℕ → ℕ → ℕ → ℝ) (δ : ℝ) (hδ : 0 ≤ δ)
    (hg : ∀ i < Dependency.len q lengths b, ∀ j < Dependency.len q lengths b, |g b i j 0 - q.get b i j 0| ≤ δ)
    {vs : List (List ℝ)} (hk : DepTree.kmax mr q lengths 2 = .ok vs) {z₁ z₂ : ℝ} (hz : vs[b]? = some [z₁, z₂]) (hgap : 2 * (Dependency.len q lengths b * δ) < z₁ - z₂) :
    ∃ μ ν, DepTree.argmax mr q lengths pick = .ok μ ∧ DepTree.argmax mr { q with get := g } lengths pick' = .ok ν ∧ ∀ i j, μ [b, i, j] = ν [b, i, j] := by
  obtain ⟨ws, w1, -, w2⟩ := Dependency.kmax_spec mr q lengths h hM two_pos hc
  obtain ⟨hb', e⟩ := row_of (Except.ok.inj (w1.symm.trans hk)) hz
  obtain ⟨ts, t1, t2⟩ := w2 b hb'
  obtain ⟨t, ht⟩ := margin_of_kbest t1 (e.trans t2) hgap
  obtain ⟨μ, ν, h1, h2, h3⟩ := dependency_argmax_stable mr q lengths h hp hp' b hb g δ hδ hg t ht
  exact ⟨μ, ν, h1, h2, fun i j => (h3 i j).1.trans (h3 i j).2.symm⟩

/-- **C143, `DependencyCRF` with labels.** -/
theorem labelled_gap_stable (mr : Bool) (q : DepTree.Arcs ℝ) (lengths : Option (List ℕ)) (h : LabelledDependency.Valid mr q lengths) {M : ℝ}
    (hM : LabelledDependency.SmallPotentials q lengths M) (hc : ∀ b < q.d0, 2 ≤ Fintype.card (LabelledTrees mr (LabelledDependency.len q lengths b) q.d3))
    {pick pick' : List (Autograd.Grad (List ℕ)) → Autograd.Grad (List ℕ)} (hp : Autograd.IsArgmax Prod.fst pick) (hp' : Autograd.IsArgmax Prod.fst pick')
    (b : ℕ) (hb : b < q.d0) (g : ℕ → ℕ → ℕ → ℕ → ℝ) (δ : ℝ) (hδ : 0 ≤ δ)
    (hg : ∀ i < LabelledDependency.len q lengths b, ∀ j < LabelledDependency.len q lengths b, ∀ l < q.d3, |g b i j l - q.get b i j l| ≤ δ)
    {vs : List (List ℝ)} (hk : DepTree.kmax mr q lengths 2 = .ok vs) {z₁ z₂ : ℝ} (hz : vs[b]? = some [z₁, z₂]) (hgap : 2 * (LabelledDependency.len q lengths b * δ) < z₁ - z₂) :
    ∃ μ ν, DepTree.argmax mr q lengths pick = .ok μ ∧ DepTree.argmax mr { q with get := g } lengths pick' = .ok ν ∧ ∀ i j l, μ [b, i, j, l] = ν [b, i, j, l] := by
  obtain ⟨ws, w1, -, w2⟩ := LabelledDependency.kmax_spec mr q lengths h hM two_pos hc
  obtain ⟨hb', e⟩ := row_of (Except.ok.inj (w1.symm.trans hk)) hz
  obtain ⟨ts, t1, t2⟩ := w2 b hb'
  obtain ⟨t, ht⟩ := margin_of_kbest t1 (e.trans t2) hgap
  obtain ⟨μ, ν, h1, h2, h3⟩ := labelled_argmax_stable mr q lengths h hp hp' b hb g δ hδ hg t ht
  exact ⟨μ, ν, h1, h2, fun i j l => (h3 i j l).1.trans (h3 i j l).2.symm⟩

/-- **C143, `SemiMarkovCRF`.** If the two results of `kmax(2)` for row `b` differ by more than `2 m δ` (`m` steps), then `argmax` of the row is the same for all potentials `g` within `δ`. -/
theorem semimarkov_gap_stable (p : T5 ℝ) (lengths : Option (List ℕ)) (h : SemiMarkov.Valid p lengths) (g : ℕ → ℕ → ℕ → ℕ → ℕ → ℝ) {B : ℝ}
    (hB : SemiMarkov.Bounded p lengths B) (hB' : SemiMarkov.Bounded { p with get := g } lengths B) (hsmall : 2 * p.d1 * B < 100000)
    (hc : ∀ b < p.d0, 2 ≤ Fintype.card (SemiMarkov.Seg p lengths b))
    {pick pick' : List (Autograd.Grad (List ℕ)) → Autograd.Grad (List ℕ)} (hp : Autograd.IsArgmax Prod.fst pick) (hp' : Autograd.IsArgmax Prod.fst pick')
    (b : ℕ) (hb : b < p.d0) (δ : ℝ) (hδ : 0 ≤ δ)
    (hg : ∀ n k c c', n + k ≤ SemiMarkov.steps p lengths b → 1 ≤ k → k < p.d2 → c < p.d3 → c' < p.d3 → |g b n k c c' - p.get b n k c c'| ≤ δ)
    {vs : List (List ℝ)} (hk : Dist.kmax _root_.SemiMarkov.algo p lengths 2 = .ok vs) {z₁ z₂ : ℝ} (hz : vs[b]? = some [z₁, z₂])
    (hgap : 2 * (SemiMarkov.steps p lengths b * δ) < z₁ - z₂) :
    ∃ μ ν, Dist.argmax _root_.SemiMarkov.algo p lengths pick = .ok μ ∧ Dist.argmax _root_.SemiMarkov.algo { p with get := g } lengths pick' = .ok ν ∧
      ∀ n k, ∀ c < p.d3, ∀ c' < p.d3, μ [b, n, k, c, c'] = ν [b, n, k, c, c'] := by
  obtain ⟨ws, w1, -, w2⟩ := SemiMarkov.kmax_spec p lengths h hB hsmall two_pos hc
  obtain ⟨hb', e⟩ := row_of (Except.ok.inj (w1.symm.trans hk)) hz
  obtain ⟨ts, t1, t2⟩ := w2 b hb'
  obtain ⟨t, ht⟩ := margin_of_kbest t1 (e.trans t2) hgap
  obtain ⟨μ, ν, h1, h2, h3⟩ := semimarkov_argmax_stable p lengths h g hB hB' hsmall hp hp' b hb δ hδ hg t ht
  exact ⟨μ, ν, h1, h2, fun n k c hc c' hc' => (h3 n k ⟨c, hc⟩ ⟨c', hc'⟩).1.trans (h3 n k ⟨c, hc⟩ ⟨c', hc'⟩).2.symm⟩

/-- **C143, `LinearChainCRF`.** If the two results of `kmax(2)` for row `b` differ by more than `2 m δ` (`m` edges), then `argmax` of the row is the same for all potentials `g` within `δ`. -/
theorem chain_gap_stable (p : T4 ℝ) (lengths : Option (List ℕ)) (h : LinearChain.Valid p lengths) (g : ℕ → ℕ → ℕ → ℕ → ℝ) (B : ℝ) (hB : LinearChain.SmallPotentials p lengths B)
    (hc : ∀ b < p.d0, 2 ≤ p.d2 ^ (LinearChain.numEdges p lengths b + 1))
    (hb1 : ∀ b < p.d0, ∀ n < LinearChain.numEdges p lengths b, ∀ i j : Fin p.d2, -100000 < p.get b n i j)
    (hb2 : ∀ b < p.d0, ∀ n < LinearChain.numEdges p lengths b, ∀ i j : Fin p.d2, -100000 < g b n i j)
    {pick pick' : List (Autograd.Grad (List ℕ)) → Autograd.Grad (List ℕ)} (hp : Autograd.IsArgmax Prod.fst pick) (hp' : Autograd.IsArgmax Prod.fst pick')
    (b : ℕ) (hb : b < p.d0) (δ : ℝ) (hδ : 0 ≤ δ) (hg : ∀ n < LinearChain.numEdges p lengths b, ∀ i j : Fin p.d2, |g b n i j - p.get b n i j| ≤ δ)
    {vs : List (List ℝ)} (hk : Dist.kmax _root_.LinearChain.algo p lengths 2 = .ok vs) {z₁ z₂ : ℝ} (hz : vs[b]? = some [z₁, z₂])
    (hgap : 2 * (LinearChain.numEdges p lengths b * δ) < z₁ - z₂) :
    ∃ μ ν, Dist.argmax _root_.LinearChain.algo p lengths pick = .ok μ ∧ Dist.argmax _root_.LinearChain.algo { p with get := g } lengths pick' = .ok ν ∧
      ∀ n < p.d1, ∀ i < p.d2, ∀ j < p.d2, μ [b, n, i, j] = ν [b, n, i, j] := by
  obtain ⟨ws, w1, -, w2⟩ := LinearChain.kmax_spec p lengths h B hB 2 two_pos hc
  obtain ⟨hb', e⟩ := row_of (Except.ok.inj (w1.symm.trans hk)) hz
  obtain ⟨ts, t1, t2⟩ := w2 b hb'
  obtain ⟨t, ht⟩ := margin_of_kbest t1 (e.trans t2) hgap
  obtain ⟨μ, ν, h1, h2, h3⟩ := chain_argmax_stable p lengths h g hb1 hb2 hp hp' b hb δ hδ hg t ht
  exact ⟨μ, ν, h1, h2, fun n hn i hi j hj => (h3 n hn ⟨i, hi⟩ ⟨j, hj⟩).1.trans (h3 n hn ⟨i, hi⟩ ⟨j, hj⟩).2.symm⟩

/-- **C143, `SentCFG`.** If the two results of `kmax(2)` for row `b` differ by more than `4 n δ`, then `argmax` of the row is the same for all scores within `δ`. -/
theorem cfg_gap_stable (p : CKY.Scores ℝ) (lengths : Option (List ℕ)) (h : SentCFG.Valid p lengths) (hl : SentCFG.Long p lengths)
    (term : ℕ → ℕ → ℕ → ℝ) (rule : ℕ → ℕ → ℕ → ℕ → ℝ) (root : ℕ → ℕ → ℝ) {B : ℝ} (hB : SentCFG.Bounded p lengths B)
    (hB' : SentCFG.Bounded { p with term := term, rule := rule, root := root } lengths B) (hsmall : 4 * p.N * B < 100000)
    (hc : ∀ b < p.batch, 2 ≤ Fintype.card (SentCFG.Der p lengths b))
    {pick pick' : List (Autograd.Grad (List ℕ)) → Autograd.Grad (List ℕ)} (hp : Autograd.IsArgmax Prod.fst pick) (hp' : Autograd.IsArgmax Prod.fst pick')
    (b : ℕ) (hb : b < p.batch) (δ : ℝ) (hδ : 0 ≤ δ) (ht1 : ∀ n < SentCFG.len p lengths b, ∀ t < p.T, |term b n t - p.term b n t| ≤ δ)
    (ht2 : ∀ X < p.NT, ∀ y < p.NT + p.T, ∀ z < p.NT + p.T, |rule b X y z - p.rule b X y z| ≤ δ) (ht3 : ∀ X < p.NT, |root b X - p.root b X| ≤ δ)
    {vs : List (List ℝ)} (hk : Dist.kmax CKY.algo p lengths 2 = .ok vs) {z₁ z₂ : ℝ} (hz : vs[b]? = some [z₁, z₂]) (hgap : 2 * (2 * SentCFG.len p lengths b * δ) < z₁ - z₂) :
    ∃ μ ν, CKY.argmax p lengths pick = .ok μ ∧ CKY.argmax { p with term := term, rule := rule, root := root } lengths pick' = .ok ν ∧
      (∀ n t, μ.term b n t = ν.term b n t) ∧ (∀ X y z, μ.rule b X y z = ν.rule b X y z) ∧ (∀ X, μ.root b X = ν.root b X) ∧ ∀ w i X, μ.spans b w i X = ν.spans b w i X := by
  obtain ⟨ws, w1, -, w2⟩ := SentCFG.kmax_spec p lengths h hB hsmall two_pos hc
  obtain ⟨hb', e⟩ := row_of (Except.ok.inj (w1.symm.trans hk)) hz
  obtain ⟨ts, e1, e2⟩ := w2 b hb'
  obtain ⟨t, ht⟩ := margin_of_kbest e1 (e.trans e2) hgap
  obtain ⟨μ, ν, h1, h2, h3, h4⟩ := cfg_argmax_stable p lengths h hl term rule root hB hB' hsmall hp hp' b hb δ hδ ht1 ht2 ht3 t ht
  exact ⟨μ, ν, h1, h2, fun n t => (h3.term n t).trans (h4.term n t).symm, fun X y z => (h3.rule X y z).trans (h4.rule X y z).symm, fun X => (h3.root X).trans (h4.root X).symm,
    fun w i X => (h3.spans w i X).trans (h4.spans w i X).symm⟩

/-! ### The hypotheses are met -/

/-- `kmax(2)` of the example shows a gap of more than 4. -/
theorem sample_gap : ∃ vs z₁ z₂, Dist.kmax _root_.LinearChain.algo chainSample none 2 = .ok vs ∧ vs[0]? = some [z₁, z₂] ∧
    2 * ((LinearChain.numEdges chainSample none 0 : ℝ) * 1) < z₁ - z₂ := by
  obtain ⟨vs, h1, h2, h3⟩ := LinearChain.kmax_spec chainSample none ⟨rfl, by decide, by decide, trivial⟩ 5
    ⟨by norm_num, fun b _ n _ i j => by simp only [LinearChain.row, chainSample]; split_ifs <;> norm_num,
      fun b _ => by change 2 * ((2 : ℕ) : ℝ) * 5 < 100000; norm_num⟩ 2 two_pos (fun b _ => by change 2 ≤ 2 ^ 3; norm_num)
  have hb : 0 < vs.length := h2 ▸ (by decide : 0 < 1)
  obtain ⟨ys, y1, y2⟩ := h3 0 hb
  obtain ⟨z₁, z₂, e, hz⟩ := gap_of_margin (by positivity) y1 chain_gap
  exact ⟨vs, z₁, z₂, h1, by rw [List.getElem?_eq_getElem hb, y2, e], hz⟩

example {pick pick' : List (Autograd.Grad (List ℕ)) → Autograd.Grad (List ℕ)} (hp : Autograd.IsArgmax Prod.fst pick) (hp' : Autograd.IsArgmax Prod.fst pick') :
    ∃ μ ν, Dist.argmax _root_.LinearChain.algo chainSample none pick = .ok μ ∧
      Dist.argmax _root_.LinearChain.algo { chainSample with get := fun b n i j => chainSample.get b n i j + (-1) ^ n } none pick' = .ok ν ∧
      ∀ n < 2, ∀ i < 2, ∀ j < 2, μ [0, n, i, j] = ν [0, n, i, j] := by
  obtain ⟨vs, z₁, z₂, h1, h2, h3⟩ := sample_gap
  have sgn : ∀ n : ℕ, (-1 : ℝ) ^ n = 1 ∨ (-1 : ℝ) ^ n = -1 := neg_one_pow_eq_or ℝ
  exact chain_gap_stable chainSample none ⟨rfl, by decide, by decide, trivial⟩ (fun b n i j => chainSample.get b n i j + (-1) ^ n) 5
    ⟨by norm_num, fun b _ n _ i j => by simp only [LinearChain.row, chainSample]; split_ifs <;> norm_num,
      fun b _ => by change 2 * ((2 : ℕ) : ℝ) * 5 < 100000; norm_num⟩ (fun b _ => by change 2 ≤ 2 ^ 3; norm_num)
    (fun b _ n _ i j => by simp only [chainSample]; split_ifs <;> norm_num)
    (fun b _ n _ i j => by rcases sgn n with e | e <;> simp only [chainSample, e] <;> split_ifs <;> norm_num) hp hp' 0 (by decide) 1 zero_le_one
    (fun n _ i j => by rcases sgn n with e | e <;> rw [e, add_sub_cancel_left] <;> norm_num) h1 h2 h3

end Props.Margin
