import Verif.Props.LinearChainBest
import Verif.Props.TreeCRF
import Verif.Props.Dependency
import Verif.Props.LabelledDependency
import Verif.Props.SemiMarkov
import Verif.Props.SentCFG

/-! Property theorems C143: a margin makes `argmax` stable.

If one structure of a row beats all others by more than `2 K δ`, where `K` bounds the number of potentials of a structure, then `argmax` returns it, and still does for all potentials that differ by
at most `δ`.  The two calls may break ties in different ways. -/

open Finset Spec Generic

noncomputable section
namespace Props.Margin

/-- The arithmetic: scores `s` with a margin at `t`, and other scores `s'` with a maximum at `u`. -/
theorem same {α : Type} {s s' : α → ℝ} {R : ℝ} (hs : ∀ y, |s' y - s y| ≤ R) {t u : α} (ht : ∀ y, y ≠ t → s y + 2 * R < s t) (hu : ∀ y, s' y ≤ s' u) : u = t := by
  by_contra hne
  have h1 := abs_le.1 (hs u)
  have h2 := abs_le.1 (hs t)
  have h3 := ht u hne
  have h4 := hu t
  linarith [h1.1, h1.2, h2.1, h2.2]

/-- The same scores on both sides. -/
theorem same_self {α : Type} {s : α → ℝ} {R : ℝ} (hR : 0 ≤ R) {t u : α} (ht : ∀ y, y ≠ t → s y + 2 * R < s t) (hu : ∀ y, s y ≤ s u) : u = t :=
  same (R := R) (fun y => by simpa using hR) ht hu

theorem list_close {α : Type} (f g : α → ℝ) {δ : ℝ} : ∀ l : List α, (∀ x ∈ l, |g x - f x| ≤ δ) → |(l.map g).sum - (l.map f).sum| ≤ l.length * δ
  | [], _ => by simp
  | x :: l, h => by
    have h1 := list_close f g l fun y hy => h y (List.mem_cons_of_mem _ hy)
    have h2 := h x List.mem_cons_self
    simp only [List.map_cons, List.sum_cons, List.length_cons]
    push_cast
    rw [abs_le] at h1 h2 ⊢
    constructor <;> linarith [h1.1, h1.2, h2.1, h2.2]

theorem fin_close {n : ℕ} (f g : Fin n → ℝ) {δ : ℝ} (h : ∀ k, |g k - f k| ≤ δ) : |∑ k, g k - ∑ k, f k| ≤ n * δ := by
  rw [← sum_sub_distrib]
  refine (abs_sum_le_sum_abs _ _).trans ((sum_le_sum fun k _ => h k).trans (le_of_eq ?_))
  simp

/-- **C143, `TreeCRF`.** The tree `t` of row `b` beats all others by more than `2 (2 n - 1) δ`: `argmax` is `t` for the given potentials and for all potentials `g` within `δ`. -/
theorem tree_argmax_stable (p : T4 ℝ) (lengths : Option (List ℕ)) (h : TreeCRF.Valid p lengths)
    {pick pick' : List (Autograd.Grad (List ℕ)) → Autograd.Grad (List ℕ)} (hp : Autograd.IsArgmax Prod.fst pick) (hp' : Autograd.IsArgmax Prod.fst pick')
    (b : ℕ) (hb : b < p.d0) (g : ℕ → ℕ → ℕ → ℕ → ℝ) (δ : ℝ) (hδ : 0 ≤ δ)
    (hg : ∀ i j a, i ≤ j → j < TreeCRF.len p lengths b → a < p.d3 → |g b i j a - p.get b i j a| ≤ δ) (t : Trees p.d3 (TreeCRF.len p lengths b))
    (ht : ∀ t', t' ≠ t → treeScore (TreeCRF.row p b) t' + 2 * ((2 * TreeCRF.len p lengths b - 1 : ℕ) * δ) < treeScore (TreeCRF.row p b) t) :
    ∃ μ ν, Dist.argmax CKYCRF.algo p lengths pick = .ok μ ∧ Dist.argmax CKYCRF.algo { p with get := g } lengths pick' = .ok ν ∧
      ∀ i j (a : Fin p.d3), μ [b, i, j, (a : ℕ)] = (if (i, j, a) ∈ t.1.spans 0 then 1 else 0) ∧ ν [b, i, j, (a : ℕ)] = if (i, j, a) ∈ t.1.spans 0 then 1 else 0 := by
  obtain ⟨μ, h1, h2⟩ := TreeCRF.argmax_spec p lengths h hp
  obtain ⟨ν, k1, k2⟩ := TreeCRF.argmax_spec { p with get := g } lengths ⟨h.square, h.words, h.labels, h.lens⟩ hp'
  refine ⟨μ, ν, h1, k1, fun i j a => ?_⟩
  obtain ⟨u, u1, u2⟩ := h2 b hb
  obtain ⟨v, v1, v2⟩ := k2 b hb
  have close : ∀ y : Trees p.d3 (TreeCRF.len p lengths b), |treeScore (TreeCRF.row { p with get := g } b) y - treeScore (TreeCRF.row p b) y| ≤
      (2 * TreeCRF.len p lengths b - 1 : ℕ) * δ := by
    intro y
    have := list_close (fun s : ℕ × ℕ × Fin p.d3 => TreeCRF.row p b s.1 s.2.1 s.2.2) (fun s => TreeCRF.row { p with get := g } b s.1 s.2.1 s.2.2) (δ := δ) (y.1.spans 0)
      (fun s hs => by
        have h3 := CKYCRFProofs.spans_mem y.1 0 s hs
        rw [y.2, zero_add] at h3
        exact hg _ _ _ h3.2.1 h3.2.2 s.2.2.2)
    rwa [CKYCRFProofs.spans_length, y.2] at this
  obtain rfl : u = t := same_self (mul_nonneg (Nat.cast_nonneg _) hδ) ht u1
  have e : v = u := same close ht v1
  exact ⟨u2 i j a, e ▸ v2 i j a⟩

open Classical in
/-- **C143, `DependencyCRF`.** The tree `t` of row `b` beats all others by more than `2 n δ`: `argmax` is `t` for the given potentials and for all potentials `g` within `δ`. -/
theorem dependency_argmax_stable (mr : Bool) (q : DepTree.Arcs ℝ) (lengths : Option (List ℕ)) (h : Dependency.Valid mr q lengths)
    {pick pick' : List (Autograd.Grad (List ℕ)) → Autograd.Grad (List ℕ)} (hp : Autograd.IsArgmax Prod.fst pick) (hp' : Autograd.IsArgmax Prod.fst pick')
    (b : ℕ) (hb : b < q.d0) (g : ℕ → ℕ → ℕ → ℕ → ℝ) (δ : ℝ) (hδ : 0 ≤ δ)
    (hg : ∀ i < Dependency.len q lengths b, ∀ j < Dependency.len q lengths b, |g b i j 0 - q.get b i j 0| ≤ δ) (t : ProjTrees mr (Dependency.len q lengths b))
    (ht : ∀ t', t' ≠ t → depScore (Dependency.row q b) t'.1 + 2 * (Dependency.len q lengths b * δ) < depScore (Dependency.row q b) t.1) :
    ∃ μ ν, DepTree.argmax mr q lengths pick = .ok μ ∧ DepTree.argmax mr { q with get := g } lengths pick' = .ok ν ∧
      ∀ i j, μ [b, i, j] = (if HasArc t.1 i j then 1 else 0) ∧ ν [b, i, j] = if HasArc t.1 i j then 1 else 0 := by
  obtain ⟨μ, h1, h2⟩ := Dependency.argmax_spec mr q lengths h hp
  obtain ⟨ν, k1, k2⟩ := Dependency.argmax_spec mr { q with get := g } lengths ⟨h.rank, h.square, h.batch, h.words, h.lens⟩ hp'
  refine ⟨μ, ν, h1, k1, fun i j => ?_⟩
  obtain ⟨u, u1, u2⟩ := h2 b hb
  obtain ⟨v, v1, v2⟩ := k2 b hb
  have close : ∀ y : ProjTrees mr (Dependency.len q lengths b), |depScore (Dependency.row { q with get := g } b) y.1 - depScore (Dependency.row q b) y.1| ≤
      Dependency.len q lengths b * δ := fun y => fin_close _ _ fun k => by
    have e := DepTreeProofs.arcCell_lt (Nat.le_of_lt_succ (y.1 k).2) k.2
    exact hg _ e.1 _ e.2
  obtain rfl : u = t := same_self (s := fun t' : ProjTrees mr (Dependency.len q lengths b) => depScore (Dependency.row q b) t'.1) (mul_nonneg (Nat.cast_nonneg _) hδ) ht u1
  have e : v = u := same (s := fun t' : ProjTrees mr (Dependency.len q lengths b) => depScore (Dependency.row q b) t'.1) close ht v1
  exact ⟨u2 i j, e ▸ v2 i j⟩

open Classical in
/-- **C143, `DependencyCRF` with labels.** -/
theorem labelled_argmax_stable (mr : Bool) (q : DepTree.Arcs ℝ) (lengths : Option (List ℕ)) (h : LabelledDependency.Valid mr q lengths)
    {pick pick' : List (Autograd.Grad (List ℕ)) → Autograd.Grad (List ℕ)} (hp : Autograd.IsArgmax Prod.fst pick) (hp' : Autograd.IsArgmax Prod.fst pick')
    (b : ℕ) (hb : b < q.d0) (g : ℕ → ℕ → ℕ → ℕ → ℝ) (δ : ℝ) (hδ : 0 ≤ δ)
    (hg : ∀ i < LabelledDependency.len q lengths b, ∀ j < LabelledDependency.len q lengths b, ∀ l < q.d3, |g b i j l - q.get b i j l| ≤ δ)
    (t : LabelledTrees mr (LabelledDependency.len q lengths b) q.d3)
    (ht : ∀ t', t' ≠ t → labScore (LabelledDependency.row q b) t' + 2 * (LabelledDependency.len q lengths b * δ) < labScore (LabelledDependency.row q b) t) :
    ∃ μ ν, DepTree.argmax mr q lengths pick = .ok μ ∧ DepTree.argmax mr { q with get := g } lengths pick' = .ok ν ∧
      ∀ i j l, μ [b, i, j, l] = (if HasLabArc t i j l then 1 else 0) ∧ ν [b, i, j, l] = if HasLabArc t i j l then 1 else 0 := by
  obtain ⟨μ, h1, h2⟩ := LabelledDependency.argmax_spec mr q lengths h hp
  obtain ⟨ν, k1, k2⟩ := LabelledDependency.argmax_spec mr { q with get := g } lengths ⟨h.rank, h.labels, h.square, h.batch, h.words, h.lens⟩ hp'
  refine ⟨μ, ν, h1, k1, fun i j l => ?_⟩
  obtain ⟨u, u1, u2⟩ := h2 b hb
  obtain ⟨v, v1, v2⟩ := k2 b hb
  have close : ∀ y : LabelledTrees mr (LabelledDependency.len q lengths b) q.d3,
      |labScore (LabelledDependency.row { q with get := g } b) y - labScore (LabelledDependency.row q b) y| ≤ LabelledDependency.len q lengths b * δ :=
    fun y => fin_close _ _ fun k => by
      have e := DepTreeProofs.arcCell_lt (Nat.le_of_lt_succ (y.1.1 k).2) k.2
      exact hg _ e.1 _ e.2 _ (y.2 k).2
  obtain rfl : u = t := same_self (mul_nonneg (Nat.cast_nonneg _) hδ) ht u1
  have e : v = u := same close ht v1
  exact ⟨u2 i j l, e ▸ v2 i j l⟩

/-- **C143, `SemiMarkovCRF`.** A segmentation has at most as many segments as the row has steps.  The potentials must be small against the stand-in `-1e5`, as in C47. -/
theorem semimarkov_argmax_stable (p : T5 ℝ) (lengths : Option (List ℕ)) (h : SemiMarkov.Valid p lengths) (g : ℕ → ℕ → ℕ → ℕ → ℕ → ℝ) {B : ℝ}
    (hB : SemiMarkov.Bounded p lengths B) (hB' : SemiMarkov.Bounded { p with get := g } lengths B) (hsmall : 2 * p.d1 * B < 100000)
    {pick pick' : List (Autograd.Grad (List ℕ)) → Autograd.Grad (List ℕ)} (hp : Autograd.IsArgmax Prod.fst pick) (hp' : Autograd.IsArgmax Prod.fst pick')
    (b : ℕ) (hb : b < p.d0) (δ : ℝ) (hδ : 0 ≤ δ)
    (hg : ∀ n k c c', n + k ≤ SemiMarkov.steps p lengths b → 1 ≤ k → k < p.d2 → c < p.d3 → c' < p.d3 → |g b n k c c' - p.get b n k c c'| ≤ δ) (t : SemiMarkov.Seg p lengths b)
    (ht : ∀ t', t' ≠ t → segScore (SemiMarkov.row p b) t' + 2 * (SemiMarkov.steps p lengths b * δ) < segScore (SemiMarkov.row p b) t) :
    ∃ μ ν, Dist.argmax _root_.SemiMarkov.algo p lengths pick = .ok μ ∧ Dist.argmax _root_.SemiMarkov.algo { p with get := g } lengths pick' = .ok ν ∧
      ∀ n k (c c' : Fin p.d3), μ [b, n, k, (c : ℕ), (c' : ℕ)] = (if (n, k, c, c') ∈ segEdges 0 t.1 t.2.1 then 1 else 0) ∧
        ν [b, n, k, (c : ℕ), (c' : ℕ)] = if (n, k, c, c') ∈ segEdges 0 t.1 t.2.1 then 1 else 0 := by
  obtain ⟨μ, h1, h2⟩ := SemiMarkov.argmax_spec p lengths h hB hsmall hp
  obtain ⟨ν, k1, k2⟩ := SemiMarkov.argmax_spec { p with get := g } lengths ⟨h.rows, h.square, h.classes, h.positions, h.segs, h.lens⟩ hB' hsmall hp'
  refine ⟨μ, ν, h1, k1, fun n k c c' => ?_⟩
  obtain ⟨u, u1, u2⟩ := h2 b hb
  obtain ⟨v, v1, v2⟩ := k2 b hb
  have close : ∀ y : SemiMarkov.Seg p lengths b, |segScore (SemiMarkov.row { p with get := g } b) y - segScore (SemiMarkov.row p b) y| ≤ SemiMarkov.steps p lengths b * δ := by
    intro y
    have h3 := list_close (fun s : ℕ × ℕ × Fin p.d3 × Fin p.d3 => SemiMarkov.row p b s.1 s.2.1 s.2.2.1 s.2.2.2)
      (fun s => SemiMarkov.row { p with get := g } b s.1 s.2.1 s.2.2.1 s.2.2.2) (δ := δ) (segEdges 0 y.1 y.2.1)
      (fun s hs => by
        have h4 := SemiMarkovProofs.segEdges_mem y.2.1 0 y.1 y.2.2.1 s hs
        rw [y.2.2.2] at h4
        exact hg _ _ _ _ h4.2.2.2 h4.2.1 h4.2.2.1 s.2.2.1.2 s.2.2.2.2)
    refine h3.trans (mul_le_mul_of_nonneg_right (Nat.cast_le.2 ?_) hδ)
    have h5 := SemiMarkovProofs.segParts_card b y
    rwa [SemiMarkovProofs.segParts, Multiset.coe_card, List.length_map] at h5
  obtain rfl : u = t := same_self (mul_nonneg (Nat.cast_nonneg _) hδ) ht u1
  have e : v = u := same close ht v1
  exact ⟨u2 n k c c', e ▸ v2 n k c c'⟩

open Classical in
/-- **C143, `LinearChainCRF`.** A sequence of a row with `m` edges uses `m` potentials.  The potentials must exceed the stand-in `-1e5`, as in C04. -/
theorem chain_argmax_stable (p : T4 ℝ) (lengths : Option (List ℕ)) (h : LinearChain.Valid p lengths) (g : ℕ → ℕ → ℕ → ℕ → ℝ)
    (hb1 : ∀ b < p.d0, ∀ n < LinearChain.numEdges p lengths b, ∀ i j : Fin p.d2, -100000 < p.get b n i j)
    (hb2 : ∀ b < p.d0, ∀ n < LinearChain.numEdges p lengths b, ∀ i j : Fin p.d2, -100000 < g b n i j)
    {pick pick' : List (Autograd.Grad (List ℕ)) → Autograd.Grad (List ℕ)} (hp : Autograd.IsArgmax Prod.fst pick) (hp' : Autograd.IsArgmax Prod.fst pick')
    (b : ℕ) (hb : b < p.d0) (δ : ℝ) (hδ : 0 ≤ δ)
    (hg : ∀ n < LinearChain.numEdges p lengths b, ∀ i j : Fin p.d2, |g b n i j - p.get b n i j| ≤ δ) (t : Tags (LinearChain.numEdges p lengths b) p.d2)
    (ht : ∀ t', t' ≠ t → seqScore (LinearChain.row p b) t' + 2 * (LinearChain.numEdges p lengths b * δ) < seqScore (LinearChain.row p b) t) :
    ∃ μ ν, Dist.argmax _root_.LinearChain.algo p lengths pick = .ok μ ∧ Dist.argmax _root_.LinearChain.algo { p with get := g } lengths pick' = .ok ν ∧
      ∀ n < p.d1, ∀ i j : Fin p.d2, μ [b, n, (i : ℕ), (j : ℕ)] = (if UsesEdge t n i j then 1 else 0) ∧ ν [b, n, (i : ℕ), (j : ℕ)] = if UsesEdge t n i j then 1 else 0 := by
  have best : ∀ q : T4 ℝ, LinearChain.Valid q lengths → (∀ b < q.d0, ∀ n < LinearChain.numEdges q lengths b, ∀ i j : Fin q.d2, -100000 < LinearChain.row q b n i j) →
      ∀ pick, Autograd.IsArgmax Prod.fst pick → ∃ μ, Dist.argmax _root_.LinearChain.algo q lengths pick = .ok μ ∧ ∀ b < q.d0, ∃ y : Tags (LinearChain.numEdges q lengths b) q.d2,
        (∀ y' : Tags (LinearChain.numEdges q lengths b) q.d2, seqScore (LinearChain.row q b) y' ≤ seqScore (LinearChain.row q b) y) ∧
        ∀ n < q.d1, ∀ i j : Fin q.d2, μ [b, n, (i : ℕ), (j : ℕ)] = if UsesEdge y n i j then 1 else 0 := by
    intro q hq hlow pick hp
    obtain ⟨μ, vs, e1, e2, e3, e4⟩ := LinearChain.argmax_spec q lengths hq hlow pick hp
    obtain ⟨ws, f1, f2, f3⟩ := LinearChain.max_spec q lengths hq fun b hb n hn i j => (hlow b hb n hn i j).le
    obtain rfl : vs = ws := Except.ok.inj (e2.symm.trans f1)
    refine ⟨μ, e1, fun b hb => ?_⟩
    obtain ⟨y, y1, y2⟩ := e4 b (e3 ▸ hb)
    refine ⟨y, fun y' => y1 ▸ (f3 b (e3 ▸ hb)).2 y', fun n hn i j => ?_⟩
    rw [y2 n hn i j]
  obtain ⟨μ, h1, h2⟩ := best p h hb1 pick hp
  obtain ⟨ν, k1, k2⟩ := best { p with get := g } ⟨h.square, h.edges, h.classes, h.lens⟩ hb2 pick' hp'
  refine ⟨μ, ν, h1, k1, fun n hn i j => ?_⟩
  obtain ⟨u, u1, u2⟩ := h2 b hb
  obtain ⟨v, v1, v2⟩ := k2 b hb
  have close : ∀ y : Tags (LinearChain.numEdges p lengths b) p.d2, |seqScore (LinearChain.row { p with get := g } b) y - seqScore (LinearChain.row p b) y| ≤
      LinearChain.numEdges p lengths b * δ := fun y => fin_close _ _ fun k => hg _ k.2 _ _
  obtain rfl : u = t := same_self (mul_nonneg (Nat.cast_nonneg _) hδ) ht u1
  have e : v = u := same close ht v1
  exact ⟨u2 n hn i j, e ▸ v2 n hn i j⟩

theorem word_mem {NT T : ℕ} : ∀ (d : Deriv NT T) (i : ℕ), ∀ x ∈ d.words i, x.1 < i + d.size ∧ x.2 < T
  | .leaf t, i, x, hx => by
    simp only [Deriv.words, List.mem_singleton] at hx
    subst hx
    exact ⟨by simp [GTree.size], t.2⟩
  | .node _ l r, i, x, hx => by
    simp only [Deriv.words, List.mem_append] at hx
    simp only [GTree.size]
    rcases hx with hx | hx
    · have := word_mem l i x hx
      omega
    · have := word_mem r (i + l.size) x hx
      omega

theorem sym_lt {NT T : ℕ} : ∀ d : Deriv NT T, d.sym < NT + T
  | .leaf t => by have := t.2; simp only [Deriv.sym]; omega
  | .node X _ _ => by have := X.2; simp only [Deriv.sym]; omega

theorem rule_mem {NT T : ℕ} : ∀ d : Deriv NT T, ∀ x ∈ d.rules, x.1 < NT ∧ x.2.1 < NT + T ∧ x.2.2 < NT + T
  | .leaf _, x, hx => by simp [Deriv.rules] at hx
  | .node X l r, x, hx => by
    simp only [Deriv.rules, List.mem_cons, List.mem_append] at hx
    rcases hx with rfl | hx | hx
    · exact ⟨X.2, sym_lt l, sym_lt r⟩
    · exact rule_mem l x hx
    · exact rule_mem r x hx

/-- **C143, `SentCFG`.** A derivation of `n` words uses `2 n` scores.  The scores must be small against the stand-in `-1e5`, as in C52. -/
theorem cfg_argmax_stable (p : CKY.Scores ℝ) (lengths : Option (List ℕ)) (h : SentCFG.Valid p lengths) (hl : SentCFG.Long p lengths)
    (term : ℕ → ℕ → ℕ → ℝ) (rule : ℕ → ℕ → ℕ → ℕ → ℝ) (root : ℕ → ℕ → ℝ) {B : ℝ} (hB : SentCFG.Bounded p lengths B)
    (hB' : SentCFG.Bounded { p with term := term, rule := rule, root := root } lengths B) (hsmall : 4 * p.N * B < 100000)
    {pick pick' : List (Autograd.Grad (List ℕ)) → Autograd.Grad (List ℕ)} (hp : Autograd.IsArgmax Prod.fst pick) (hp' : Autograd.IsArgmax Prod.fst pick')
    (b : ℕ) (hb : b < p.batch) (δ : ℝ) (hδ : 0 ≤ δ) (ht1 : ∀ n < SentCFG.len p lengths b, ∀ t < p.T, |term b n t - p.term b n t| ≤ δ)
    (ht2 : ∀ X < p.NT, ∀ y < p.NT + p.T, ∀ z < p.NT + p.T, |rule b X y z - p.rule b X y z| ≤ δ) (ht3 : ∀ X < p.NT, |root b X - p.root b X| ≤ δ)
    (t : SentCFG.Der p lengths b) (ht : ∀ t' : SentCFG.Der p lengths b, t' ≠ t → SentCFG.dscore p b t' + 2 * (2 * SentCFG.len p lengths b * δ) < SentCFG.dscore p b t) :
    ∃ μ ν, CKY.argmax p lengths pick = .ok μ ∧ CKY.argmax { p with term := term, rule := rule, root := root } lengths pick' = .ok ν ∧
      SentCFG.IsParts μ b t ∧ SentCFG.IsParts ν b t := by
  obtain ⟨μ, h1, h2⟩ := SentCFG.argmax_spec p lengths h hl hB hsmall hp
  obtain ⟨ν, k1, k2⟩ := SentCFG.argmax_spec { p with term := term, rule := rule, root := root } lengths
    ⟨h.symbols, h.nonterminals, h.preterminals, h.rows, h.words, h.lens, h.plain⟩ hl hB' hsmall hp'
  obtain ⟨u, u1, u2⟩ := h2 b hb
  obtain ⟨v, v1, v2⟩ := k2 b hb
  have close : ∀ y : SentCFG.Der p lengths b, |SentCFG.dscore { p with term := term, rule := rule, root := root } b (y : Derivs p.NT p.T _) - SentCFG.dscore p b y| ≤
      2 * SentCFG.len p lengths b * δ := by
    rintro ⟨y, hy1, hy2⟩
    have e1 := list_close (fun x : ℕ × ℕ × ℕ => p.rule b x.1 x.2.1 x.2.2) (fun x => rule b x.1 x.2.1 x.2.2) (δ := δ) y.rules fun x hx =>
      ht2 _ (rule_mem y x hx).1 _ (rule_mem y x hx).2.1 _ (rule_mem y x hx).2.2
    have e2 := list_close (fun x : ℕ × ℕ => p.term b x.1 x.2) (fun x => term b x.1 x.2) (δ := δ) (y.words 0) fun x hx =>
      ht1 _ (by have := (word_mem y 0 x hx).1; rwa [zero_add, hy1] at this) _ (word_mem y 0 x hx).2
    have e3 : |root b y.sym - p.root b y.sym| ≤ δ := by
      cases y with
      | leaf _ => simp [Deriv.isNode] at hy2
      | node X _ _ => exact ht3 _ X.2
    have hpos := y.size_pos
    rw [SentCFG.rules_length, hy1] at e1
    rw [SentCFG.words_length, hy1] at e2
    rw [hy1] at hpos
    rw [Nat.cast_sub hpos] at e1
    push_cast at e1
    change |(root b y.sym + ((y.rules.map fun x => rule b x.1 x.2.1 x.2.2).sum + ((y.words 0).map fun x => term b x.1 x.2).sum)) -
      (p.root b y.sym + ((y.rules.map fun x => p.rule b x.1 x.2.1 x.2.2).sum + ((y.words 0).map fun x => p.term b x.1 x.2).sum))| ≤ _
    rw [abs_le] at e1 e2 e3 ⊢
    constructor <;> linarith [e1.1, e1.2, e2.1, e2.2, e3.1, e3.2]
  obtain rfl : u = t := same_self (s := fun d : SentCFG.Der p lengths b => SentCFG.dscore p b d) (mul_nonneg (by positivity) hδ) ht u1
  have e : v = u := same (s := fun d : SentCFG.Der p lengths b => SentCFG.dscore p b d) close ht v1
  exact ⟨μ, ν, h1, k1, u2, e ▸ v2⟩

/-! ### The hypotheses are met -/

/-- Two edges, two tags; the edge from tag 0 to tag 0 scores 5. -/
def chainSample : T4 ℝ := ⟨1, 2, 2, 2, fun _ _ i j => if i = 0 ∧ j = 0 then 5 else 0⟩

theorem chain_gap (t : Tags (LinearChain.numEdges chainSample none 0) 2) (hne : t ≠ fun _ => (0 : Fin 2)) :
    seqScore (LinearChain.row chainSample 0) t + 2 * (LinearChain.numEdges chainSample none 0 * 1) <
      seqScore (m := LinearChain.numEdges chainSample none 0) (LinearChain.row chainSample 0) fun _ => (0 : Fin 2) := by
  change Fin 3 → Fin 2 at t
  change (∑ n : Fin 2, if ((t n.succ : Fin 2) : ℕ) = 0 ∧ ((t n.castSucc : Fin 2) : ℕ) = 0 then (5 : ℝ) else 0) + 2 * ((2 : ℕ) * 1) <
    ∑ n : Fin 2, if ((0 : Fin 2) : ℕ) = 0 ∧ ((0 : Fin 2) : ℕ) = 0 then (5 : ℝ) else 0
  simp only [Fin.sum_univ_two]
  by_cases h0 : t 0 = 0
  · by_cases h1 : t 1 = 0
    · by_cases h2 : t 2 = 0
      · exact absurd (funext fun k => by fin_cases k <;> assumption) hne
      · have : ((t 2 : Fin 2) : ℕ) ≠ 0 := fun h => h2 (Fin.ext h)
        simp [h0, h1, this, show Fin.succ (1 : Fin 2) = 2 from rfl]; norm_num
    · simp [h1]; norm_num
  · by_cases h2 : t 2 = 0 <;> by_cases h1 : t 1 = 0 <;> simp [h0, h1, h2, show Fin.succ (1 : Fin 2) = 2 from rfl] <;> norm_num

example {pick : List (Autograd.Grad (List ℕ)) → Autograd.Grad (List ℕ)} (hp : Autograd.IsArgmax Prod.fst pick) :=
  chain_argmax_stable chainSample none ⟨rfl, by decide, by decide, trivial⟩ (fun b n i j => chainSample.get b n i j + 1)
    (fun b _ n _ i j => by simp only [chainSample]; split_ifs <;> norm_num) (fun b _ n _ i j => by simp only [chainSample]; split_ifs <;> norm_num) hp hp 0 (by decide) 1 zero_le_one
    (fun n _ i j => by simp) (fun _ => (0 : Fin 2))
    chain_gap

/-- Two words, two labels; label 0 scores 10. -/
def treeSample : T4 ℝ := ⟨1, 2, 2, 2, fun _ _ _ a => if a = 0 then 10 else 0⟩

theorem tree_gap (t : LTree 2) (hs : t.size = 2) (hne : t ≠ .node 0 (.leaf 0) (.leaf 0)) :
    ((t.spans 0).map fun s : ℕ × ℕ × Fin 2 => if (s.2.2 : ℕ) = 0 then (10 : ℝ) else 0).sum + 2 * ((3 : ℕ) * 1) < 30 := by
  cases t with
  | leaf a => simp [LTree.size] at hs
  | node a l r =>
    have h1 := l.size_pos
    have h2 := r.size_pos
    simp only [LTree.size] at hs
    cases l with
    | node _ x y => have := x.size_pos; have := y.size_pos; simp only [LTree.size] at hs; omega
    | leaf c =>
      cases r with
      | node _ x y => have := x.size_pos; have := y.size_pos; simp only [LTree.size] at hs; omega
      | leaf d =>
        simp only [LTree.spans, List.map_cons, List.map_append, List.map_nil, List.sum_cons, List.sum_append, List.sum_nil]
        by_cases ha : (a : ℕ) = 0 <;> by_cases hc : (c : ℕ) = 0 <;> by_cases hd : (d : ℕ) = 0
        · exact absurd (by rw [show a = 0 from Fin.ext ha, show c = 0 from Fin.ext hc, show d = 0 from Fin.ext hd]) hne
        all_goals simp only [ha, hc, hd, if_true, if_false]; norm_num

example {pick : List (Autograd.Grad (List ℕ)) → Autograd.Grad (List ℕ)} (hp : Autograd.IsArgmax Prod.fst pick) :=
  tree_argmax_stable treeSample none ⟨rfl, by decide, by decide, trivial⟩ hp hp 0 (by decide) (fun b i j a => treeSample.get b i j a - 1) 1 zero_le_one
    (fun i j a _ _ _ => by simp) ⟨.node (0 : Fin 2) (.leaf (0 : Fin 2)) (.leaf (0 : Fin 2)), rfl⟩
    (fun t hne => (tree_gap t.1 t.2 fun h => hne (Subtype.ext h)).trans_le (by
      change (30 : ℝ) ≤ (((LTree.node (0 : Fin 2) (.leaf 0) (.leaf 0)).spans 0).map fun s : ℕ × ℕ × Fin 2 => if (s.2.2 : ℕ) = 0 then (10 : ℝ) else 0).sum
      simp [LTree.spans]; norm_num))

/-- Two words; attaching a word to the root scores 5. -/
def depSample : DepTree.Arcs ℝ := ⟨3, 1, 2, 2, 0, fun _ i j _ => if i = j then 5 else 0⟩

example {pick : List (Autograd.Grad (List ℕ)) → Autograd.Grad (List ℕ)} (hp : Autograd.IsArgmax Prod.fst pick) :=
  dependency_argmax_stable true depSample none ⟨rfl, rfl, by decide, fun _ => by decide, fun l hl => by cases hl⟩ hp hp 0 (by decide) (fun b i j l => depSample.get b i j l + 1) 1 zero_le_one
    (fun i _ j _ => by simp) ⟨fun _ => 0, fun k => ⟨1, by simp [headOf]⟩, fun k y _ => ⟨1, by simp [headOf]⟩, by simp⟩
    (by
      rintro ⟨(t : Fin 2 → Fin 3), hs⟩ hne
      change (∑ k : Fin 2, if (arcCell (t k) k).1 = (arcCell (t k) k).2 then (5 : ℝ) else 0) + 2 * ((2 : ℕ) * 1) <
        ∑ k : Fin 2, if (arcCell ((0 : Fin 3) : ℕ) k).1 = (arcCell ((0 : Fin 3) : ℕ) k).2 then (5 : ℝ) else 0
      have self : ∀ k : Fin 2, (if (arcCell (t k) k).1 = (arcCell (t k) k).2 then (5 : ℝ) else 0) = if (t k : ℕ) = 0 ∨ (t k : ℕ) = k + 1 then 5 else 0 := by
        intro k
        refine if_congr ?_ rfl rfl
        by_cases h0 : (t k : ℕ) = 0
        · rw [arcCell, if_pos h0]
          exact iff_of_true rfl (Or.inl h0)
        · rw [arcCell, if_neg h0]
          change (t k : ℕ) - 1 = (k : ℕ) ↔ _
          omega
      have loop : ∀ k : Fin 2, (t k : ℕ) ≠ k + 1 := by
        intro k hk
        obtain ⟨m, hm⟩ := hs.1 k
        have fix : headOf t (k + 1) = k + 1 := by
          rw [headOf, dif_pos ⟨by omega, by have := k.2; omega⟩]
          exact hk
        have h1 : ∀ m : ℕ, (headOf t)^[m] (k + 1) = k + 1 := fun m => Function.iterate_fixed fix m
        have := (h1 m).symm.trans hm
        omega
      simp only [self, loop, or_false]
      simp only [Fin.sum_univ_two]
      by_cases h0 : (t 0 : ℕ) = 0
      · by_cases h1 : (t 1 : ℕ) = 0
        · exact absurd (Subtype.ext (funext fun k => Fin.ext (by fin_cases k <;> assumption))) hne
        · simp [h0, h1, arcCell]; norm_num
      · by_cases h1 : (t 1 : ℕ) = 0 <;> simp [h0, h1, arcCell] <;> norm_num)

/-- One word, two labels; label 0 scores 5. -/
def labSample : DepTree.Arcs ℝ := ⟨4, 1, 1, 1, 2, fun _ _ _ l => if l = 0 then 5 else 0⟩

example {pick : List (Autograd.Grad (List ℕ)) → Autograd.Grad (List ℕ)} (hp : Autograd.IsArgmax Prod.fst pick) :=
  labelled_argmax_stable true labSample none ⟨rfl, by decide, rfl, by decide, fun _ => by decide, fun l hl => by cases hl⟩ hp hp 0 (by decide) (fun b i j l => labSample.get b i j l + 1) 1
    zero_le_one (fun i _ j _ l _ => by simp) (⟨fun _ => 0, fun k => ⟨1, by simp [headOf]⟩, fun k y _ => ⟨1, by simp [headOf]⟩, by simp⟩, fun _ => (0 : Fin 2))
    (by
      rintro ⟨⟨(t : Fin 1 → Fin 2), hs⟩, (a : Fin 1 → Fin 2)⟩ hne
      change (∑ k : Fin 1, if ((a k : Fin 2) : ℕ) = 0 then (5 : ℝ) else 0) + 2 * ((1 : ℕ) * 1) < ∑ k : Fin 1, if ((0 : Fin 2) : ℕ) = 0 then (5 : ℝ) else 0
      have root : t 0 = 0 := by
        by_contra h0
        have h1 : (t 0 : ℕ) = 1 := by
          have := (t 0).2
          have : (t 0 : ℕ) ≠ 0 := fun h => h0 (Fin.ext h)
          omega
        obtain ⟨m, hm⟩ := hs.1 (0 : Fin 1)
        have fix : headOf t 1 = 1 := h1
        have h2 : (headOf t)^[m] 1 = 1 := Function.iterate_fixed fix m
        have h3 : (headOf t)^[m] 1 = 0 := hm
        omega
      by_cases h0 : ((a 0 : Fin 2) : ℕ) = 0
      · refine absurd (Prod.ext (Subtype.ext (funext fun k => ?_)) (funext fun k => ?_)) hne
        · obtain rfl : k = (0 : Fin 1) := Subsingleton.elim (α := Fin 1) _ _
          exact root
        · obtain rfl : k = (0 : Fin 1) := Subsingleton.elim (α := Fin 1) _ _
          exact Fin.ext h0
      · have : a 0 ≠ 0 := fun h => h0 (congrArg Fin.val h)
        simp [this]; norm_num)

/-- One step, two classes; staying in class 0 scores 5. -/
def semiSample : T5 ℝ := ⟨1, 1, 2, 2, 2, fun _ _ _ c c' => if c = 0 ∧ c' = 0 then 5 else 0⟩

example {pick : List (Autograd.Grad (List ℕ)) → Autograd.Grad (List ℕ)} (hp : Autograd.IsArgmax Prod.fst pick) :=
  semimarkov_argmax_stable semiSample none ⟨by decide, rfl, by decide, by decide, by decide, trivial⟩ (fun b n k c c' => semiSample.get b n k c c' + 1) (B := 10)
    ⟨by norm_num, fun b _ n k c c' _ _ _ _ _ => by simp only [semiSample]; split_ifs <;> norm_num⟩
    ⟨by norm_num, fun b _ n k c c' _ _ _ _ _ => by simp only [semiSample]; split_ifs <;> norm_num⟩ (by simp only [semiSample]; norm_num) hp hp 0 (by decide) 1 zero_le_one
    (fun n k c c' _ _ _ _ _ => by simp) ((0 : Fin 2), ⟨[(1, (0 : Fin 2))], fun s hs => by rw [List.mem_singleton.1 hs]; decide, rfl⟩)
    (by
      rintro ⟨(c : Fin 2), ⟨(l : List (ℕ × Fin 2)), (hl : ∀ s ∈ l, 1 ≤ s.1 ∧ s.1 < 2), (hsum : 0 + (l.map Prod.fst).sum = 1)⟩⟩ hne
      obtain ⟨d, rfl⟩ : ∃ d : Fin 2, l = [(1, d)] := by
        match l, hl, hsum with
        | [], _, hsum => simp at hsum
        | (k, d) :: [], _, hsum => exact ⟨d, by simp at hsum; rw [hsum]⟩
        | x :: y :: l, hl, hsum =>
          have h1 := hl x (by simp)
          have h2 := hl y (by simp)
          simp only [List.map_cons, List.sum_cons] at hsum
          omega
      change ([(0, 1, d, c)].map fun s : ℕ × ℕ × Fin 2 × Fin 2 => if (s.2.2.1 : ℕ) = 0 ∧ (s.2.2.2 : ℕ) = 0 then (5 : ℝ) else 0).sum + 2 * ((1 : ℕ) * 1) <
        ([(0, 1, 0, 0)].map fun s : ℕ × ℕ × Fin 2 × Fin 2 => if (s.2.2.1 : ℕ) = 0 ∧ (s.2.2.2 : ℕ) = 0 then (5 : ℝ) else 0).sum
      by_cases hd : (d : ℕ) = 0 ∧ (c : ℕ) = 0
      · obtain rfl : d = 0 := Fin.ext hd.1
        obtain rfl : c = 0 := Fin.ext hd.2
        exact absurd rfl hne
      · rw [List.map_singleton, List.map_singleton, List.sum_singleton, List.sum_singleton, if_neg hd]
        norm_num)

/-- Two words, one nonterminal, two preterminals; preterminal 0 scores 5. -/
def cfgSample : CKY.Scores ℝ := ⟨1, 2, 2, 1, 3, fun _ _ t => if t = 0 then 5 else 0, fun _ _ _ _ => 0, fun _ _ => 0, none⟩

theorem cfg_gap (t : Deriv 1 2) (hs : t.size = 2) (hne : t ≠ .node 0 (.leaf 0) (.leaf 0)) :
    (0 : ℝ) + ((t.rules.map fun _ => (0 : ℝ)).sum + ((t.words 0).map fun x : ℕ × ℕ => if x.2 = 0 then (5 : ℝ) else 0).sum) + 2 * (2 * (2 : ℕ) * (1 / 2)) < 10 := by
  cases t with
  | leaf a => simp [GTree.size] at hs
  | node a l r =>
    have h1 := l.size_pos
    have h2 := r.size_pos
    simp only [GTree.size] at hs
    cases l with
    | node _ x y => have := x.size_pos; have := y.size_pos; simp only [GTree.size] at hs; omega
    | leaf c =>
      cases r with
      | node _ x y => have := x.size_pos; have := y.size_pos; simp only [GTree.size] at hs; omega
      | leaf d =>
        simp only [Deriv.words, Deriv.rules, List.map_cons, List.map_append, List.map_nil, List.sum_cons, List.sum_append, List.sum_nil]
        by_cases hc : (c : ℕ) = 0 <;> by_cases hd : (d : ℕ) = 0
        · exact absurd (by rw [show a = 0 from Subsingleton.elim _ _, show c = 0 from Fin.ext hc, show d = 0 from Fin.ext hd]) hne
        all_goals simp only [hc, hd, if_true, if_false]; norm_num

theorem cfg_bounded (x : ℝ) (hx : |x| ≤ 1) : SentCFG.Bounded { cfgSample with term := fun b n t => cfgSample.term b n t + x } none 10 := by
  have := abs_le.1 hx
  refine ⟨by norm_num, fun b _ n _ t _ => ?_, fun b _ X _ y _ z _ => by simp [cfgSample], fun b _ X _ => by simp [cfgSample]⟩
  simp only [cfgSample]
  split_ifs <;> rw [abs_le] <;> constructor <;> linarith [this.1, this.2]

example {pick : List (Autograd.Grad (List ℕ)) → Autograd.Grad (List ℕ)} (hp : Autograd.IsArgmax Prod.fst pick) :=
  cfg_argmax_stable cfgSample none ⟨rfl, by decide, by decide, by decide, by decide, trivial, rfl⟩ (fun b hb => le_refl 2) (fun b n t => cfgSample.term b n t + 1 / 2) cfgSample.rule
    cfgSample.root (B := 10) (by simpa using cfg_bounded 0 (by norm_num)) (cfg_bounded (1 / 2) (by rw [abs_le]; constructor <;> norm_num))
    (by simp only [cfgSample]; norm_num) hp hp 0 (by decide) (1 / 2) (by norm_num) (fun n _ t _ => by rw [add_sub_cancel_left, abs_of_pos] <;> norm_num) (fun X _ y _ z _ => by simp)
    (fun X _ => by simp) ⟨.node (0 : Fin 1) (.leaf (0 : Fin 2)) (.leaf (0 : Fin 2)), rfl, rfl⟩
    (fun t hne => (cfg_gap t.1 t.2.1 fun h => hne (Subtype.ext h)).trans_le (by
      change (10 : ℝ) ≤ 0 + ((([(0, 1, 1)] : List (ℕ × ℕ × ℕ)).map fun _ => (0 : ℝ)).sum + (([(0, 0), (1, 0)] : List (ℕ × ℕ)).map fun x : ℕ × ℕ => if x.2 = 0 then (5 : ℝ) else 0).sum)
      simp; norm_num))

end Props.Margin
