import Verif.Proofs.Ascent
import Verif.Props.Likelihood
import Verif.Props.Stability

/-! Property theorems C112: gradient steps.  `partition` lies below a parabola that touches it, so a step along the gradient of the mean log-probability of observed
events raises it by at least `η (1 - K² η / 2)` times the squared length of the gradient, where `K` is the number of potentials that one structure uses. -/

open Finset Spec Generic
open Rounding hiding fst_rel err_rel mag_rel

noncomputable section
namespace Props.Ascent
open Props.Rounding Props.RoundedArgmax Props.Likelihood

/-- The mean of a quantity over the observed values. -/
def mean {V : Type} (values : List V) (f : V → ℝ) : ℝ := (values.map f).sum / values.length

/-- The entries of a table inside the given sizes. -/
def cut3 (a b c : ℕ) (v : ℕ → ℕ → ℕ → ℝ) (e : ℕ × ℕ × ℕ) : ℝ := if e.1 < a ∧ e.2.1 < b ∧ e.2.2 < c then v e.1 e.2.1 e.2.2 else 0

def cut4 (a b c d : ℕ) (v : ℕ → ℕ → ℕ → ℕ → ℝ) (e : ℕ × ℕ × ℕ × ℕ) : ℝ :=
  if e.1 < a ∧ e.2.1 < b ∧ e.2.2.1 < c ∧ e.2.2.2 < d then v e.1 e.2.1 e.2.2.1 e.2.2.2 else 0

theorem cut3_of {a b c : ℕ} (v : ℕ → ℕ → ℕ → ℝ) {e : ℕ × ℕ × ℕ} (h : e.1 < a ∧ e.2.1 < b ∧ e.2.2 < c) : cut3 a b c v e = v e.1 e.2.1 e.2.2 := if_pos h

theorem cut4_of {a b c d : ℕ} (v : ℕ → ℕ → ℕ → ℕ → ℝ) {e : ℕ × ℕ × ℕ × ℕ} (h : e.1 < a ∧ e.2.1 < b ∧ e.2.2.1 < c ∧ e.2.2.2 < d) :
    cut4 a b c d v e = v e.1 e.2.1 e.2.2.1 e.2.2.2 := if_pos h

theorem score3 (a b c : ℕ) (x v : ℕ → ℕ → ℕ → ℝ) :
    Struct.score (((List.range a).flatMap fun i => (List.range b).flatMap fun j => (List.range c).map fun k => (i, j, k)).map fun e => x e.1 e.2.1 e.2.2)
      (((List.range a).flatMap fun i => (List.range b).flatMap fun j => (List.range c).map fun k => (i, j, k)).map fun e => v e.1 e.2.1 e.2.2) =
      ∑ e ∈ range a ×ˢ range b ×ˢ range c, x e.1 e.2.1 e.2.2 * cut3 a b c v e := by
  rw [LogProbGradient.score3, ← sum3 a b c fun i j k => x i j k * v i j k]
  exact sum_congr rfl fun e he => by rw [cut3_of v (mem3.1 he)]

theorem score4 (a b c d : ℕ) (x v : ℕ → ℕ → ℕ → ℕ → ℝ) :
    Struct.score (((List.range a).flatMap fun i => (List.range b).flatMap fun j => (List.range c).flatMap fun k => (List.range d).map fun l => (i, j, k, l)).map
        fun e => x e.1 e.2.1 e.2.2.1 e.2.2.2)
      (((List.range a).flatMap fun i => (List.range b).flatMap fun j => (List.range c).flatMap fun k => (List.range d).map fun l => (i, j, k, l)).map
        fun e => v e.1 e.2.1 e.2.2.1 e.2.2.2) =
      ∑ e ∈ range a ×ˢ range b ×ˢ range c ×ˢ range d, x e.1 e.2.1 e.2.2.1 e.2.2.2 * cut4 a b c d v e := by
  rw [LogProbGradient.score4, ← sum4 a b c d fun i j k l => x i j k l * v i j k l]
  exact sum_congr rfl fun e he => by rw [cut4_of v (mem4.1 he)]

/-- From the parabola of the partition to the gain of a step. -/
theorem step {V κ : Type} (lp lp' : V → Except PyErr ℝ) (part part' : Except PyErr (List ℝ)) (x x' : κ → ℝ) (val : V → κ → ℝ) (b : ℕ) (X Y : Finset κ) (hXY : X ⊆ Y)
    (hL : ∀ v, lp v = do
      let z ← part
      .ok (∑ e ∈ Y, x e * val v e - z.getD b 0))
    (hL' : ∀ v, lp' v = do
      let z ← part'
      .ok (∑ e ∈ Y, x' e * val v e - z.getD b 0))
    (μ : κ → ℝ) (K η : ℝ) (hη : 0 ≤ η) (values : List V) (hne : values ≠ []) (hv : ∀ v ∈ values, ∀ e, e ∉ X → val v e = 0)
    (hx : ∀ e ∈ X, x' e = x e + η * (mean values (val · e) - μ e))
    (hz : ∀ c, 0 ≤ c → (∀ e ∈ X, |x' e - x e| ≤ c) → ∃ z z', rowValue part b = some z ∧ rowValue part' b = some z' ∧
      z' ≤ z + ∑ e ∈ X, μ e * (x' e - x e) + (K * c) ^ 2 / 2) :
    ∃ L L' : V → ℝ, (∀ v, lp v = .ok (L v)) ∧ (∀ v, lp' v = .ok (L' v)) ∧
      mean values L + η * (1 - K ^ 2 * η / 2) * ∑ e ∈ X, (mean values (val · e) - μ e) ^ 2 ≤ mean values L' := by
  obtain ⟨z, z', h1, h2, -⟩ := hz (∑ e ∈ X, |x' e - x e|) (sum_nonneg fun _ _ => abs_nonneg _)
    fun e he => single_le_sum (f := fun e => |x' e - x e|) (fun _ _ => abs_nonneg _) he
  obtain ⟨vs, e1, e2⟩ := of_rowValue h1
  obtain ⟨vs', e1', e2'⟩ := of_rowValue h2
  have cut : ∀ (x : κ → ℝ), ∀ v ∈ values, ∑ e ∈ Y, x e * val v e = ∑ e ∈ X, x e * val v e := fun x v hv' =>
    (sum_subset hXY fun e _ he => by rw [hv v hv' e he, mul_zero]).symm
  refine ⟨fun v => ∑ e ∈ Y, x e * val v e - z, fun v => ∑ e ∈ Y, x' e * val v e - z', fun v => ?_, fun v => ?_, ?_⟩
  · rw [hL, e1]
    change Except.ok (_ - vs.getD b 0) = _
    rw [e2]
  · rw [hL', e1']
    change Except.ok (_ - vs'.getD b 0) = _
    rw [e2']
  · refine ascent X K η hη x x' val μ values _ _ z z' (fun v hv' => by rw [cut x v hv']) (fun v hv' => by rw [cut x' v hv']) hne hx fun c hc hxc => ?_
    obtain ⟨w, w', h3, h4, h5⟩ := hz c hc hxc
    obtain rfl := Option.some.inj (h1.symm.trans h3)
    obtain rfl := Option.some.inj (h2.symm.trans h4)
    exact h5

/-! ### `TreeCRF` -/

/-- **C112, `TreeCRF`.** If no potential of the row moves by more than `c`, `partition` lies at most `((2 N - 1) c)² / 2` above the tangent. -/
theorem tree_parabola (p : T4 ℝ) (lengths : Option (List ℕ)) (h : TreeCRF.Valid p lengths) : ∃ μ, Dist.marginals CKYCRF.algo p lengths = .ok μ ∧
    ∀ b < p.d0, ∀ (g : ℕ → ℕ → ℕ → ℕ → ℝ) (c : ℝ), 0 ≤ c → (∀ i < p.d1, ∀ j < p.d2, ∀ a < p.d3, |g b i j a - p.get b i j a| ≤ c) →
      ∃ z z', rowValue (Dist.partition CKYCRF.algo p lengths) b = some z ∧ rowValue (Dist.partition CKYCRF.algo { p with get := g } lengths) b = some z' ∧
        z' ≤ z + ∑ i ∈ range p.d1, ∑ j ∈ range p.d2, ∑ a ∈ range p.d3, μ [b, i, j, a] * (g b i j a - p.get b i j a) + ((2 * p.d1 - 1) * c) ^ 2 / 2 := by
  obtain ⟨μ, hμ, -⟩ := (CKYCRFProofs.batchDP p lengths h).marginals_eq
  refine ⟨μ, hμ, fun b hb g c hc hd => ?_⟩
  have D' := CKYCRFProofs.batchDP { p with get := g } lengths ⟨h.square, h.words, h.labels, h.lens⟩
  have inside : ∀ e, CKYCRFProofs.Entry p.d1 p.d3 lengths b e → ∃ i j a, e = [b, i, j, a] ∧ i < p.d1 ∧ j < p.d2 ∧ a < p.d3 := by
    rintro e ⟨i, j, a, rfl, hij, hj, ha⟩
    have := (CKYCRFProofs.len_in h.words h.lens b hb).2
    have hs := h.square
    exact ⟨i, j, a, rfl, by omega, by omega, ha⟩
  obtain ⟨z, z', h1, h2, h3⟩ := (CKYCRFProofs.batchDP p lengths h).parabola D' hμ b hb (range p.d1 ×ˢ range p.d2 ×ˢ range p.d3) (fun x => [b, x.1, x.2.1, x.2.2])
    (fun x _ y _ hxy => by simpa [Prod.ext_iff] using hxy)
    (fun e he => by
      obtain ⟨i, j, a, rfl, m1, m2, m3⟩ := inside e he
      exact ⟨(i, j, a), mem3.2 ⟨m1, m2, m3⟩, rfl⟩)
    (fun _ _ => rfl) (fun _ _ y => y.elim) (d := fun _ => c)
    (fun e he => by
      obtain ⟨i, j, a, rfl, m1, m2, m3⟩ := inside e he
      exact hd i m1 j m2 a m3)
    (K := (2 * p.d1 - 1) * c)
    (by
      have := cost_tree (z := 0) (ε := 0) (w := fun _ => 0) (W := 0) (D := c) (Q := p.d1 + p.d3)
        (p := CKYCRF.algo.map (fun x : ℝ × List ℕ => c) (CKYCRF.algo.index p)) h.labels le_rfl hc le_rfl le_rfl (fun _ _ _ _ => le_rfl) (fun _ _ => le_rfl)
        (Nat.le_add_right _ _) (Nat.le_add_left _ _) lengths
      refine AllE.mono (fun x hx => hx.trans (le_of_eq ?_)) this
      show (2 * (p.d1 : ℝ) - 1) * (c + 0) + p.d1 * (2 * 0 + 0) = _
      ring)
  refine ⟨z, z', h1, h2, ?_⟩
  rw [← sum3 p.d1 p.d2 p.d3 fun i j a => μ [b, i, j, a] * (g b i j a - p.get b i j a)]
  exact h3

/-- **C112, `TreeCRF`.** One step along the gradient (C65) of the mean log-probability of the observed events. -/
theorem tree_step (p : T4 ℝ) (lengths : Option (List ℕ)) (h : TreeCRF.Valid p lengths) : ∃ μ, Dist.marginals CKYCRF.algo p lengths = .ok μ ∧
    ∀ b < p.d0, ∀ values : List (ℕ → ℕ → ℕ → ℝ), values ≠ [] → ∀ η : ℝ, 0 ≤ η → ∀ g : ℕ → ℕ → ℕ → ℕ → ℝ,
      (∀ i < p.d1, ∀ j < p.d2, ∀ a < p.d3, g b i j a = p.get b i j a + η * (mean values (fun v => v i j a) - μ [b, i, j, a])) →
      ∃ L L' : (ℕ → ℕ → ℕ → ℝ) → ℝ, (∀ v, CKYCRF.logProb p lengths b v = .ok (L v)) ∧ (∀ v, CKYCRF.logProb { p with get := g } lengths b v = .ok (L' v)) ∧
        mean values L + η * (1 - (2 * p.d1 - 1) ^ 2 * η / 2) *
          ∑ i ∈ range p.d1, ∑ j ∈ range p.d2, ∑ a ∈ range p.d3, (mean values (fun v => v i j a) - μ [b, i, j, a]) ^ 2 ≤ mean values L' := by
  obtain ⟨μ, hμ, par⟩ := tree_parabola p lengths h
  refine ⟨μ, hμ, fun b hb values hne η hη g hg => ?_⟩
  obtain ⟨L, L', h1, h2, h3⟩ := step (fun v => CKYCRF.logProb p lengths b v) (fun v => CKYCRF.logProb { p with get := g } lengths b v)
    (Dist.partition CKYCRF.algo p lengths) (Dist.partition CKYCRF.algo { p with get := g } lengths) (fun e : ℕ × ℕ × ℕ => p.get b e.1 e.2.1 e.2.2) (fun e => g b e.1 e.2.1 e.2.2)
    (cut3 p.d1 p.d2 p.d3) b (range p.d1 ×ˢ range p.d2 ×ˢ range p.d3) (range p.d1 ×ˢ range p.d2 ×ˢ range p.d3) subset_rfl
    (fun v => by rw [CKYCRF.logProb]; simp only [score3 p.d1 p.d2 p.d3 (p.get b) v])
    (fun v => by rw [CKYCRF.logProb]; simp only [score3 p.d1 p.d2 p.d3 (g b) v])
    (fun e => μ [b, e.1, e.2.1, e.2.2]) (2 * p.d1 - 1) η hη values hne (fun v _ e he => if_neg fun hc => he (mem3.2 hc))
    (fun e he => by
      obtain ⟨m1, m2, m3⟩ := mem3.1 he
      simp only [cut3_of _ (mem3.1 he)]
      exact hg _ m1 _ m2 _ m3)
    (fun c hc hx => by
      obtain ⟨z, z', e1, e2, e3⟩ := par b hb g c hc fun i hi j hj a ha => hx (i, j, a) (mem3.2 ⟨hi, hj, ha⟩)
      refine ⟨z, z', e1, e2, ?_⟩
      rw [sum3 p.d1 p.d2 p.d3 fun i j a => μ [b, i, j, a] * (g b i j a - p.get b i j a)]
      exact e3)
  refine ⟨L, L', h1, h2, ?_⟩
  refine le_trans (le_of_eq ?_) h3
  rw [← sum3 p.d1 p.d2 p.d3 fun i j a => (mean values (fun v => v i j a) - μ [b, i, j, a]) ^ 2]
  congr 2
  exact sum_congr rfl fun e he => by simp only [cut3_of _ (mem3.1 he)]

/-! ### `LinearChainCRF` -/

open GradientChain in
/-- **C112, `LinearChainCRF`.** If no potential of an edge of the row moves by more than `c`, `partition` lies at most `(L c)² / 2` above the tangent, where `L` is the
number of edges of the row. -/
theorem chain_parabola (p : T4 ℝ) (lengths : Option (List ℕ)) (h : LinearChain.Valid p lengths) : ∃ μ, Dist.marginals _root_.LinearChain.algo p lengths = .ok μ ∧
    ∀ b < p.d0, ∀ (g : ℕ → ℕ → ℕ → ℕ → ℝ) (c : ℝ), 0 ≤ c →
      (∀ n < LinearChain.numEdges p lengths b, ∀ i < p.d2, ∀ j < p.d3, |g b n i j - p.get b n i j| ≤ c) →
      ∃ z z', rowValue (Dist.partition _root_.LinearChain.algo p lengths) b = some z ∧
        rowValue (Dist.partition _root_.LinearChain.algo { p with get := g } lengths) b = some z' ∧
        z' ≤ z + ∑ n ∈ range (LinearChain.numEdges p lengths b), ∑ i ∈ range p.d2, ∑ j ∈ range p.d3, μ [b, n, i, j] * (g b n i j - p.get b n i j) +
          (LinearChain.numEdges p lengths b * c) ^ 2 / 2 := by
  have : Nonempty (Fin p.d2) := ⟨⟨0, h.classes⟩⟩
  obtain ⟨μ, hμ, hs⟩ := chain_slope p lengths h
  refine ⟨μ, hμ, fun b hb g c hc hd => ⟨_, _, partition_stand p lengths h b hb, partition_stand { p with get := g } lengths ⟨h.square, h.edges, h.classes, h.lens⟩ b hb, ?_⟩⟩
  have e := Gibbs.le_quadratic (standScore (LinearChain.numEdges p lengths b) (LinearChain.row p b))
    (standScore (LinearChain.numEdges p lengths b) (LinearChain.row ({ p with get := g } : T4 ℝ) b)) (M := LinearChain.numEdges p lengths b * c) fun x => by
      unfold standScore
      rw [← sum_sub_distrib]
      refine (abs_sum_le_sum_abs _ _).trans ((sum_le_sum fun n _ => ?_).trans (le_of_eq (by rw [sum_const, card_univ, Fintype.card_fin, nsmul_eq_mul])))
      cases x.2 n
      · simpa using hc
      · exact hd n n.2 _ (Fin.is_lt _) _ (h.square ▸ Fin.is_lt _)
  rw [hs b hb g, add_assoc, add_assoc]
  refine add_le_add_right ?_ _
  rw [← add_assoc]
  exact e

/-- **C112, `LinearChainCRF`.** One step along the gradient (C65) of the mean log-probability of the observed events (tables without entries past the end of the row). -/
theorem chain_step (p : T4 ℝ) (lengths : Option (List ℕ)) (h : LinearChain.Valid p lengths) : ∃ μ, Dist.marginals _root_.LinearChain.algo p lengths = .ok μ ∧
    ∀ b < p.d0, ∀ values : List (ℕ → ℕ → ℕ → ℝ), values ≠ [] → (∀ v ∈ values, ∀ n i j, LinearChain.numEdges p lengths b ≤ n → v n i j = 0) →
      ∀ η : ℝ, 0 ≤ η → ∀ g : ℕ → ℕ → ℕ → ℕ → ℝ,
      (∀ n < LinearChain.numEdges p lengths b, ∀ i < p.d2, ∀ j < p.d3, g b n i j = p.get b n i j + η * (mean values (fun v => v n i j) - μ [b, n, i, j])) →
      ∃ L L' : (ℕ → ℕ → ℕ → ℝ) → ℝ, (∀ v, _root_.LinearChain.logProb p lengths b v = .ok (L v)) ∧
        (∀ v, _root_.LinearChain.logProb { p with get := g } lengths b v = .ok (L' v)) ∧
        mean values L + η * (1 - (LinearChain.numEdges p lengths b) ^ 2 * η / 2) *
          ∑ n ∈ range (LinearChain.numEdges p lengths b), ∑ i ∈ range p.d2, ∑ j ∈ range p.d3, (mean values (fun v => v n i j) - μ [b, n, i, j]) ^ 2 ≤ mean values L' := by
  obtain ⟨μ, hμ, par⟩ := chain_parabola p lengths h
  refine ⟨μ, hμ, fun b hb values hne hv η hη g hg => ?_⟩
  have hN : LinearChain.numEdges p lengths b ≤ p.d1 := by
    have := LinearChainProofs.lenOf_le h.lens b
    unfold LinearChain.numEdges
    omega
  have hmem : ∀ {e : ℕ × ℕ × ℕ}, e ∈ range (LinearChain.numEdges p lengths b) ×ˢ range p.d2 ×ˢ range p.d3 → e.1 < p.d1 ∧ e.2.1 < p.d2 ∧ e.2.2 < p.d3 := by
    intro e he
    obtain ⟨m1, m2⟩ := mem3.1 he
    exact ⟨by omega, m2⟩
  obtain ⟨L, L', h1, h2, h3⟩ := step (fun v => _root_.LinearChain.logProb p lengths b v) (fun v => _root_.LinearChain.logProb { p with get := g } lengths b v)
    (Dist.partition _root_.LinearChain.algo p lengths) (Dist.partition _root_.LinearChain.algo { p with get := g } lengths)
    (fun e : ℕ × ℕ × ℕ => p.get b e.1 e.2.1 e.2.2) (fun e => g b e.1 e.2.1 e.2.2)
    (cut3 p.d1 p.d2 p.d3) b (range (LinearChain.numEdges p lengths b) ×ˢ range p.d2 ×ˢ range p.d3) (range p.d1 ×ˢ range p.d2 ×ˢ range p.d3)
    (fun e he => mem3.2 (hmem he))
    (fun v => by rw [_root_.LinearChain.logProb]; simp only [score3 p.d1 p.d2 p.d3 (p.get b) v])
    (fun v => by rw [_root_.LinearChain.logProb]; simp only [score3 p.d1 p.d2 p.d3 (g b) v])
    (fun e => μ [b, e.1, e.2.1, e.2.2]) (LinearChain.numEdges p lengths b) η hη values hne
    (fun v hv' e he => by
      unfold cut3
      split_ifs with hc
      · exact hv v hv' _ _ _ (not_lt.1 fun h => he (mem3.2 ⟨h, hc.2⟩))
      · rfl)
    (fun e he => by
      obtain ⟨m1, m2, m3⟩ := mem3.1 he
      simp only [cut3_of _ (hmem he)]
      exact hg _ m1 _ m2 _ m3)
    (fun c hc hx => by
      obtain ⟨z, z', e1, e2, e3⟩ := par b hb g c hc fun i hi j hj a ha => hx (i, j, a) (mem3.2 ⟨hi, hj, ha⟩)
      refine ⟨z, z', e1, e2, ?_⟩
      rw [sum3 _ p.d2 p.d3 fun i j a => μ [b, i, j, a] * (g b i j a - p.get b i j a)]
      exact e3)
  refine ⟨L, L', h1, h2, ?_⟩
  refine le_trans (le_of_eq ?_) h3
  rw [← sum3 _ p.d2 p.d3 fun i j a => (mean values (fun v => v i j a) - μ [b, i, j, a]) ^ 2]
  congr 2
  exact sum_congr rfl fun e he => by simp only [cut3_of _ (hmem he)]

/-! ### `SemiMarkovCRF` -/

/-- **C112, `SemiMarkovCRF`.** A segmentation has at most as many segments as the table has positions. -/
theorem semimarkov_parabola (p : T5 ℝ) (lengths : Option (List ℕ)) (h : SemiMarkov.Valid p lengths) : ∃ μ, Dist.marginals _root_.SemiMarkov.algo p lengths = .ok μ ∧
    ∀ b < p.d0, ∀ (g : ℕ → ℕ → ℕ → ℕ → ℕ → ℝ) (r : ℝ), 0 ≤ r →
      (∀ n < SemiMarkov.steps p lengths b, ∀ k < p.d2, ∀ i < p.d3, ∀ j < p.d4, |g b n k i j - p.get b n k i j| ≤ r) →
      ∃ z z', rowValue (Dist.partition _root_.SemiMarkov.algo p lengths) b = some z ∧
        rowValue (Dist.partition _root_.SemiMarkov.algo { p with get := g } lengths) b = some z' ∧
        z' ≤ z + ∑ n ∈ range (SemiMarkov.steps p lengths b), ∑ k ∈ range p.d2, ∑ i ∈ range p.d3, ∑ j ∈ range p.d4,
          μ [b, n, k, i, j] * (g b n k i j - p.get b n k i j) + (p.d1 * r) ^ 2 / 2 := by
  have hK := SemiMarkov.hK h
  obtain ⟨μ, hμ, -⟩ := (SemiMarkovProofs.batchDP p lengths h hK).marginals_eq
  refine ⟨μ, hμ, fun b hb g r hr hd => ?_⟩
  have D' : BatchDP _root_.SemiMarkov.algo { p with get := g } lengths p.d0 (SemiMarkovProofs.at5 { p with get := g })
      (SemiMarkovProofs.Entry p lengths) (ι := fun b => Segmentation p.d2 p.d3 (SemiMarkovProofs.steps p lengths b)) (π := SemiMarkovProofs.Ph p lengths hK)
      (fun b => SemiMarkovProofs.segParts b) (fun _ y => 2 ^ Nat.clog 2 p.d1 - y.2.1.length) (fun _ => AtomChain.Phantom.atoms) :=
    SemiMarkovProofs.batchDP { p with get := g } lengths ⟨h.rows, h.square, h.classes, h.positions, h.segs, h.lens⟩ hK
  obtain ⟨z, z', h1, h2, h3⟩ := (SemiMarkovProofs.batchDP p lengths h hK).parabola D' hμ b hb
    (range (SemiMarkov.steps p lengths b) ×ˢ range p.d2 ×ˢ range p.d3 ×ˢ range p.d4) (fun x => [b, x.1, x.2.1, x.2.2.1, x.2.2.2])
    (fun x _ y _ hxy => by simpa [Prod.ext_iff] using hxy)
    (by
      rintro e ⟨n, k, c, c', rfl, hn, -, hk⟩
      exact ⟨(n, k, c, c'), mem4.2 ⟨hn, hk, c.2, h.square ▸ c'.2⟩, rfl⟩)
    (fun _ _ => rfl) (fun x hx y hy => by
      unfold AtomChain.Phantom.atoms AtomChain.Path.atoms at hy
      obtain ⟨m, -, h1⟩ := Multiset.mem_map.1 hy
      exact Gradient.not_masked _ _ _ _ _ _ _ _ _ _ _ _ (mem4.1 hx).1 (h1 ▸ y.1.atom_mem m))
    (d := fun _ => r)
    (by
      rintro e ⟨n, k, c, c', rfl, hn, -, hk⟩
      exact hd n hn k hk c c.2 c' (h.square ▸ c'.2))
    (K := p.d1 * r)
    (by
      have := cost_semi (z := 0) (ε := 0) (w := fun _ => 0) (W := 0) (D := r) (Q := (p.d2 - 1) * p.d3 + 2)
        (p := _root_.SemiMarkov.algo.map (fun x : ℝ × List ℕ => r) (_root_.SemiMarkov.algo.index p)) h.classes le_rfl hr le_rfl (fun _ _ _ _ _ => le_rfl) (fun _ _ => le_rfl)
        (Nat.le_add_left _ _) (Nat.le_add_right _ _) lengths
      refine AllE.mono (fun x hx => hx.trans (le_of_eq ?_)) this
      show (p.d1 : ℝ) * r + (2 ^ Nat.clog 2 p.d1 - p.d1) * 0 + 2 ^ Nat.clog 2 p.d1 * 0 + (2 ^ Nat.clog 2 p.d1 - 1) * (0 + 0) + 2 * 0 = _
      ring)
  refine ⟨z, z', h1, h2, ?_⟩
  rw [← sum4 _ p.d2 p.d3 p.d4 fun n k i j => μ [b, n, k, i, j] * (g b n k i j - p.get b n k i j)]
  exact h3

/-- **C112, `SemiMarkovCRF`.** -/
theorem semimarkov_step (p : T5 ℝ) (lengths : Option (List ℕ)) (h : SemiMarkov.Valid p lengths) : ∃ μ, Dist.marginals _root_.SemiMarkov.algo p lengths = .ok μ ∧
    ∀ b < p.d0, ∀ values : List (ℕ → ℕ → ℕ → ℕ → ℝ), values ≠ [] → (∀ v ∈ values, ∀ n k i j, SemiMarkov.steps p lengths b ≤ n → v n k i j = 0) →
      ∀ η : ℝ, 0 ≤ η → ∀ g : ℕ → ℕ → ℕ → ℕ → ℕ → ℝ,
      (∀ n < SemiMarkov.steps p lengths b, ∀ k < p.d2, ∀ i < p.d3, ∀ j < p.d4,
        g b n k i j = p.get b n k i j + η * (mean values (fun v => v n k i j) - μ [b, n, k, i, j])) →
      ∃ L L' : (ℕ → ℕ → ℕ → ℕ → ℝ) → ℝ, (∀ v, _root_.SemiMarkov.logProb p lengths b v = .ok (L v)) ∧
        (∀ v, _root_.SemiMarkov.logProb { p with get := g } lengths b v = .ok (L' v)) ∧
        mean values L + η * (1 - (p.d1 : ℝ) ^ 2 * η / 2) * ∑ n ∈ range (SemiMarkov.steps p lengths b), ∑ k ∈ range p.d2, ∑ i ∈ range p.d3, ∑ j ∈ range p.d4,
          (mean values (fun v => v n k i j) - μ [b, n, k, i, j]) ^ 2 ≤ mean values L' := by
  obtain ⟨μ, hμ, par⟩ := semimarkov_parabola p lengths h
  refine ⟨μ, hμ, fun b hb values hne hv η hη g hg => ?_⟩
  have hN : SemiMarkov.steps p lengths b ≤ p.d1 := by
    have := LinearChainProofs.lenOf_le h.lens b
    unfold SemiMarkov.steps
    omega
  have hmem : ∀ {e : ℕ × ℕ × ℕ × ℕ}, e ∈ range (SemiMarkov.steps p lengths b) ×ˢ range p.d2 ×ˢ range p.d3 ×ˢ range p.d4 →
      e.1 < p.d1 ∧ e.2.1 < p.d2 ∧ e.2.2.1 < p.d3 ∧ e.2.2.2 < p.d4 := by
    intro e he
    obtain ⟨m1, m2⟩ := mem4.1 he
    exact ⟨by omega, m2⟩
  obtain ⟨L, L', h1, h2, h3⟩ := step (fun v => _root_.SemiMarkov.logProb p lengths b v) (fun v => _root_.SemiMarkov.logProb { p with get := g } lengths b v)
    (Dist.partition _root_.SemiMarkov.algo p lengths) (Dist.partition _root_.SemiMarkov.algo { p with get := g } lengths)
    (fun e : ℕ × ℕ × ℕ × ℕ => p.get b e.1 e.2.1 e.2.2.1 e.2.2.2) (fun e => g b e.1 e.2.1 e.2.2.1 e.2.2.2)
    (cut4 p.d1 p.d2 p.d3 p.d4) b (range (SemiMarkov.steps p lengths b) ×ˢ range p.d2 ×ˢ range p.d3 ×ˢ range p.d4) (range p.d1 ×ˢ range p.d2 ×ˢ range p.d3 ×ˢ range p.d4)
    (fun e he => mem4.2 (hmem he))
    (fun v => by rw [_root_.SemiMarkov.logProb]; simp only [score4 p.d1 p.d2 p.d3 p.d4 (p.get b) v])
    (fun v => by rw [_root_.SemiMarkov.logProb]; simp only [score4 p.d1 p.d2 p.d3 p.d4 (g b) v])
    (fun e => μ [b, e.1, e.2.1, e.2.2.1, e.2.2.2]) p.d1 η hη values hne
    (fun v hv' e he => by
      unfold cut4
      split_ifs with hc
      · exact hv v hv' _ _ _ _ (not_lt.1 fun h => he (mem4.2 ⟨h, hc.2⟩))
      · rfl)
    (fun e he => by
      obtain ⟨m1, m2, m3, m4⟩ := mem4.1 he
      simp only [cut4_of _ (hmem he)]
      exact hg _ m1 _ m2 _ m3 _ m4)
    (fun c hc hx => by
      obtain ⟨z, z', e1, e2, e3⟩ := par b hb g c hc fun n hn k hk i hi j hj => hx (n, k, i, j) (mem4.2 ⟨hn, hk, hi, hj⟩)
      refine ⟨z, z', e1, e2, ?_⟩
      rw [sum4 _ p.d2 p.d3 p.d4 fun n k i j => μ [b, n, k, i, j] * (g b n k i j - p.get b n k i j)]
      exact e3)
  refine ⟨L, L', h1, h2, ?_⟩
  refine le_trans (le_of_eq ?_) h3
  rw [← sum4 _ p.d2 p.d3 p.d4 fun n k i j => (mean values (fun v => v n k i j) - μ [b, n, k, i, j]) ^ 2]
  congr 2
  exact sum_congr rfl fun e he => by simp only [cut4_of _ (hmem he)]

/-! ### `DependencyCRF` -/

theorem arc_parabola (mr : Bool) (q : DepTree.Arcs ℝ) (lengths : Option (List ℕ)) (h : DepTreeProofs.Valid mr q lengths) :
    ∃ μ, DepTree.marginals mr q lengths = .ok μ ∧ ∀ b < q.d0, ∀ (g : ℕ → ℕ → ℕ → ℕ → ℝ) (c : ℝ), 0 ≤ c →
      (∀ i < q.d1, ∀ j < q.d2, ∀ l < q.labels, |g b i j l - q.get b i j l| ≤ c) → ∃ z z', rowValue (DepTree.partition mr q lengths) b = some z ∧
      rowValue (DepTree.partition mr { q with get := g } lengths) b = some z' ∧
      z' ≤ z + ∑ i ∈ range q.d1, ∑ j ∈ range q.d2, ∑ l ∈ range q.labels, μ (DepTreeProofs.cellTag (decide q.labeled) b i j l) * (g b i j l - q.get b i j l) +
        (q.d1 * c) ^ 2 / 2 := by
  have hv : ∀ q' : DepTree.Arcs ℝ, q'.rank = q.rank → q'.d1 = q.d1 → q'.d2 = q.d2 → DepTree.convert DepTree.negBig q' = .ok (DepTreeProofs.conv DepTree.negBig q') :=
    fun q' h1 h2 h3 => DepTreeProofs.convert_ok _ (by rw [h1]; exact h.rank) (by rw [h2, h3]; exact h.square)
  obtain ⟨μ, hμ, -⟩ := (DepTreeProofs.batchDP mr DepTree.negBig q lengths h).marginals_eq
  refine ⟨μ, by rw [DepTree.marginals, hv q rfl rfl rfl]; exact hμ, fun b hb g c hc hd => ?_⟩
  have hl : ∀ l < q.labels, q.labeled ∨ l = 0 := by
    intro l hl
    rcases h.rank with h3 | h4
    · rw [DepTreeProofs.labels_one h3] at hl; right; omega
    · exact Or.inl h4
  have D' : BatchDP (DepTree.algo mr) (DepTreeProofs.conv DepTree.negBig { q with get := g }) lengths q.d0
      (DepTreeProofs.atQ DepTree.negBig { q with get := g }) (fun b => DepTreeProofs.Entry (decide q.labeled) q.labels (lenOf q.d1 lengths b) b)
      (ι := fun b => LabelledTrees mr (lenOf q.d1 lengths b) q.labels) (π := fun _ => Empty) (fun b => DepTreeProofs.labParts (decide q.labeled) b)
      (fun b _ => DepTreeProofs.onesOf mr (lenOf q.d1 lengths b)) (fun _ y => y.elim) :=
    DepTreeProofs.batchDP mr DepTree.negBig { q with get := g } lengths ⟨h.rank, h.square, h.labels, h.batch, h.words, h.lens⟩
  have inside : ∀ e, DepTreeProofs.Entry (decide q.labeled) q.labels (lenOf q.d1 lengths b) b e →
      ∃ i j l, e = DepTreeProofs.cellTag (decide q.labeled) b i j l ∧ i < q.d1 ∧ j < q.d2 ∧ l < q.labels := by
    rintro e ⟨h', k, l, rfl, hh, hk, -, hl'⟩
    have e1 := DepTreeProofs.arcCell_lt hh hk
    have e2 : lenOf q.d1 lengths b ≤ q.d1 := (DepTreeProofs.len_le h hb).1
    have e3 := h.square
    exact ⟨_, _, l, rfl, by omega, by omega, hl'⟩
  obtain ⟨z, z', h1, h2, h3⟩ := (DepTreeProofs.batchDP mr DepTree.negBig q lengths h).parabola D' hμ b hb
    (range q.d1 ×ˢ range q.d2 ×ˢ range q.labels) (fun x => DepTreeProofs.cellTag (decide q.labeled) b x.1 x.2.1 x.2.2)
    (fun x hx y hy hxy => by
      obtain ⟨-, e1, e2, e3⟩ := DepTreeProofs.cellTag_inj hxy
      refine Prod.ext e1 (Prod.ext e2 ?_)
      rcases hl _ (mem3.1 hx).2.2 with hq | hx0
      · exact e3 (decide_eq_true hq)
      · rcases hl _ (mem3.1 hy).2.2 with hq | hy0
        · exact e3 (decide_eq_true hq)
        · exact hx0.trans hy0.symm)
    (fun e he => by
      obtain ⟨i, j, l, rfl, m1, m2, m3⟩ := inside e he
      exact ⟨(i, j, l), mem3.2 ⟨m1, m2, m3⟩, rfl⟩)
    (fun x _ => by simp [DepTreeProofs.cellTag]) (fun _ _ y => y.elim) (d := fun _ => c)
    (fun e he => by
      obtain ⟨i, j, l, rfl, m1, m2, m3⟩ := inside e he
      rw [DepTreeProofs.atQ_cell _ q _ _ _ _ (hl l m3)]
      have := DepTreeProofs.atQ_cell DepTree.negBig { q with get := g } b i j l (hl l m3)
      refine le_trans (le_of_eq (congrArg (fun y => |y - _|) this)) ?_
      exact hd i m1 j m2 l m3)
    (K := q.d1 * c)
    (by
      have := arcs_cost mr (q := q) h.labels le_rfl hc le_rfl lengths
      simpa using this)
  refine ⟨z, z', by rw [DepTree.partition, hv q rfl rfl rfl]; exact h1, by rw [DepTree.partition, hv { q with get := g } rfl rfl rfl]; exact h2, ?_⟩
  rw [← sum3 q.d1 q.d2 q.labels fun i j l => μ (DepTreeProofs.cellTag (decide q.labeled) b i j l) * (g b i j l - q.get b i j l)]
  refine le_trans h3 (le_of_eq ?_)
  congr 2
  refine sum_congr rfl fun x hx => ?_
  have e4 := hl _ (mem3.1 hx).2.2
  rw [DepTreeProofs.atQ_cell _ q _ _ _ _ e4]
  have := DepTreeProofs.atQ_cell DepTree.negBig { q with get := g } b x.1 x.2.1 x.2.2 e4
  exact congrArg (fun y => _ * (y - _)) this

theorem arc_step (mr : Bool) (q : DepTree.Arcs ℝ) (lengths : Option (List ℕ)) (h : DepTreeProofs.Valid mr q lengths) :
    ∃ μ, DepTree.marginals mr q lengths = .ok μ ∧ ∀ b < q.d0, ∀ values : List (ℕ → ℕ → ℕ → ℝ), values ≠ [] → ∀ η : ℝ, 0 ≤ η → ∀ g : ℕ → ℕ → ℕ → ℕ → ℝ,
      (∀ i < q.d1, ∀ j < q.d2, ∀ l < q.labels,
        g b i j l = q.get b i j l + η * (mean values (fun v => v i j l) - μ (DepTreeProofs.cellTag (decide q.labeled) b i j l))) →
      ∃ L L' : (ℕ → ℕ → ℕ → ℝ) → ℝ, (∀ v, DepTree.logProb mr q lengths b v = .ok (L v)) ∧ (∀ v, DepTree.logProb mr { q with get := g } lengths b v = .ok (L' v)) ∧
        mean values L + η * (1 - (q.d1 : ℝ) ^ 2 * η / 2) * ∑ i ∈ range q.d1, ∑ j ∈ range q.d2, ∑ l ∈ range q.labels,
          (mean values (fun v => v i j l) - μ (DepTreeProofs.cellTag (decide q.labeled) b i j l)) ^ 2 ≤ mean values L' := by
  obtain ⟨μ, hμ, par⟩ := arc_parabola mr q lengths h
  refine ⟨μ, hμ, fun b hb values hne η hη g hg => ?_⟩
  obtain ⟨L, L', h1, h2, h3⟩ := step (fun v => DepTree.logProb mr q lengths b v) (fun v => DepTree.logProb mr { q with get := g } lengths b v)
    (DepTree.partition mr q lengths) (DepTree.partition mr { q with get := g } lengths) (fun e : ℕ × ℕ × ℕ => q.get b e.1 e.2.1 e.2.2) (fun e => g b e.1 e.2.1 e.2.2)
    (cut3 q.d1 q.d2 q.labels) b (range q.d1 ×ˢ range q.d2 ×ˢ range q.labels) (range q.d1 ×ˢ range q.d2 ×ˢ range q.labels) subset_rfl
    (fun v => by rw [DepTree.logProb]; simp only [score3 q.d1 q.d2 q.labels (q.get b) v])
    (fun v => by
      have hl : DepTree.Arcs.labels ({ q with get := g } : DepTree.Arcs ℝ) = q.labels := rfl
      rw [DepTree.logProb]
      simp only [hl, score3 q.d1 q.d2 q.labels (g b) v])
    (fun e => μ (DepTreeProofs.cellTag (decide q.labeled) b e.1 e.2.1 e.2.2)) q.d1 η hη values hne (fun v _ e he => if_neg fun hc => he (mem3.2 hc))
    (fun e he => by
      obtain ⟨m1, m2, m3⟩ := mem3.1 he
      simp only [cut3_of _ (mem3.1 he)]
      exact hg _ m1 _ m2 _ m3)
    (fun c hc hx => by
      obtain ⟨z, z', e1, e2, e3⟩ := par b hb g c hc fun i hi j hj a ha => hx (i, j, a) (mem3.2 ⟨hi, hj, ha⟩)
      refine ⟨z, z', e1, e2, ?_⟩
      rw [sum3 q.d1 q.d2 q.labels fun i j l => μ (DepTreeProofs.cellTag (decide q.labeled) b i j l) * (g b i j l - q.get b i j l)]
      exact e3)
  refine ⟨L, L', h1, h2, ?_⟩
  refine le_trans (le_of_eq ?_) h3
  rw [← sum3 q.d1 q.d2 q.labels fun i j l => (mean values (fun v => v i j l) - μ (DepTreeProofs.cellTag (decide q.labeled) b i j l)) ^ 2]
  congr 2
  exact sum_congr rfl fun e he => by simp only [cut3_of _ (mem3.1 he)]

/-- **C112, `DependencyCRF`.** One step along the gradient of the mean log-probability of the observed events. -/
theorem dependency_step (mr : Bool) (q : DepTree.Arcs ℝ) (lengths : Option (List ℕ)) (h : Dependency.Valid mr q lengths) :
    ∃ μ, DepTree.marginals mr q lengths = .ok μ ∧ ∀ b < q.d0, ∀ values : List (ℕ → ℕ → ℕ → ℝ), values ≠ [] → ∀ η : ℝ, 0 ≤ η → ∀ g : ℕ → ℕ → ℕ → ℕ → ℝ,
      (∀ i < q.d1, ∀ j < q.d2, g b i j 0 = q.get b i j 0 + η * (mean values (fun v => v i j 0) - μ [b, i, j])) →
      ∃ L L' : (ℕ → ℕ → ℕ → ℝ) → ℝ, (∀ v, DepTree.logProb mr q lengths b v = .ok (L v)) ∧ (∀ v, DepTree.logProb mr { q with get := g } lengths b v = .ok (L' v)) ∧
        mean values L + η * (1 - (q.d1 : ℝ) ^ 2 * η / 2) * ∑ i ∈ range q.d1, ∑ j ∈ range q.d2, (mean values (fun v => v i j 0) - μ [b, i, j]) ^ 2 ≤ mean values L' := by
  obtain ⟨μ, h1, h2⟩ := arc_step mr q lengths h.toValid
  refine ⟨μ, h1, fun b hb values hne η hη g hg => ?_⟩
  obtain ⟨L, L', e1, e2, e3⟩ := h2 b hb values hne η hη g (by simpa [DepTreeProofs.labels_one h.rank, DepTreeProofs.cellTag, DepTreeProofs.not_labeled h.rank] using hg)
  refine ⟨L, L', e1, e2, ?_⟩
  simpa [DepTreeProofs.labels_one h.rank, DepTreeProofs.cellTag, DepTreeProofs.not_labeled h.rank] using e3

/-- **C112, `DependencyCRF` with labels.** -/
theorem labelled_step (mr : Bool) (q : DepTree.Arcs ℝ) (lengths : Option (List ℕ)) (h : LabelledDependency.Valid mr q lengths) :
    ∃ μ, DepTree.marginals mr q lengths = .ok μ ∧ ∀ b < q.d0, ∀ values : List (ℕ → ℕ → ℕ → ℝ), values ≠ [] → ∀ η : ℝ, 0 ≤ η → ∀ g : ℕ → ℕ → ℕ → ℕ → ℝ,
      (∀ i < q.d1, ∀ j < q.d2, ∀ l < q.labels, g b i j l = q.get b i j l + η * (mean values (fun v => v i j l) - μ [b, i, j, l])) →
      ∃ L L' : (ℕ → ℕ → ℕ → ℝ) → ℝ, (∀ v, DepTree.logProb mr q lengths b v = .ok (L v)) ∧ (∀ v, DepTree.logProb mr { q with get := g } lengths b v = .ok (L' v)) ∧
        mean values L + η * (1 - (q.d1 : ℝ) ^ 2 * η / 2) * ∑ i ∈ range q.d1, ∑ j ∈ range q.d2, ∑ l ∈ range q.labels,
          (mean values (fun v => v i j l) - μ [b, i, j, l]) ^ 2 ≤ mean values L' := by
  obtain ⟨μ, h1, h2⟩ := arc_step mr q lengths h.toValid
  refine ⟨μ, h1, fun b hb values hne η hη g hg => ?_⟩
  obtain ⟨L, L', e1, e2, e3⟩ := h2 b hb values hne η hη g (by simpa [DepTreeProofs.cellTag, DepTreeProofs.is_labeled h.rank] using hg)
  refine ⟨L, L', e1, e2, ?_⟩
  simpa [DepTreeProofs.cellTag, DepTreeProofs.is_labeled h.rank] using e3

/-! ### The hypotheses are met

A step of size `1 / 25` on the sample of `TreeCRF` (three words, so `(2 * 3 - 1)² = 25`) gains at least half of the squared gradient divided by `25`. -/

/-- An event of the second row of the sample, with two words. -/
def observed (i j a : ℕ) : ℝ := if i ≤ j ∧ j < 2 ∧ a = 0 then 1 else 0

example : ∃ μ, Dist.marginals CKYCRF.algo TreeCRF.sample (some [3, 2]) = .ok μ ∧ ∃ L L' : (ℕ → ℕ → ℕ → ℝ) → ℝ,
    (∀ v, CKYCRF.logProb TreeCRF.sample (some [3, 2]) 1 v = .ok (L v)) ∧
    (∀ v, CKYCRF.logProb { TreeCRF.sample with get := fun b i j a => TreeCRF.sample.get b i j a + 1 / 25 * (observed i j a - μ [b, i, j, a]) } (some [3, 2]) 1 v = .ok (L' v)) ∧
    L observed ≤ L' observed := by
  obtain ⟨μ, h1, h2⟩ := tree_step TreeCRF.sample _ TreeCRF.sample_valid
  obtain ⟨L, L', e1, e2, e3⟩ := h2 1 (by decide) [observed] (by simp) (1 / 25) (by norm_num)
    (fun b i j a => TreeCRF.sample.get b i j a + 1 / 25 * (observed i j a - μ [b, i, j, a])) fun i _ j _ a _ => by simp [mean]
  refine ⟨μ, h1, L, L', e1, e2, ?_⟩
  have hd : (TreeCRF.sample.d1 : ℝ) = 3 := by norm_num [TreeCRF.sample]
  rw [hd] at e3
  have hs : ∀ f : ℕ → ℕ → ℕ → ℝ, 0 ≤ ∑ i ∈ range TreeCRF.sample.d1, ∑ j ∈ range TreeCRF.sample.d2, ∑ a ∈ range TreeCRF.sample.d3, f i j a ^ 2 :=
    fun f => sum_nonneg fun i _ => sum_nonneg fun j _ => sum_nonneg fun a _ => sq_nonneg _
  simp only [mean, List.map_cons, List.map_nil, List.sum_cons, List.sum_nil, add_zero, List.length_singleton, Nat.cast_one, div_one] at e3
  exact le_trans (le_add_of_nonneg_right (mul_nonneg (by norm_num) (hs _))) e3

/-- An event of the second row of the sample of the chain, which has one edge. -/
def observedEdge (n i j : ℕ) : ℝ := if n = 0 ∧ i = 1 ∧ j = 0 then 1 else 0

example : ∃ L L' : (ℕ → ℕ → ℕ → ℝ) → ℝ, (∀ v, _root_.LinearChain.logProb LinearChain.sample (some [3, 2]) 1 v = .ok (L v)) ∧ L observedEdge ≤ L' observedEdge := by
  obtain ⟨μ, h1, h2⟩ := chain_step LinearChain.sample _ LinearChain.sample_valid
  have hn : LinearChain.numEdges LinearChain.sample (some [3, 2]) 1 = 1 := rfl
  obtain ⟨L, L', e1, e2, e3⟩ := h2 1 (by decide) [observedEdge] (by simp)
    (by simp only [List.mem_singleton, forall_eq, hn]; exact fun n i j hn => if_neg (by omega)) 1 (by norm_num)
    (fun b n i j => LinearChain.sample.get b n i j + 1 * (observedEdge n i j - μ [b, n, i, j])) fun i _ j _ a _ => by simp [mean]
  refine ⟨L, L', e1, ?_⟩
  rw [hn] at e3
  simp only [mean, List.map_cons, List.map_nil, List.sum_cons, List.sum_nil, add_zero, List.length_singleton, Nat.cast_one, div_one] at e3
  exact le_trans (le_add_of_nonneg_right (mul_nonneg (by norm_num) (sum_nonneg fun i _ => sum_nonneg fun j _ => sum_nonneg fun a _ => sq_nonneg _))) e3

example (mr : Bool) : ∃ μ, DepTree.marginals mr LabelledDependency.sample (some [3, 2]) = .ok μ := by
  obtain ⟨μ, h, -⟩ := labelled_step mr LabelledDependency.sample _ (LabelledDependency.sample_valid mr)
  exact ⟨μ, h⟩

example (mr : Bool) : ∃ μ, DepTree.marginals mr Dependency.sample (some [3, 2]) = .ok μ := by
  obtain ⟨μ, h, -⟩ := dependency_step mr Dependency.sample _ (Dependency.sample_valid mr)
  exact ⟨μ, h⟩

example : ∃ μ, Dist.marginals _root_.SemiMarkov.algo SemiMarkov.sample (some [4, 3]) = .ok μ := by
  obtain ⟨μ, h, -⟩ := semimarkov_step SemiMarkov.sample _ SemiMarkov.sample_valid
  exact ⟨μ, h⟩

end Props.Ascent
